import Verif.IR.UGraphFlowProps
import Verif.IR.UGraphPost
import Verif.IR.ReplaceProps
import Verif.IR.UsersProps

/-
Model of SymbolPropagation, forward propagation (sdfg/src/passes/symbolic/symbol_propagation.cpp:164-420): an assignment `x := e` of a
transition is propagated into one read of `x`.  `r` is the vertex of the read in the users graph.
-/
namespace Docc.IR
open Docc.Sym

/-- symbol_propagation.cpp:338-349: the subset of the memlet that contains the read with number `j` -/
def propIns (x : String) (e : Expr) : List (String × List Expr) → Nat → List (String × List Expr)
  | [], _ => []
  | m :: r, j =>
    if j < (Expr.atomsL m.2).length then (m.1, m.2.map fun d => d.subs (.sym x) e) :: r
    else m :: propIns x e r (j - (Expr.atomsL m.2).length)

/-- symbol_propagation.cpp:350-360: an access node that reads `x` itself is redirected to `y` when `e` is the symbol `y`.  (Not modelled:
the replacement of an access node by a constant node, lines 361-398.) -/
def propAcc (x : String) (e : Expr) (ins : List (String × List Expr)) (j : Nat) : List (String × List Expr) :=
  match e with
  | .sym y => ins.modify j fun m => if m = (x, []) then (y, []) else m
  | _ => ins

/-- symbol_propagation.cpp:338-398 on one computation; `j` is the number of the read among its uses.  (Library nodes, lines 399-405, are
left as they are.) -/
def Stmt.prop (x : String) (e : Expr) (j : Nat) : Stmt → Stmt
  | .tasklet op ins out sub =>
    if j < ins.length then .tasklet op (propAcc x e ins j) out sub
    else if j < ins.length + (ins.flatMap fun r => Expr.atomsL r.2).length then .tasklet op (propIns x e ins (j - ins.length)) out sub
    else .tasklet op ins out (sub.map fun d => d.subs (.sym x) e)
  | .lib op reads writes => .lib op reads writes

/-- the computation that contains the read -/
def propBlock (x : String) (e : Expr) (r : V) : List Stmt → Nat → List Stmt
  | [], _ => []
  | s :: l, k => if r ∈ evs k s.users then s.prop x e (r.id - k) :: l else s :: propBlock x e r l (k + s.users.length)

/-- symbol_propagation.cpp:306-313: all right-hand sides of the transition -/
def propTrans (x : String) (e : Expr) (t : Trans) : Trans := t.map fun a => (a.1, a.2.subs (.sym x) e)

/-- symbol_propagation.cpp:329-337: all conditions of the if-else -/
def Brs.propC (x : String) (e : Expr) : Brs → Brs
  | .nil => .nil
  | .cons c s r => .cons (c.subs (.sym x) e) s (r.propC x e)

mutual
/-- symbol_propagation.cpp:306-433: replace `x` by `e` in the element that contains the read `r`; the vertices of the node are numbered
from `k`. -/
def Node.prop (x : String) (e : Expr) (r : V) : Node → Nat → Node
  | .block l, k => .block (propBlock x e r l (k + 2))
  | .seq s, k => .seq (s.prop x e r (k + 2))
  | .ifElse b, k =>
    if r ∈ evs (k + 2) (readsOnce b.condAtoms) then .ifElse (b.propC x e)
    else .ifElse (b.prop x e r (k + 2 + (readsOnce b.condAtoms).length))
  | .whileL s, k => .whileL (s.prop x e r (k + 4))
  | .loop m i init cond upd s, k =>
    let k2 := k + 2 + (initUses i init).length
    let kb := k2 + (condUses cond).length
    .loop m i (if r ∈ evs (k + 2) (initUses i init) then init.subs (.sym x) e else init)
      (if r ∈ evs k2 (condUses cond) then cond.subs (.sym x) e else cond)
      (if r ∈ evs (kb + 2 + s.kn) (updUses i upd) then upd.subs (.sym x) e else upd) (s.prop x e r (kb + 2))
  | .brk, _ => .brk
  | .cont, _ => .cont
  | .ret d q, _ => .ret d q
/-- on the children of a sequence and their transitions -/
def Seq.prop (x : String) (e : Expr) (r : V) : Seq → Nat → Seq
  | .nil, _ => .nil
  | .cons n t q, k =>
    .cons (n.prop x e r k) (if r ∈ evs (k + n.vn) (transUses t) then propTrans x e t else t)
      (q.prop x e r (k + n.vn + (transUses t).length))
/-- on the cases -/
def Brs.prop (x : String) (e : Expr) (r : V) : Brs → Nat → Brs
  | .nil, _ => .nil
  | .cons c s q, k => .cons c (s.prop x e r (k + 2)) (q.prop x e r (k + 2 + s.kn))
end

/-! ### specification of the hypotheses -/

/-- the vertex writes container `y` -/
def V.wr : V → String → Bool
  | .nop _, _ => false
  | .ev _ u, y => decide (u = (.write, y))

mutual
/-- the write `w` is performed by assignments `x := e` of transitions only -/
def Node.asg (x : String) (e : Expr) (w : V) : Node → Nat → Bool
  | .block l, k => !decide (w ∈ evs (k + 2) (l.flatMap Stmt.users))
  | .seq s, k => s.asg x e w (k + 2)
  | .ifElse b, k => !decide (w ∈ evs (k + 2) (readsOnce b.condAtoms)) && b.asg x e w (k + 2 + (readsOnce b.condAtoms).length)
  | .whileL s, k => s.asg x e w (k + 4)
  | .loop _ i init cond upd s, k =>
    let k2 := k + 2 + (initUses i init).length
    let kb := k2 + (condUses cond).length
    !decide (w ∈ evs (k + 2) (initUses i init)) && !decide (w ∈ evs k2 (condUses cond)) &&
      !decide (w ∈ evs (kb + 2 + s.kn) (updUses i upd)) && s.asg x e w (kb + 2)
  | .brk, _ => true
  | .cont, _ => true
  | .ret d _, k => !decide (w = .ev k (.read, d))
def Seq.asg (x : String) (e : Expr) (w : V) : Seq → Nat → Bool
  | .nil, _ => true
  | .cons n t q, k =>
    n.asg x e w k && !decide (w ∈ evs (k + n.vn) (readsOnce (t.flatMap fun a => a.2.atoms))) &&
      ((t.zipIdx (k + n.vn + (readsOnce (t.flatMap fun a => a.2.atoms)).length)).all fun p =>
        !decide (V.ev p.2 (.write, p.1.1) = w) || decide (p.1 = (x, e))) &&
      q.asg x e w (k + n.vn + (transUses t).length)
def Brs.asg (x : String) (e : Expr) (w : V) : Brs → Nat → Bool
  | .nil, _ => true
  | .cons _ s q, k => s.asg x e w (k + 2) && q.asg x e w (k + 2 + s.kn)
end

mutual
/-- the transition that contains the read `r` assigns none of the symbols `ys` -/
def Node.apart (ys : List String) (r : V) : Node → Nat → Bool
  | .block _, _ => true
  | .seq s, k => s.apart ys r (k + 2)
  | .ifElse b, k => b.apart ys r (k + 2 + (readsOnce b.condAtoms).length)
  | .whileL s, k => s.apart ys r (k + 4)
  | .loop _ i init cond _ s, k => s.apart ys r (k + 2 + (initUses i init).length + (condUses cond).length + 2)
  | .brk, _ => true
  | .cont, _ => true
  | .ret _ _, _ => true
def Seq.apart (ys : List String) (r : V) : Seq → Nat → Bool
  | .nil, _ => true
  | .cons n t q, k =>
    n.apart ys r k && (!decide (r ∈ evs (k + n.vn) (transUses t)) || t.all fun a => !decide (a.1 ∈ ys)) &&
      q.apart ys r (k + n.vn + (transUses t).length)
def Brs.apart (ys : List String) (r : V) : Brs → Nat → Bool
  | .nil, _ => true
  | .cons _ s q, k => s.apart ys r (k + 2) && q.apart ys r (k + 2 + s.kn)
end

/-- contract of `DataDependencyAnalysis::defined_by` with the single answer `w` for the read `r` (symbol_propagation.cpp:94-100, 164-171): whenever `r`
is performed, `w` is the last write of `x` before it. -/
def DefinedBy (E : Env) (s : Seq) (x : String) (w r : V) : Prop :=
  ∀ σ l o, s.Performs E σ (l ++ [r]) o → ∃ a b, l = a ++ w :: b ∧ ∀ v ∈ b, v.wr x = false

/-- symbol_propagation.cpp:207-223 `is_dangerous` -/
def Dangerous (G : List (V × V)) (w r u : V) : Prop := u ≠ w ∧ u ≠ r ∧ Dominates G (.nop 0) w u ∧ ¬ Dominates G (.nop 0) r u

/-- symbol_propagation.cpp:182-245: `e` is propagated unchanged: it is not recursive, the write dominates the read, and either no write of a
symbol of `e` is dangerous or none lies between write and read (otherwise the pass tries to invert the modifications of these symbols, lines 246-303). -/
def Accepted (G : List (V × V)) (x : String) (e : Expr) (w r : V) : Prop :=
  x ∉ e.atoms ∧ Dominates G (.nop 0) w r ∧
    ((∀ u z, (u, z) ∈ G → ∀ y ∈ e.atoms, u.wr y = true → ¬ Dangerous G w r u) ∨
      (∀ u z, (u, z) ∈ G → ∀ y ∈ e.atoms, u.wr y = true → ¬ UsedBetween G w r u))

/-- symbol_propagation.cpp:22-59 `inverse`: the expression for the old value of `x` after `x := d`.  Only the first two arguments are looked
at. -/
def propInverse (x : String) (d : Expr) : Option Expr :=
  if d.uses x = false then none
  else match d with
    | .add (a0 :: a1 :: _) =>
      let (a0, a1) := if a0 = .sym x then (a0, a1) else (a1, a0)
      if a0 = .sym x then match a1 with
        | .int c => some (.add [.sym x, .mul [.int (-1), .int c]])
        | _ => none
      else none
    | .mul (a0 :: a1 :: _) =>
      let (a0, a1) := if a0 = .sym x then (a0, a1) else (a1, a0)
      if a0 = .sym x then match a1 with
        | .int c => some (if c = 0 then .fn "idiv" [.sym x, .int c] else if c = 1 then .sym x else .fn "idiv" [.sym x, .int c])
        | _ => none
      else none
    | _ => none

/-- symbol_propagation.cpp:246-303: the only write between write and read of a symbol of `e` is the assignment `y := d` by `u`; it lies between
them in the sense of dominance and is inverted: `e'` is propagated. -/
def AcceptedInv (G : List (V × V)) (s : Seq) (x : String) (e : Expr) (w r : V) (y : String) (d : Expr) (u : V) (e' : Expr) : Prop :=
  x ∉ e.atoms ∧ Dominates G (.nop 0) w r ∧ (∀ u' z, (u', z) ∈ G → ∀ y' ∈ e.atoms, u'.wr y' = true → UsedBetween G w r u' → u' = u) ∧
    u.wr y = true ∧ s.asg y d u 2 = true ∧ Dominates G (.nop 0) w u ∧ Dominates G (.nop 0) u r ∧ (∀ z ∈ d.atoms, z = y) ∧
    ∃ inv, propInverse y d = some inv ∧ e' = e.subs (.sym y) inv

/-! ### reverse propagation -/

/-- the right-hand side a transition assigns by the write `w` -/
def transAt (w : V) (t : Trans) (k : Nat) : Option Expr :=
  ((t.zipIdx k).find? fun p => decide (V.ev p.2 (.write, p.1.1) = w)).map fun p => p.1.2

/-- symbol_propagation.cpp:153-155 on one transition whose vertices start at `k`: behind the write of `a` by `w1` or `w2` also `b` is assigned, and the
assignment of `b` by the transition with the read `r` is erased. -/
def revTrans (b : String) (w1 w2 r : V) (t : Trans) (k : Nat) : Trans :=
  let j := k + (readsOnce (t.flatMap fun a => a.2.atoms)).length
  match transAt w1 t j, transAt w2 t j with
  | some e, _ => t ++ [(b, e)]
  | none, some e => t ++ [(b, e)]
  | none, none => if r ∈ evs k (transUses t) then t.filter fun a => a.1 != b else t

mutual
/-- symbol_propagation.cpp:102-162: `if (…) { a = 1 } else { a = 2 } b = a` becomes `if (…) { a = 1; b = 1 } else { a = 2; b = 2 }`. -/
def Node.rev (b : String) (w1 w2 r : V) : Node → Nat → Node
  | .seq s, k => .seq (s.rev b w1 w2 r (k + 2))
  | .ifElse q, k => .ifElse (q.rev b w1 w2 r (k + 2 + (readsOnce q.condAtoms).length))
  | .whileL s, k => .whileL (s.rev b w1 w2 r (k + 4))
  | .loop m i init cond upd s, k =>
    .loop m i init cond upd (s.rev b w1 w2 r (k + 2 + (initUses i init).length + (condUses cond).length + 2))
  | n, _ => n
def Seq.rev (b : String) (w1 w2 r : V) : Seq → Nat → Seq
  | .nil, _ => .nil
  | .cons n t q, k => .cons (n.rev b w1 w2 r k) (revTrans b w1 w2 r t (k + n.vn)) (q.rev b w1 w2 r (k + n.vn + (transUses t).length))
def Brs.rev (b : String) (w1 w2 r : V) : Brs → Nat → Brs
  | .nil, _ => .nil
  | .cons c s q, k => .cons c (s.rev b w1 w2 r (k + 2)) (q.rev b w1 w2 r (k + 2 + s.kn))
end

/-- contract of `defined_by` with two answers -/
def DefinedBy2 (E : Env) (s : Seq) (a : String) (w1 w2 r : V) : Prop :=
  ∀ σ l o, s.Performs E σ (l ++ [r]) o → ∃ p q w, (w = w1 ∨ w = w2) ∧ l = p ++ w :: q ∧ ∀ v ∈ q, v.wr a = false

/-- symbol_propagation.cpp:102-150: the conditions of the reverse propagation of `b := a` -/
def RevAccepted (E : Env) (C : Brs → Bool) (s : Seq) (a b : String) (e1 e2 : Expr) (w1 w2 r : V) : Prop :=
  DefinedBy2 E s a w1 w2 r ∧ PostDominates (s.graph C) r w1 ∧ PostDominates (s.graph C) r w2 ∧
    (s.users.filter fun u => u = (.read, a)).length = 1 ∧ s.asg a e1 w1 2 = true ∧ s.asg a e2 w2 2 = true ∧
    s.apart [b] w1 2 = true ∧ s.apart [b] w2 2 = true ∧ b ∉ e1.atoms ∧ b ∉ e2.atoms

end Docc.IR
