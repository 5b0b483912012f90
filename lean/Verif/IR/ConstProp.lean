import Verif.IR.SymPropMain

/-
Model of ConstantPropagation (sdfg/src/passes/dataflow/constant_propagation.cpp): the second of two definitions of a container is
removed when both look identical.
-/
namespace Docc.IR
open Docc.Sym

/-- a definition of a container: an assignment of a transition or a tasklet -/
inductive Dfn where
  | asg (x : String) (e : Expr)
  | task (op : String) (ins : List (String × List Expr)) (x : String) (sub : List Expr)
  deriving DecidableEq

/-- the container that is defined -/
def Dfn.name : Dfn → String
  | .asg x _ => x
  | .task _ _ x _ => x

/-- users.cpp `User::subsets` of the write: a transition writes a scalar -/
def Dfn.subset : Dfn → List Expr
  | .asg _ _ => []
  | .task _ _ _ sub => sub

/-- constant_propagation.cpp:16-44, 46-57 `inputs`: the reads of the definition and their subsets -/
def Dfn.inputs : Dfn → List (String × List Expr)
  | .asg _ e => e.atoms.map fun y => (y, [])
  | .task _ ins _ _ => ins

/-- the symbols of the subsets, constant_propagation.cpp:118-121, 225-228 -/
def Dfn.indices (d : Dfn) : List String := Expr.atomsL d.subset ++ d.inputs.flatMap fun m => Expr.atomsL m.2

/-- an assignment of a transition is the definition -/
def Dfn.isAsg (d : Dfn) (a : String × Expr) : Bool := decide (d = .asg a.1 a.2)

/-- a computation of a block is the definition -/
def Dfn.isStmt (d : Dfn) : Stmt → Bool
  | .tasklet op ins x sub => decide (d = .task op ins x sub)
  | .lib _ _ _ => false

/-- constant_propagation.cpp:246-248: the assignments of a transition without the one whose write is `w`; writes are numbered from `k` -/
def dropAsg (w : V) : Trans → Nat → Trans
  | [], _ => []
  | a :: t, k => if V.ev k (.write, a.1) = w then dropAsg w t (k + 1) else a :: dropAsg w t (k + 1)

/-- constant_propagation.cpp:249-254: `clear_node` removes the tasklet that computes the written value -/
def dropStmt (w : V) : List Stmt → Nat → List Stmt
  | [], _ => []
  | s :: l, k => if w ∈ evs k s.users then dropStmt w l (k + s.users.length) else s :: dropStmt w l (k + s.users.length)

mutual
/-- constant_propagation.cpp:244-255: remove the definition `w`; vertices of the users graph are numbered from `k` -/
def Node.drop (w : V) : Node → Nat → Node
  | .block l, k => .block (dropStmt w l (k + 2))
  | .seq s, k => .seq (s.drop w (k + 2))
  | .ifElse b, k => .ifElse (b.drop w (k + 2 + (readsOnce b.condAtoms).length))
  | .whileL s, k => .whileL (s.drop w (k + 4))
  | .loop m i init cond upd s, k =>
    .loop m i init cond upd (s.drop w (k + 2 + (initUses i init).length + (condUses cond).length + 2))
  | .brk, _ => .brk
  | .cont, _ => .cont
  | .ret d q, _ => .ret d q
def Seq.drop (w : V) : Seq → Nat → Seq
  | .nil, _ => .nil
  | .cons n t q, k =>
    .cons (n.drop w k) (dropAsg w t (k + n.vn + (readsOnce (t.flatMap fun a => a.2.atoms)).length)) (q.drop w (k + n.vn + (transUses t).length))
def Brs.drop (w : V) : Brs → Nat → Brs
  | .nil, _ => .nil
  | .cons c s q, k => .cons c (s.drop w (k + 2)) (q.drop w (k + 2 + s.kn))
end

/-! ### specification of the hypotheses -/

/-- the computation that contains the vertex `w` is the definition `d` -/
def stmtDfn (d : Dfn) (w : V) : List Stmt → Nat → Bool
  | [], _ => true
  | s :: l, k => (!decide (w ∈ evs k s.users) || d.isStmt s) && stmtDfn d w l (k + s.users.length)

/-- the assignment with the vertex `w` is the definition `d` -/
def asgDfn (d : Dfn) (w : V) : Trans → Nat → Bool
  | [], _ => true
  | a :: t, k => (!decide (V.ev k (.write, a.1) = w) || d.isAsg a) && asgDfn d w t (k + 1)

mutual
/-- the write `w` is performed by the definition `d` only -/
def Node.dfn (d : Dfn) (w : V) : Node → Nat → Bool
  | .block l, k => stmtDfn d w l (k + 2)
  | .seq s, k => s.dfn d w (k + 2)
  | .ifElse b, k => !decide (w ∈ evs (k + 2) (readsOnce b.condAtoms)) && b.dfn d w (k + 2 + (readsOnce b.condAtoms).length)
  | .whileL s, k => s.dfn d w (k + 4)
  | .loop _ i init cond upd s, k =>
    let k2 := k + 2 + (initUses i init).length
    let kb := k2 + (condUses cond).length
    !decide (w ∈ evs (k + 2) (initUses i init)) && !decide (w ∈ evs k2 (condUses cond)) &&
      !decide (w ∈ evs (kb + 2 + s.kn) (updUses i upd)) && s.dfn d w (kb + 2)
  | .brk, _ => true
  | .cont, _ => true
  | .ret c _, k => !decide (w = .ev k (.read, c))
def Seq.dfn (d : Dfn) (w : V) : Seq → Nat → Bool
  | .nil, _ => true
  | .cons n t q, k =>
    n.dfn d w k && !decide (w ∈ evs (k + n.vn) (readsOnce (t.flatMap fun a => a.2.atoms))) &&
      asgDfn d w t (k + n.vn + (readsOnce (t.flatMap fun a => a.2.atoms)).length) && q.dfn d w (k + n.vn + (transUses t).length)
def Brs.dfn (d : Dfn) (w : V) : Brs → Nat → Bool
  | .nil, _ => true
  | .cons _ s q, k => s.dfn d w (k + 2) && q.dfn d w (k + 2 + s.kn)
end

/-- constant_propagation.cpp:76-241: the criteria of the pass for the definitions `d1` (by `w1`) and `d2` (by `w2`).  Operations and right-hand sides are
not compared.  Not modelled: moves and views of containers. -/
structure TwoDefs (G : List (V × V)) (d1 d2 : Dfn) (w1 w2 : V) : Prop where
  /-- 78-92: exactly these two write the container -/
  writers : ∀ u z, (u, z) ∈ G → u.wr d1.name = true → u = w1 ∨ u = w2
  name : d2.name = d1.name
  /-- 94-100 -/
  dom : Dominates G (.nop 0) w1 w2
  /-- 102-134 -/
  subset : d2.subset = d1.subset
  /-- 122-130, 229-237: symbols of subsets are not written between the definitions -/
  fixed : ∀ u z, (u, z) ∈ G → ∀ y ∈ d1.indices, u.wr y = true → ¬ UsedBetween G w1 w2 u
  /-- 137-146 -/
  hasIn : d1.inputs ≠ []
  count : d2.inputs.length = d1.inputs.length
  /-- 150-154 -/
  recur : ∀ m ∈ d1.inputs, m.1 ≠ d1.name
  /-- 156-162 -/
  before : ∀ m ∈ d1.inputs, ∀ u z, (u, z) ∈ G → u.wr m.1 = true → Dominates G (.nop 0) u w1
  /-- 187-224 -/
  same : ∀ m ∈ d1.inputs, m ∈ d2.inputs

end Docc.IR
