import Verif.IR.Users
import Verif.IR.Sem

/-
The graph of the users analysis (sdfg/src/analysis/users.cpp:80-430), the queries on it (users.cpp:650-760,
sdfg/src/analysis/dominance_analysis.cpp), and, as specification, the order in which an execution performs the uses.
-/
namespace Docc.IR
open Docc.Sym

/-- users.h `User`: a vertex of the graph, either without use (`NOP`) or a use of a container by an element.  The number
identifies the vertex.  (Simplification: vertices are numbered by their position in the program, not by creation.) -/
inductive V where
  | nop (k : Nat)
  | ev (k : Nat) (u : User)
  deriving Repr, DecidableEq, Inhabited

/-- consecutive uses, numbered from `k` -/
def evs (k : Nat) (us : List User) : List V := (us.zipIdx k).map fun p => .ev p.2 p.1

/-- a path `a → v₁ → v₂ → …` -/
def chainE : V → List V → List (V × V)
  | _, [] => []
  | a, v :: r => (a, v) :: chainE v r

/-- the last vertex of the path -/
def chainEnd : V → List V → V
  | a, [] => a
  | _, v :: r => chainEnd v r

/-- users.cpp:209-229 and 250-263: every symbol of a transition or of the conditions of an if-else is listed once;
`symbolic::atoms` is a set. -/
def readsOnce (l : List String) : List User := readsOf l.eraseDups

/-- users.cpp:207-232: uses of a transition: the symbols that are read, then those that are written. -/
def transUses (t : Trans) : List User := readsOnce (t.flatMap fun a => a.2.atoms) ++ t.map fun a => (.write, a.1)

/-- users.cpp:351-365: uses of the initialisation -/
def initUses (i : String) (init : Expr) : List User := readsOnce init.atoms ++ [(.write, i)]

/-- users.cpp:367-375: uses of the condition -/
def condUses (c : Cond) : List User := readsOnce c.atoms

/-- users.cpp:380-395: uses of the update -/
def updUses (i : String) (upd : Expr) : List User := readsOnce upd.atoms ++ [(.write, i)]

mutual
/-- number of vertices of a node -/
def Node.vn : Node → Nat
  | .block l => 2 + (l.flatMap Stmt.users).length
  | .seq s => 2 + s.kn
  | .ifElse b => 2 + (readsOnce b.condAtoms).length + b.vn
  | .whileL s => 2 + (2 + s.kn)
  | .loop _ i init cond upd s =>
    2 + (initUses i init).length + (condUses cond).length + (2 + s.kn) + (updUses i upd).length
  | .brk => 1
  | .cont => 1
  | .ret _ _ => 1
/-- of the children of a sequence -/
def Seq.kn : Seq → Nat
  | .nil => 0
  | .cons n t r => n.vn + (transUses t).length + r.kn
/-- of the cases -/
def Brs.vn : Brs → Nat
  | .nil => 0
  | .cons _ s r => 2 + s.kn + r.vn
end

/-- first vertex of a node; users.cpp:413-424 for a `Return` of data -/
def Node.first : Node → Nat → V
  | .ret d q, k => if q || d == "" then .nop k else .ev k (.read, d)
  | _, k => .nop k

/-- last vertex of a node; users.cpp:399-412: `Break` and `Continue` continue with what follows them -/
def Node.exit : Node → Nat → V
  | .brk, k => .nop k
  | .cont, k => .nop k
  | _, k => .nop (k + 1)

mutual
/-- users.cpp:166-430 `Users::traverse`: the edges of a node whose vertices are numbered from `k`.  `C` is
`IfElse::is_complete`. -/
def Node.ge (C : Brs → Bool) : Node → Nat → List (V × V)
  | .block l, k => chainE (.nop k) (evs (k + 2) (l.flatMap Stmt.users) ++ [.nop (k + 1)])
  | .seq s, k => s.ge C (.nop k) (.nop (k + 1)) (k + 2)
  | .ifElse b, k =>
    let us := evs (k + 2) (readsOnce b.condAtoms)
    chainE (.nop k) us ++ b.ge C (chainEnd (.nop k) us) (.nop (k + 1)) (k + 2 + us.length) ++
      if C b then [] else [(chainEnd (.nop k) us, .nop (k + 1))]
  | .whileL s, k =>
    (.nop k, .nop (k + 2)) :: (s.ge C (.nop (k + 2)) (.nop (k + 3)) (k + 4) ++
      [(.nop (k + 3), .nop (k + 1)), (.nop k, .nop (k + 1)), (.nop (k + 1), .nop k)])
  | .loop _ i init cond upd s, k =>
    let u1 := evs (k + 2) (initUses i init)
    let w := chainEnd (.nop k) u1
    let u2 := evs (k + 2 + u1.length) (condUses cond)
    let last := chainEnd w u2
    let kb := k + 2 + u1.length + u2.length
    let u3 := evs (kb + 2 + s.kn) (updUses i upd)
    chainE (.nop k) u1 ++ chainE w u2 ++ u2.map (fun v => (v, .nop (k + 1))) ++ (last, .nop kb) ::
      (s.ge C (.nop kb) (.nop (kb + 1)) (kb + 2) ++ chainE (.nop (kb + 1)) (u3 ++ [.nop (k + 1)]) ++ [(.nop (k + 1), last)])
  | .brk, _ => []
  | .cont, _ => []
  | .ret _ _, _ => []
/-- users.cpp:190-241: the children of a sequence, from vertex `cur` on; `t` is the last vertex of the sequence.  A `Return`
ends the traversal, and the vertex before it is connected to `t`. -/
def Seq.ge (C : Brs → Bool) : Seq → V → V → Nat → List (V × V)
  | .nil, cur, t, _ => [(cur, t)]
  | .cons n tr r, cur, t, k =>
    if n.isRet then [(cur, n.first k), (cur, t)]
    else
      let us := evs (k + n.vn) (transUses tr)
      (cur, n.first k) :: (n.ge C k ++ chainE (n.exit k) us ++ r.ge C (chainEnd (n.exit k) us) t (k + n.vn + us.length))
/-- users.cpp:265-278: the cases of an if-else. -/
def Brs.ge (C : Brs → Bool) : Brs → V → V → Nat → List (V × V)
  | .nil, _, _, _ => []
  | .cons _ s r, last, t, k =>
    (last, .nop k) :: (s.ge C (.nop k) (.nop (k + 1)) (k + 2) ++ (.nop (k + 1), t) :: r.ge C last t (k + 2 + s.kn))
end

/-- users.cpp:444-500: the graph of a function.  (Not modelled: the artificial sink that is added behind several sinks.) -/
def Seq.graph (C : Brs → Bool) (s : Seq) : List (V × V) := s.ge C (.nop 0) (.nop 1) 2

/-! ### queries -/

/-- `Path G p`: consecutive vertices of `p` are connected -/
def Path (G : List (V × V)) : List V → Prop
  | a :: b :: r => (a, b) ∈ G ∧ Path G (b :: r)
  | _ => True

/-- dominance_analysis.cpp:19-28 `dominates(a, b)`, by the meaning of the dominator tree (Boost): every path from the source to `b`
goes through `a`, and `a` is another vertex. -/
def Dominates (G : List (V × V)) (src a b : V) : Prop :=
  a ≠ b ∧ ∀ p, Path G (src :: p) → (src :: p).getLast? = some b → a ∈ src :: p

/-- dominance_analysis.cpp:30-39 `post_dominates(a, b)`: every path from `b` to a sink goes through `a`. -/
def PostDominates (G : List (V × V)) (a b : V) : Prop :=
  a ≠ b ∧ ∀ p z, Path G (b :: p) → (b :: p).getLast? = some z → (∀ y, (z, y) ∉ G) → a ∈ b :: p

/-- users.cpp:714-741 `all_uses_after(a)`: reachable from `a` (`b` itself is not listed). -/
def UsedAfter (G : List (V × V)) (a b : V) : Prop := a ≠ b ∧ ∃ p, Path G (a :: p) ∧ (a :: p).getLast? = some b

/-- users.cpp:680-712 `all_uses_between(a, b)`: `b` can be reached from `v` without passing `a`. -/
def UsedBetween (G : List (V × V)) (a b v : V) : Prop :=
  v ≠ a ∧ v ≠ b ∧ ∃ p, Path G (v :: p) ∧ (v :: p).getLast? = some b ∧ a ∉ v :: p

/-! ### specification: the uses an execution performs -/

/-- Behaviours with the uses they perform: initial state, uses in order, and the outcome, or `none` for an execution that is
observed up to some point only (this covers executions that do not terminate). -/
abbrev TR := St → List V → Option (Ctl × St) → Prop

namespace TR
/-- perform uses, change the state -/
def emit (us : List V) (f : St → St) : TR := fun σ l o => (l = us ∧ o = some (.normal, f σ)) ∨ (l <+: us ∧ o = none)
/-- perform uses, jump -/
def jump (us : List V) (c : Ctl) : TR := fun σ l o => (l = us ∧ o = some (c, σ)) ∨ (l <+: us ∧ o = none)
/-- one after the other -/
def seq (R S : TR) : TR := fun σ l o =>
  (∃ l1 l2 σ1, R σ l1 (some (.normal, σ1)) ∧ S σ1 l2 o ∧ l = l1 ++ l2) ∨ (R σ l o ∧ ∀ τ, o ≠ some (.normal, τ))
/-- branch -/
def ite (b : St → Bool) (R S : TR) : TR := fun σ l o => if b σ then R σ l o else S σ l o
/-- `while (1) R` -/
inductive forever (R : TR) : TR
  | cut {σ l} : R σ l none → forever R σ l none
  | step {σ l σ1 l' o} (k : Ctl) : R σ l (some (k, σ1)) → (k = .normal ∨ k = .cont) → forever R σ1 l' o → forever R σ (l ++ l') o
  | stop {σ l σ1} : R σ l (some (.brk, σ1)) → forever R σ l (some (.normal, σ1))
  | ret {σ l σ1} (d : String) (q : Bool) : R σ l (some (.ret d q, σ1)) → forever R σ l (some (.ret d q, σ1))
/-- `for (; b; u) R`; `cs` are the uses of the condition, `us` those of the update -/
inductive iter (b : St → Bool) (u : St → St) (cs us : List V) (R : TR) : TR
  | cut {σ l} : l <+: cs → iter b u cs us R σ l none
  | done {σ} : b σ = false → iter b u cs us R σ cs (some (.normal, σ))
  | cutBody {σ l} : b σ = true → R σ l none → iter b u cs us R σ (cs ++ l) none
  | cutUpd {σ l σ1 l'} (k : Ctl) : b σ = true → R σ l (some (k, σ1)) → (k = .normal ∨ k = .cont) → l' <+: us →
    iter b u cs us R σ (cs ++ (l ++ l')) none
  | step {σ l σ1 l' o} (k : Ctl) : b σ = true → R σ l (some (k, σ1)) → (k = .normal ∨ k = .cont) →
    iter b u cs us R (u σ1) l' o → iter b u cs us R σ (cs ++ (l ++ (us ++ l'))) o
  | stop {σ l σ1} : b σ = true → R σ l (some (.brk, σ1)) → iter b u cs us R σ (cs ++ l) (some (.normal, σ1))
  | ret {σ l σ1} (d : String) (q : Bool) : b σ = true → R σ l (some (.ret d q, σ1)) →
    iter b u cs us R σ (cs ++ l) (some (.ret d q, σ1))
end TR

mutual
/-- Execution of a node together with the uses it performs, in order.  An if-else reads the symbols of all its conditions when it
is entered; a transition reads its symbols before it writes (both as in the analysis). -/
def Node.tr (E : Env) : Node → Nat → TR
  | .block l, k => TR.emit (evs (k + 2) (l.flatMap Stmt.users)) (runBlock E l)
  | .seq s, k => s.tr E (k + 2)
  | .ifElse b, k => TR.seq (TR.emit (evs (k + 2) (readsOnce b.condAtoms)) id) (b.tr E (k + 2 + (readsOnce b.condAtoms).length))
  | .whileL s, k => TR.forever (s.tr E (k + 4))
  | .loop _ i init cond upd s, k =>
    let k2 := k + 2 + (initUses i init).length
    let kb := k2 + (condUses cond).length
    TR.seq (TR.emit (evs (k + 2) (initUses i init)) fun σ => σ.setS i (σ.ev E init))
      (TR.iter (fun σ => σ.cond E cond) (fun σ => σ.setS i (σ.ev E upd)) (evs k2 (condUses cond))
        (evs (kb + 2 + s.kn) (updUses i upd)) (s.tr E (kb + 2)))
  | .brk, _ => TR.jump [] .brk
  | .cont, _ => TR.jump [] .cont
  | .ret d q, k => TR.jump (if q || d == "" then [] else [.ev k (.read, d)]) (.ret d q)
/-- of the children of a sequence -/
def Seq.tr (E : Env) : Seq → Nat → TR
  | .nil, _ => TR.emit [] id
  | .cons n t r, k => TR.seq (n.tr E k) (TR.seq (TR.emit (evs (k + n.vn) (transUses t)) (runTrans E t))
      (r.tr E (k + n.vn + (transUses t).length)))
/-- of the cases of an if-else -/
def Brs.tr (E : Env) : Brs → Nat → TR
  | .nil, _ => TR.emit [] id
  | .cons c s r, k => TR.ite (fun σ => σ.cond E c) (s.tr E (k + 2)) (r.tr E (k + 2 + s.kn))
end

/-- an execution of a function that performs the uses `l` -/
def Seq.Performs (E : Env) (s : Seq) (σ : St) (l : List V) (o : Option (Ctl × St)) : Prop := s.tr E 2 σ l o

end Docc.IR
