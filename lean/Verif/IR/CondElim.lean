import Verif.IR.Users
import Verif.IR.Replace
import Verif.IR.Sem

/-
ConditionElimination (sdfg/src/passes/structured_control_flow/condition_elimination.cpp).
-/
namespace Docc.IR
open Docc.Sym

/-- number of read users of a container: users.cpp `num_reads` -/
def numReads (u : List User) (x : String) : Nat := u.count (Use.read, x)

/-- Parameters of the pass: `symbolic::eq` on conditions (SymEngine structural equality of canonical forms) and the users
analysis of the whole program (`users.num_reads`), computed once before the pass. -/
structure CE where
  eqC : Cond → Cond → Bool
  total : String → Nat

/-- contract of `symbolic::eq`: equal conditions have equal truth values -/
def CE.Sound (C : CE) : Prop := ∀ a b, C.eqC a b = true → ∀ v, a.eval v = b.eval v

/-- condition_elimination.cpp:11-35 `eliminate_condition`: both tests. `i a k` are the loop's induction variable, init and
condition, `bu` the users of the branch, `c` the branch condition. -/
def CE.hit (C : CE) (c : Cond) (i : String) (a : Expr) (k : Cond) (bu : List User) : Bool :=
  decide (¬ (C.total i > numReads bu i)) && C.eqC (k.subs (.sym i) a) c

mutual
/-- condition_elimination.cpp:58-83 `accept(Sequence&)` on every sequence (NonStoppingStructuredSDFGVisitor visits all
sequences top-down); condition_elimination.cpp:36-46: the if-else is replaced by a sequence holding the branch's
children, keeping the transition of the if-else. -/
def CE.node (C : CE) : Node → Node
  | .block l => .block l
  | .seq s => .seq (C.seq s)
  | .ifElse (.cons c (.cons (.loop m i a k u s) tb .nil) .nil) =>
    if C.hit c i a k (Seq.users (.cons (.loop m i a k u s) tb .nil)) then .seq (.cons (.loop m i a k u (C.seq s)) tb .nil)
    else .ifElse (.cons c (.cons (.loop m i a k u (C.seq s)) tb .nil) .nil)
  | .ifElse b => .ifElse (C.cases b)
  | .whileL s => .whileL (C.seq s)
  | .loop m i a k u s => .loop m i a k u (C.seq s)
  | .brk => .brk
  | .cont => .cont
  | .ret d q => .ret d q
/-- the children of a sequence -/
def CE.seq (C : CE) : Seq → Seq
  | .nil => .nil
  | .cons n t r => .cons (C.node n) t (C.seq r)
/-- the branches of an if-else -/
def CE.cases (C : CE) : Brs → Brs
  | .nil => .nil
  | .cons c s r => .cons c (C.seq s) (C.cases r)
end

/-- condition_elimination.cpp: the pass on a program. -/
def condElim (eqC : Cond → Cond → Bool) (root : Seq) : Seq := CE.seq ⟨eqC, numReads root.users⟩ root

mutual
/-- the induction variables of the loops whose guard is removed (none behind a Return) -/
def CE.elim (C : CE) : Node → List String
  | .block _ => []
  | .seq s => C.elimS s
  | .ifElse (.cons c (.cons (.loop m i a k u s) tb .nil) .nil) =>
    if C.hit c i a k (Seq.users (.cons (.loop m i a k u s) tb .nil)) then i :: C.elimS s else C.elimS s
  | .ifElse b => C.elimB b
  | .whileL s => C.elimS s
  | .loop _ _ _ _ _ s => C.elimS s
  | .brk => []
  | .cont => []
  | .ret _ _ => []
/-- of a sequence -/
def CE.elimS (C : CE) : Seq → List String
  | .nil => []
  | .cons n _ r => if n.isRet then [] else C.elim n ++ C.elimS r
/-- of the cases -/
def CE.elimB (C : CE) : Brs → List String
  | .nil => []
  | .cons _ s r => C.elimS s ++ C.elimB r
end

mutual
/-- Side conditions under which a guard is redundant, for every guarded loop of the program: nothing is assigned after
the loop inside the branch, the start value does not read the induction variable and is always defined, and the
induction variable is not itself used as a truth value. -/
def Node.guardOk (E : Env) : Node → Prop
  | .block _ => True
  | .seq s => s.guardOk E
  | .ifElse (.cons _ (.cons (.loop _ i a k _ s) tb .nil) .nil) =>
    tb = [] ∧ i ∉ a.atoms ∧ (∀ σ : St, ∃ n, a.eval (σ.val E) = .fin n) ∧ i ∉ k.boolSyms ∧ s.guardOk E
  | .ifElse b => b.guardOk E
  | .whileL s => s.guardOk E
  | .loop _ _ _ _ _ s => s.guardOk E
  | .brk => True
  | .cont => True
  | .ret _ _ => True
/-- of a sequence -/
def Seq.guardOk (E : Env) : Seq → Prop
  | .nil => True
  | .cons n _ r => n.guardOk E ∧ r.guardOk E
/-- of the cases -/
def Brs.guardOk (E : Env) : Brs → Prop
  | .nil => True
  | .cons _ s r => s.guardOk E ∧ r.guardOk E
end

end Docc.IR
