import Verif.IR.Syntax
import Verif.Sym.CondOps

/-
The users analysis: which containers a node reads and writes (sdfg/src/analysis/users.cpp:80-409).
-/
namespace Docc.IR
open Docc.Sym

/-- users.h `Use`, restricted to the uses of the modelled memlets (MOVE and VIEW belong to pointer memlets). -/
inductive Use where
  | read
  | write
  deriving Repr, DecidableEq, Inhabited

/-- A user: how a container is used.  users.h `User` without the graph vertex and the element. -/
abbrev User := Use × String

/-- `READ` users for the symbols of an expression (the `used` sets of users.cpp only remove duplicates). -/
def readsOf (l : List String) : List User := l.map (Use.read, ·)

/-- users.cpp:80-164: users of one computation of a dataflow graph: the read access nodes, the symbols of the subsets
of all memlets, and the written access nodes; a library node's operands are its access nodes. -/
def Stmt.users : Stmt → List User
  | .tasklet _ ins out sub =>
    readsOf (ins.map (·.1)) ++ readsOf (ins.flatMap fun r => Expr.atomsL r.2) ++ readsOf (Expr.atomsL sub) ++
      [(.write, out)]
  | .lib _ reads writes => readsOf reads ++ writes.map (Use.write, ·)

/-- users.cpp:204-232: users of a transition: symbols of the right-hand sides, then the assigned symbols. -/
def transUsers (t : Trans) : List User := readsOf (t.flatMap fun a => a.2.atoms) ++ t.map fun a => (.write, a.1)

/-- the node is a `Return` -/
def Node.isRet : Node → Bool
  | .ret _ _ => true
  | _ => false

mutual
/-- users.cpp:166-409 `Users::traverse`. -/
def Node.users : Node → List User
  | .block l => l.flatMap Stmt.users
  | .seq s => s.users
  | .ifElse b => readsOf b.condAtoms ++ b.users
  | .whileL s => s.users
  | .loop _ i init cond upd s =>
    readsOf init.atoms ++ [(.write, i)] ++ readsOf cond.atoms ++ s.users ++ readsOf upd.atoms ++ [(.write, i)]
  | .brk => []
  | .cont => []
  | .ret d q => if q || d == "" then [] else [(.read, d)]
/-- users.cpp:190-241: children and transitions in order; everything after a `Return` child is skipped.  (A sequence and
an if-else always have an exit vertex, users.cpp:234-241 and 266-286, so only a direct `Return` stops the traversal.) -/
def Seq.users : Seq → List User
  | .nil => []
  | .cons n t r => if n.isRet then n.users else n.users ++ transUsers t ++ r.users
/-- users.cpp:266-278: the branches. -/
def Brs.users : Brs → List User
  | .nil => []
  | .cons _ s r => s.users ++ r.users
/-- users.cpp:250-263: symbols of the conditions. -/
def Brs.condAtoms : Brs → List String
  | .nil => []
  | .cons c _ r => c.atoms ++ r.condAtoms
end

/-- users.cpp:560-600 `Users::reads(container)` is not empty. -/
def reads (u : List User) (x : String) : Prop := (Use.read, x) ∈ u
/-- `Users::writes(container)` is not empty. -/
def writes (u : List User) (x : String) : Prop := (Use.write, x) ∈ u

instance (u : List User) (x : String) : Decidable (reads u x) := inferInstanceAs (Decidable (_ ∈ _))
instance (u : List User) (x : String) : Decidable (writes u x) := inferInstanceAs (Decidable (_ ∈ _))

/-! ### completeness of an if-else -/

/-- the conditions of the cases -/
def Brs.conds : Brs → List Cond
  | .nil => []
  | .cons c _ r => c :: r.conds

/-- The operations of SymEngine `is_complete` relies on: `logical_or` of two conditions and the test for the constant
true. -/
structure OrEngine where
  mkOr : Cond → Cond → Cond

/-- contract of `logical_or`: the result has the truth value of the disjunction -/
def OrEngine.Sound (O : OrEngine) : Prop := ∀ v a b, (O.mkOr a b).eval v = (a.eval v || b.eval v)

/-- if_else.cpp:41-56 `IfElse::is_complete`; `none`: CNFException. -/
def Brs.isComplete (O : OrEngine) (b : Brs) : Option Bool :=
  match cnf (b.conds.foldl O.mkOr .ff) with
  | none => none
  | some f => some (f.all fun cl => (cl.foldl O.mkOr .ff).isTT)

end Docc.IR
