import Verif.IR.ReplaceProps

/-
OutLocalStorage (sdfg/src/transformations/out_local_storage.cpp): a container that a loop accesses at one place is kept in a local scalar, or, when
the place depends on the iteration, in a local array.
-/
namespace Docc.IR
open Docc.Sym

/-! ### the accesses of a container (users.cpp:35-60 `User::subsets`) -/

/-- the subsets at which a computation accesses `C`; a symbolic use of `C` has the empty subset.  (Memlets of library nodes carry no subset in this model.) -/
def Stmt.places (C : String) : Stmt → List (List Expr)
  | .tasklet _ ins out sub =>
    (ins.filter fun r => r.1 == C).map (·.2) ++ (if out = C then [sub] else []) ++
      (if C ∈ (ins.flatMap fun r => Expr.atomsL r.2) ++ Expr.atomsL sub then [[]] else [])
  | .lib _ _ _ => []

/-- symbolic uses -/
def symSub (C : String) (l : List String) : List (List Expr) := if C ∈ l then [[]] else []

mutual
/-- the subsets at which a node accesses `C` -/
def Node.places (C : String) : Node → List (List Expr)
  | .block l => l.flatMap (Stmt.places C)
  | .seq s => s.places C
  | .ifElse b => b.places C
  | .whileL s => s.places C
  | .loop _ i a c u s => symSub C (i :: (a.atoms ++ c.atoms ++ u.atoms)) ++ s.places C
  | .brk => []
  | .cont => []
  | .ret d _ => symSub C [d]
/-- a sequence -/
def Seq.places (C : String) : Seq → List (List Expr)
  | .nil => []
  | .cons n t r => n.places C ++ symSub C (t.map (·.1) ++ t.flatMap (fun a => a.2.atoms)) ++ r.places C
/-- cases -/
def Brs.places (C : String) : Brs → List (List Expr)
  | .nil => []
  | .cons c s r => symSub C c.atoms ++ s.places C ++ r.places C
end

/-! ### out_local_storage.cpp:29-104 `can_be_applied` -/

/-- out_local_storage.cpp:40-60: `accs` holds, for every user (access node) of the container, its subsets: all are compared with the first, if there are
several users -/
def sameSubsets : List (List (List Expr)) → Bool
  | [] => false
  | a :: r => (a :: r).length ≤ 1 || (a :: r).all fun b => b.length == a.length && b.all fun u => u == a.headD []

/-- the subset that is used for the copies: the first one of the first user -/
def firstSubset (accs : List (List (List Expr))) : List Expr := (accs.headD []).headD []

/-- out_local_storage.cpp:62-77: the symbols of the first user's subsets are not written in the body -/
def subsetsStable (body : Seq) (accs : List (List (List Expr))) : Bool :=
  (accs.headD []).all fun u => (Expr.atomsL u).all fun y => !decide ((.write, y) ∈ body.users)

/-- out_local_storage.cpp:79-95 `requires_array_` -/
def needsArray (i : String) (accs : List (List (List Expr))) : Bool := (accs.headD []).any fun u => decide (i ∈ Expr.atomsL u)

/-- transformations/utils.cpp:32-47: the bound of a comparison with the loop variable, on either side -/
def ltBound (i : String) (a b : Expr) : Option Expr := if a = .sym i then some b else if b = .sym i then some a else none

/-- transformations/utils.cpp:23-29, 43-46: the difference, if it is an integer.  (Simplification: differences of integers only.) -/
def intRange (bound init : Expr) : Option Int :=
  match bound, init with
  | .int b, .int a => some (b - a)
  | _, _ => none

/-- transformations/utils.cpp:12-31: the first comparison with a constant range -/
def andCount (i : String) (init : Expr) : List Cond → Option Int
  | [] => none
  | .lt a b :: r => ((ltBound i a b).bind (intRange · init)).or (andCount i init r)
  | _ :: _ => none

/-- transformations/utils.cpp:9-50 `get_iteration_count` -/
def iterationCount (i : String) (init : Expr) : Cond → Option Int
  | .and l => andCount i init l
  | .lt a b => (ltBound i a b).bind (intRange · init)
  | _ => none

/-- out_local_storage.cpp:29-104: `accs` are the users of `C` in the loop body -/
def olsOk (i : String) (init : Expr) (cond : Cond) (body : Seq) (accs : List (List (List Expr))) : Bool :=
  !accs.isEmpty && sameSubsets accs && subsetsStable body accs && (!needsArray i accs || (iterationCount i init cond).isSome)

/-! ### apply -/

/-- out_local_storage.cpp:197-216, 257-275: all memlets of `C` get the subset `s` -/
def Stmt.clearTo (C : String) (s : List Expr) : Stmt → Stmt
  | .tasklet op ins out sub => .tasklet op (ins.map fun r => if r.1 = C then (C, s) else r) out (if out = C then s else sub)
  | .lib op r w => .lib op r w

mutual
/-- on a node -/
def Node.clearTo (C : String) (s : List Expr) : Node → Node
  | .block l => .block (l.map (Stmt.clearTo C s))
  | .seq q => .seq (q.clearTo C s)
  | .ifElse b => .ifElse (b.clearTo C s)
  | .whileL q => .whileL (q.clearTo C s)
  | .loop m i a c u q => .loop m i a c u (q.clearTo C s)
  | .brk => .brk
  | .cont => .cont
  | .ret d q => .ret d q
/-- on a sequence -/
def Seq.clearTo (C : String) (s : List Expr) : Seq → Seq
  | .nil => .nil
  | .cons n t r => .cons (n.clearTo C s) t (r.clearTo C s)
/-- on cases -/
def Brs.clearTo (C : String) (s : List Expr) : Brs → Brs
  | .nil => .nil
  | .cons c q r => .cons c (q.clearTo C s) (r.clearTo C s)
end

/-- `y[t] = x[s]` -/
def copyStmt (x : String) (s : List Expr) (y : String) (t : List Expr) : Stmt := .tasklet "assign" [(x, s)] y t

/-- out_local_storage.cpp:227-279 `apply_scalar`: the loop, followed by the transition `t`, becomes
`L = C[s]; loop with L instead of C[s]; t; C[s] = L`: `add_block_after` inserts behind the transition of the loop. -/
def olsScalar (C L : String) (s : List Expr) (loop : Node) (t : Trans) : Seq :=
  .cons (.block [copyStmt C s L []]) [] (.cons ((loop.clearTo C []).replace C (.sym L)) t (.one (.block [copyStmt L [] C s])))

/-- `for (j = init; cond; j = upd) { y[t] = x[s] }` with `j` instead of the variable `i` of the given header -/
def copyLoop (i j : String) (a : Expr) (c : Cond) (u : Expr) (x : String) (s : List Expr) (y : String) (t : List Expr) : Node :=
  .loop false j a (c.subs (.sym i) (.sym j)) (u.subs (.sym i) (.sym j)) (.one (.block [copyStmt x s y t]))

/-- out_local_storage.cpp:128-224 `apply_array`: `for j { L[j] = C[s(j)] }; for i { … L[i] … }; t; for j { C[s(j)] = L[j] }` -/
def olsArray (C L j : String) (s : List Expr) (m : Bool) (i : String) (a : Expr) (c : Cond) (u : Expr) (body : Seq) (t : Trans) : Seq :=
  .cons (copyLoop i j a c u C (s.map (Expr.subs · (.sym i) (.sym j))) L [.sym j]) []
    (.cons ((Node.loop m i a c u (body.clearTo C [.sym i])).replace C (.sym L)) t
      (.one (copyLoop i j a c u L [.sym j] C (s.map (Expr.subs · (.sym i) (.sym j))))))

/-! ### specification of the hypotheses -/

mutual
/-- the containers accessed by library nodes -/
def Node.libs : Node → List String
  | .block l => l.flatMap fun s => match s with | .lib _ r w => r ++ w | _ => []
  | .seq s => s.libs
  | .ifElse b => b.libs
  | .whileL s => s.libs
  | .loop _ _ _ _ _ s => s.libs
  | _ => []
def Seq.libs : Seq → List String
  | .nil => []
  | .cons n _ r => n.libs ++ r.libs
def Brs.libs : Brs → List String
  | .nil => []
  | .cons _ s r => s.libs ++ r.libs
end

mutual
/-- contains a `Return` -/
def Node.returns : Node → Bool
  | .seq s => s.returns
  | .ifElse b => b.returns
  | .whileL s => s.returns
  | .loop _ _ _ _ _ s => s.returns
  | .ret _ _ => true
  | _ => false
def Seq.returns : Seq → Bool
  | .nil => false
  | .cons n _ r => n.returns || r.returns
def Brs.returns : Brs → Bool
  | .nil => false
  | .cons _ s r => s.returns || r.returns
end

end Docc.IR
