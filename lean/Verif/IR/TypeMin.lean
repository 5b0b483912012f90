import Verif.IR.AssumAnProps
import Verif.IR.Rewrite
import Verif.Sym.ExtremeClosed

/-
Model of sdfg/src/passes/symbolic/type_minimization.cpp: `TypeMinimization` drops the truncations to 32 bits of arguments
that are known to lie between 0 and 2^31 - 1.
-/
namespace Docc.IR
open Docc.Sym

/-- `trunc_i32(a)` -/
def truncOf (a : Expr) : Expr := .fn "trunc_i32" [a]

/-- The number an expression without symbols and functions denotes; SymEngine has folded it to a `Number`, so that
`symbolic::is_true` of a comparison with a number is decided (type_minimization.cpp:24-27, 33-36).  Other results of
`minimum_new`/`maximum_new` leave the comparison symbolic. -/
def closedValue (e : Expr) : Option V :=
  if e.fns = [] ∧ e.atoms = [] then some (e.eval ⟨fun _ => 0, fun _ _ => 0⟩) else none

/-- `lo >= 0` for a number (type_minimization.cpp:24-27; `Ge` on infinities as in SymEngine) -/
def V.nonneg : Sym.V → Bool
  | .fin n => decide (0 ≤ n)
  | .pinf => true
  | _ => false

/-- `hi <= 2^31 - 1` for a number (type_minimization.cpp:33-36) -/
def V.below31 : Sym.V → Bool
  | .fin n => decide (n ≤ 2 ^ 31 - 1)
  | .ninf => true
  | _ => false

/-- type_minimization.cpp:16-40 `is_safe_trunc`.  (A function symbol without arguments is undefined behaviour in `minimum_new`;
here it counts as not safe.) -/
def safeTrunc (A : Assums) (a : Expr) : Bool :=
  match symMinimumNew true [] A a, symMaximumNew false [] A a with
  | .ok lo, .ok hi =>
    match closedValue lo, closedValue hi with
    | some l, some h => V.nonneg l && V.below31 h
    | _, _ => false
  | _, _ => false

/-- the arguments of the truncations among the function applications found by `symbolic::find<FunctionSymbol>`
(type_minimization.cpp:52-59, 95-102; `TruncI32Function` is unary) -/
def truncArgs (fs : List (String × List Expr)) : List Expr :=
  fs.filterMap fun p => if p.1 = "trunc_i32" then (match p.2 with | [a] => some a | _ => none) else none

/-- The `replacements` of a block or loop (type_minimization.cpp:48-69, 93-108).  The map is unordered: `ord` is the order in
which it is iterated. -/
def replacements (ord : List Expr → List Expr) (A : Assums) (fs : List (String × List Expr)) : List Expr :=
  ord ((truncArgs fs).eraseDups.filter (safeTrunc A))

/-- type_minimization.cpp:77-83: one substitution after the other -/
def untrunc (as : List Expr) (e : Expr) : Expr := as.foldl (fun e a => e.subs (truncOf a) a) e

/-- type_minimization.cpp:113-120 -/
def untruncCond (as : List Expr) (c : Cond) : Cond := as.foldl (fun c a => c.subs (truncOf a) a) c

/-- the subset dimensions of the memlets of a computation -/
def Stmt.dims : Stmt → List Expr
  | .tasklet _ ins _ sub => ins.flatMap (·.2) ++ sub
  | .lib .. => []

/-- type_minimization.cpp:74-86: the subsets of the memlets -/
def Stmt.untrunc (as : List Expr) : Stmt → Stmt
  | .tasklet op ins out sub => .tasklet op (ins.map fun r => (r.1, r.2.map (IR.untrunc as))) out (sub.map (IR.untrunc as))
  | .lib op reads writes => .lib op reads writes

mutual
/-- the function applications in a condition -/
def condFns : Cond → List (String × List Expr)
  | .tt => []
  | .ff => []
  | .atom _ => []
  | .eq a b => a.fns ++ b.fns
  | .ne a b => a.fns ++ b.fns
  | .le a b => a.fns ++ b.fns
  | .lt a b => a.fns ++ b.fns
  | .eqB a b => condFns a ++ condFns b
  | .neB a b => condFns a ++ condFns b
  | .not a => condFns a
  | .and l => condFnsL l
  | .or l => condFnsL l
/-- in a list of conditions -/
def condFnsL : List Cond → List (String × List Expr)
  | [] => []
  | c :: r => condFns c ++ condFnsL r
end

/-- replacements in a block (type_minimization.cpp:42-71) -/
def blockRepl (ord : List Expr → List Expr) (A : Assums) (l : List Stmt) : List Expr :=
  replacements ord A (l.flatMap fun s => Expr.fnsL s.dims)

/-- replacements in a loop condition (type_minimization.cpp:90-111) -/
def loopRepl (ord : List Expr → List Expr) (A : Assums) (c : Cond) : List Expr := replacements ord A (condFns c)

mutual
/-- type_minimization.cpp:42-125 under the traversal of `NonStoppingStructuredSDFGVisitor` (visitor.cpp): blocks and `For`
loops; a `Map` keeps its condition.  The assumptions are those of the SDFG before the pass (the analysis is cached), with
trivial bounds (`get(element, true)`, the second component). -/
def Node.typeMin (C : Ctx) (ord : List Expr → List Expr) (A : Assums × Assums) : Node → Node
  | .block l => .block (l.map (Stmt.untrunc (blockRepl ord A.2 l)))
  | .seq s => .seq (s.typeMin C ord A)
  | .ifElse b => .ifElse (b.typeMin C ord A)
  | .whileL s => .whileL (s.typeMin C ord A)
  | .loop m i a c u s =>
    .loop m i a (if m then c else untruncCond (loopRepl ord A.2 c) c) u
      (s.typeMin C ord (propagate (C.body A.2 i a c u s) A.1, propagate (C.body A.2 i a c u s) A.2))
  | .brk => .brk
  | .cont => .cont
  | .ret d q => .ret d q
/-- sequences -/
def Seq.typeMin (C : Ctx) (ord : List Expr → List Expr) (A : Assums × Assums) : Seq → Seq
  | .nil => .nil
  | .cons n t r => .cons (n.typeMin C ord A) t (r.typeMin C ord A)
/-- branches -/
def Brs.typeMin (C : Ctx) (ord : List Expr → List Expr) (A : Assums × Assums) : Brs → Brs
  | .nil => .nil
  | .cons c s r => .cons c (s.typeMin C ord A) (r.typeMin C ord A)
end

end Docc.IR
