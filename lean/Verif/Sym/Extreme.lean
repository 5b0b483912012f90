import Verif.Sym.Expr

/-
Extreme values of symbolic expressions (sdfg/src/symbolic/extreme_values.cpp).
-/
namespace Docc.Sym

/-- Outcome of a C++ call that returns `Expression`: undefined behaviour, `SymEngine::null`, or a term. -/
inductive Res (α : Type) where
  | ub
  | null
  | ok (a : α)
  deriving Repr, DecidableEq, Inhabited

/-- Sequencing: a null (or undefined) sub-result is propagated. -/
def Res.bind {α β : Type} : Res α → (α → Res β) → Res β
  | .ub, _ => .ub
  | .null, _ => .null
  | .ok a, f => f a

/-- Evaluate a call for every argument, left to right, returning at the first null. -/
def Res.mapM {α β : Type} (f : α → Res β) : List α → Res (List β)
  | [] => .ok []
  | a :: r => (f a).bind fun b => (Res.mapM f r).bind fun bs => .ok (b :: bs)

/-- sdfg/include/sdfg/symbolic/assumptions.h `Assumption`, the bound fields
(`lower_bound_deprecated_`, `upper_bound_deprecated_`, `lower_bounds_`, `upper_bounds_`,
`tight_lower_bound_`, `tight_upper_bound_`; assumptions.cpp:9-130).  The sets are listed in iteration order.
`constant_` and `map_` are used by the other analyses. -/
structure Assum where
  lower : Expr := .inf false
  upper : Expr := .inf true
  lowers : List Expr := []
  uppers : List Expr := []
  tightLower : Option Expr := none
  tightUpper : Option Expr := none
  constant : Bool := false
  map : Option Expr := none
  deriving Repr

/-- `Assumptions`: a finite map from symbols to assumptions. -/
abbrev Assums := String → Option Assum

/-- The `lbs` accumulator loops: `null` for no argument, otherwise a left fold of `op`
(extreme_values.cpp:92-110, 113-129, 132-148). -/
def accumulate (op : Expr → Expr → Expr) : List Expr → Res Expr
  | [] => .null
  | e :: r => .ok (r.foldl op e)

/-- One product of the 2^n combinations: bit `i` of `mask` selects upper (1) or lower (0) bound of argument `i`
(extreme_values.cpp:75-80). -/
def cornerProduct (bounds : List (Expr × Expr)) (mask : Nat) : Expr :=
  bounds.zipIdx.foldl
    (fun acc b => .mul [acc, if mask.testBit b.2 then b.1.2 else b.1.1]) (.int 1)

/-- The products in the order of the loop (extreme_values.cpp:71-88).  `1ULL << n` is modelled as `2^n`
(simplification: fewer than 64 factors). -/
def cornerProducts (bounds : List (Expr × Expr)) : List Expr :=
  (List.range (2 ^ bounds.length)).map (cornerProduct bounds)

/-- both bounds of a factor; both calls are made before the null test (extreme_values.cpp:60-68) -/
def pairBounds : Res Expr → Res Expr → Res (Expr × Expr)
  | .ub, _ => .ub
  | _, .ub => .ub
  | .ok a, .ok b => .ok (a, b)
  | _, _ => .null

mutual
/-- extreme_values.cpp:12-152 `minimum`.  The first argument is the remaining depth
(`MAX_DEPTH + 1 - depth`).  `is_a<ZExtI64Function>` compares SymEngine type codes, and every
`FunctionSymbol` (including `idiv`, `imod`, `iabs`, `trunc_i32`, `sizeof`) has the same code, so the first
branch (lines 26-33) handles every function symbol; `get_args()[0]` of a function without arguments is
undefined behaviour. -/
def minimum (P : List String) (A : Assums) : Nat → Expr → Res Expr
  | 0, _ => .null
  | d + 1, e =>
    match e with
    | .nan => .null
    | .int n => .ok (.int n)
    | .inf b => .ok (.inf b)
    | .fn _ [] => .ub
    | .fn _ (a :: _) => (minimum P A d a).bind fun m => .ok (.fn "zext_i64" [m])
    | .sym x =>
      if x ∈ P then .ok (.sym x)
      else match A x with
        | some a => minimum P A d a.lower
        | none => .null
    | .mul l =>
      (Res.mapM (fun a => pairBounds (minimum P A d a) (maximum P A d a)) l).bind fun bs =>
        accumulate (fun x y => .min [x, y]) (cornerProducts bs)
    | .add l => (Res.mapM (minimum P A d) l).bind (accumulate fun x y => .add [x, y])
    | .max l => (Res.mapM (minimum P A d) l).bind (accumulate fun x y => .min [x, y])
    | .min l => (Res.mapM (minimum P A d) l).bind (accumulate fun x y => .min [x, y])
    | .pow _ _ => .null
/-- extreme_values.cpp:154-297 `maximum`. -/
def maximum (P : List String) (A : Assums) : Nat → Expr → Res Expr
  | 0, _ => .null
  | d + 1, e =>
    match e with
    | .nan => .null
    | .int n => .ok (.int n)
    | .inf b => .ok (.inf b)
    | .sym x =>
      if x ∈ P then .ok (.sym x)
      else match A x with
        | some a => maximum P A d a.upper
        | none => .null
    | .fn _ [] => .ub
    | .fn _ (a :: _) => (maximum P A d a).bind fun m => .ok (.fn "zext_i64" [m])
    | .mul l =>
      (Res.mapM (fun a => pairBounds (minimum P A d a) (maximum P A d a)) l).bind fun bs =>
        accumulate (fun x y => .max [x, y]) (cornerProducts bs)
    | .add l => (Res.mapM (maximum P A d) l).bind (accumulate fun x y => .add [x, y])
    | .max l => (Res.mapM (maximum P A d) l).bind (accumulate fun x y => .max [x, y])
    | .min l => (Res.mapM (maximum P A d) l).bind (accumulate fun x y => .max [x, y])
    | .pow _ _ => .null
end

/-- MAX_DEPTH = 100 (extreme_values.cpp:8): depths 0..100 are explored. -/
def maxDepth : Nat := 101

/-- extreme_values.cpp:299-301, the public `minimum`. -/
def symMinimum (P : List String) (A : Assums) (e : Expr) : Res Expr := minimum P A maxDepth e
/-- extreme_values.cpp:303-305, the public `maximum`. -/
def symMaximum (P : List String) (A : Assums) (e : Expr) : Res Expr := maximum P A maxDepth e

/-- The loop over a set of bounds: nulls are skipped, the others are combined
(extreme_values.cpp:367-379, 535-547). -/
def combineBounds (op : Expr → Expr → Expr) (f : Expr → Res Expr) : List Expr → Res Expr → Res Expr
  | [], acc => acc
  | b :: r, acc =>
    match f b with
    | .ub => .ub
    | .null => combineBounds op f r acc
    | .ok m =>
      match acc with
      | .ok c => combineBounds op f r (.ok (op c m))
      | _ => combineBounds op f r (.ok m)

mutual
/-- extreme_values.cpp:314-480 `minimum_new`. -/
def minimumNew (tight : Bool) (P : List String) (A : Assums) : Nat → Expr → Res Expr
  | 0, _ => .null
  | d + 1, e =>
    match e with
    | .nan => .null
    | .inf _ => .null
    | .int n => .ok (.int n)
    | .fn _ [] => .ub
    | .fn _ (a :: _) => (minimumNew tight P A d a).bind fun m => .ok (.fn "zext_i64" [m])
    | .sym x =>
      if x ∈ P then .ok (.sym x)
      else match A x with
        | some a =>
          if tight then
            match a.tightLower with
            | none => .null
            | some b => minimumNew tight P A d b
          else combineBounds (fun x y => .max [x, y]) (minimumNew tight P A d) a.lowers .null
        | none => .null
    | .mul l =>
      (Res.mapM (fun a => pairBounds (minimumNew tight P A d a) (maximumNew tight P A d a)) l).bind fun bs =>
        accumulate (fun x y => .min [x, y]) (cornerProducts bs)
    | .add l => (Res.mapM (minimumNew tight P A d) l).bind (accumulate fun x y => .add [x, y])
    | .max l => (Res.mapM (minimumNew tight P A d) l).bind (accumulate fun x y => .min [x, y])
    | .min l => (Res.mapM (minimumNew tight P A d) l).bind (accumulate fun x y => .min [x, y])
    | .pow _ _ => .null
/-- extreme_values.cpp:482-648 `maximum_new`. -/
def maximumNew (tight : Bool) (P : List String) (A : Assums) : Nat → Expr → Res Expr
  | 0, _ => .null
  | d + 1, e =>
    match e with
    | .nan => .null
    | .inf _ => .null
    | .int n => .ok (.int n)
    | .fn _ [] => .ub
    | .fn _ (a :: _) => (maximumNew tight P A d a).bind fun m => .ok (.fn "zext_i64" [m])
    | .sym x =>
      if x ∈ P then .ok (.sym x)
      else match A x with
        | some a =>
          if tight then
            match a.tightUpper with
            | none => .null
            | some b => maximumNew tight P A d b
          else combineBounds (fun x y => .min [x, y]) (maximumNew tight P A d) a.uppers .null
        | none => .null
    | .mul l =>
      (Res.mapM (fun a => pairBounds (minimumNew tight P A d a) (maximumNew tight P A d a)) l).bind fun bs =>
        accumulate (fun x y => .max [x, y]) (cornerProducts bs)
    | .add l => (Res.mapM (maximumNew tight P A d) l).bind (accumulate fun x y => .add [x, y])
    | .max l => (Res.mapM (maximumNew tight P A d) l).bind (accumulate fun x y => .max [x, y])
    | .min l => (Res.mapM (maximumNew tight P A d) l).bind (accumulate fun x y => .max [x, y])
    | .pow _ _ => .null
end

/-- extreme_values.cpp:650-652, the public `minimum_new`. -/
def symMinimumNew (tight : Bool) (P : List String) (A : Assums) (e : Expr) : Res Expr :=
  minimumNew tight P A maxDepth e
/-- extreme_values.cpp:654-656, the public `maximum_new`. -/
def symMaximumNew (tight : Bool) (P : List String) (A : Assums) (e : Expr) : Res Expr :=
  maximumNew tight P A maxDepth e

end Docc.Sym
