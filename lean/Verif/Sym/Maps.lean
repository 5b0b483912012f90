import Verif.Sym.Delin
import Verif.Sym.Series

/-
Disjointness of two subscripts across iterations (sdfg/src/symbolic/maps.cpp, and the part of sdfg/src/symbolic/utils.cpp that
builds the ISL maps).
-/
namespace Docc.Sym

/-- the symbol is known and constant -/
def isConst (A : Assums) (x : String) : Bool := match A x with
  | some a => a.constant
  | none => false

mutual
/-- utils.cpp:18-45 `ISLSymbolicPrinter`: `idiv` is printed as `floord`, `iabs` as its argument.  (Other function symbols are printed
as they are and rejected by the ISL parser; powers are printed as products.) -/
def Expr.isl : Expr → Expr
  | .fn f l => match f, Expr.islL l with
    | "iabs", a :: _ => a
    | "idiv", l => .fn "floord" l
    | f, l => .fn f l
  | .add l => .add (Expr.islL l)
  | .mul l => .mul (Expr.islL l)
  | .max l => .max (Expr.islL l)
  | .min l => .min (Expr.islL l)
  | .pow b e => .pow (Expr.isl b) (Expr.isl e)
  | .int n => .int n
  | .sym x => .sym x
  | .inf b => .inf b
  | .nan => .nan
/-- see `Expr.isl` -/
def Expr.islL : List Expr → List Expr
  | [] => []
  | e :: r => Expr.isl e :: Expr.islL r
end

/-- The three ISL maps built for two subscripts (utils.cpp:210-470), before they are printed: the subscripts, the symbols that get
an instance per access (`dims`) and those that are shared (`params`), the bounds of each instance (`l <= r`), the steps
(`exists k : x = start + k * step`), and the symbol whose instances must differ.  Simplification: the renaming `x` ↦ `x_1`, `x_2`
is done by using two valuations (so a clash with a symbol that is called `x_1` is not modelled). -/
structure Query where
  e1 : List Expr
  e2 : List Expr
  dims : List String
  params : List String
  cons1 : List (Expr × Expr)
  cons2 : List (Expr × Expr)
  steps1 : List (String × Int × Int)
  steps2 : List (String × Int × Int)
  differ : Option String
  deriving DecidableEq

/-- the bounds of one symbol as constraints (utils.cpp:483-527): a `Min` as upper bound and a `Max` as lower bound are split;
constraint_to_isl_str (utils.cpp:530-577) drops the ones with an infinite side. -/
def boundCons (x : String) (a : Assum) : List (Expr × Expr) :=
  ((match a.upper with
      | .inf true => []
      | .min l => l.map fun e => (Expr.sym x, e)
      | u => [(Expr.sym x, u)]) ++
    (match a.lower with
      | .inf false => []
      | .max l => l.map fun e => (e, Expr.sym x)
      | l => [(l, Expr.sym x)])).filter fun c => match c with
        | (.inf _, _) | (_, .inf _) => false
        | _ => true

/-- utils.cpp:471-528 `generate_constraints`: the bounds of the symbols, of the symbols in these bounds, and so on; every symbol once.
`fuel` bounds the number of symbols (the code recurses over the finite table of assumptions). -/
def genCons (A : Assums) : Nat → List String → List String → List (Expr × Expr)
  | 0, _, _ => []
  | _, [], _ => []
  | fuel + 1, x :: r, seen =>
    match A x with
    | none => genCons A fuel r seen
    | some a =>
      if x ∈ seen then genCons A fuel r seen
      else
        let cs := boundCons x a
        cs ++ genCons A fuel ((cs.flatMap fun c => c.1.atoms ++ c.2.atoms) ++ r) (x :: seen)

/-- utils.cpp:340-378, 397-435: a dimension that moves in steps other than one from an integer start.  The map function is looked up
in the access's own assumptions (`A`), the start in the *second* access's assumptions (`A2`) for both accesses. -/
def stepOf (A A2 : Assums) (x : String) : Option (String × Int × Int) :=
  match A x, A2 x with
  | some a, some a2 =>
    let c := match a.map with
      | some (.add [.sym y, .int c]) => if y = x then some c else none
      | some (.add [.int c, .sym y]) => if y = x then some c else none
      | _ => none
    match c, a2.lower with
    | some c, .int b => if c = 1 then none else some (x, b, c)
    | _, _ => none
  | _, _ => none

/-- utils.cpp:210-470 `expressions_to_intersection_map_str`.  `null`: `assums.at` threw. -/
def mkQuery (fuel : Nat) (e1 e2 : List Expr) (i : String) (A1 A2 : Assums) : Res Query :=
  let syms := ((e1 ++ e2).flatMap Expr.atoms).eraseDups
  if syms.any fun x => (A1 x).isNone || (A2 x).isNone then .null
  else
    let dims := syms.filter fun x => x = i ∨ !isConst A1 x ∨ !isConst A2 x
    let c1 := genCons A1 fuel syms []
    let c2 := genCons A2 fuel syms []
    .ok {
      e1 := e1
      e2 := e2
      dims := dims
      params := (syms ++ ((c1 ++ c2).flatMap fun c => c.1.atoms ++ c.2.atoms)).eraseDups.filter fun x => x ∉ dims
      cons1 := c1
      cons2 := c2
      steps1 := dims.filterMap (stepOf A1 A2)
      steps2 := dims.filterMap (stepOf A2 A2)
      differ := if i ∈ dims then some i else none }

/-- maps.cpp:16-43 -/
def mapMonotonicAffine (D : DEngine) (A : Assums) (e : Expr) (x : String) : Bool :=
  match D.P.poly e [x] with
  | none => false
  | some p => match affineCoefficients p [x] with
    | none => false
    | some c => match symMinimum [] A (c.at' x) with
      | .ok m => match D.P.asInteger m with
        | some m => fitsLong m && decide (m > 0)
        | none => false
      | _ => false

/-- maps.cpp:45-70: the parameter `sym` is not used. -/
def mapMonotonicPow (D : DEngine) (A : Assums) (e : Expr) : Bool :=
  match e with
  | .pow (.sym y) (.int n) =>
    if n ≤ 0 then false
    else match symMinimum [] A (.sym y) with
      | .ok m => D.ge m (.int 0)
      | _ => false
  | _ => false

/-- maps.cpp:72-77 `is_monotonic` -/
def mapMonotonic (D : DEngine) (A : Assums) (e : Expr) (x : String) : Bool :=
  mapMonotonicAffine D A e x || mapMonotonicPow D A e

/-- maps.cpp:214-259 `is_disjoint_monotonic`.  `null`: `assums1.at` threw (the loop over the symbols stops at the first one that
is not constant; simplification: a missing symbol behind it throws here too). -/
def isDisjointMonotonic (D : DEngine) (i : String) (A1 : Assums) : List Expr → List Expr → Res Bool
  | [], _ => .ok false
  | _ :: _, [] => .ok false
  | a :: r, b :: s =>
    if a ≠ b then isDisjointMonotonic D i A1 r s
    else if a.atoms.any fun x => (A1 x).isNone then .null
    else if a.atoms.all (fun x => isConst A1 x ∨ x = i) && mapMonotonic D A1 a i then .ok true
    else isDisjointMonotonic D i A1 r s

/-- maps.cpp:100-158: the check of one dimension after the other; `isl` is the answer of ISL on the three maps (`none`: it rejects
them). -/
def anyDimDisjoint (isl : Query → Option Bool) (fuel : Nat) (i : String) (A1 A2 : Assums) : List Expr → List Expr → Res Bool
  | a :: r, b :: s => (mkQuery fuel [a] [b] i A1 A2).bind fun q =>
      if isl q = some true then .ok true else anyDimDisjoint isl fuel i A1 A2 r s
  | _, _ => .ok false

/-- maps.cpp:79-212 `is_disjoint_isl` -/
def isDisjointIsl (D : DEngine) (isl : Query → Option Bool) (fuel : Nat) (e1 e2 : List Expr) (i : String) (A1 A2 : Assums) : Res Bool :=
  if e1.length ≠ e2.length then .ok false
  else if e1.isEmpty then .ok false
  else (delinearize D A1 e1).bind fun d1 => (delinearize D A2 e2).bind fun d2 =>
    if d1.length ≠ d2.length then .ok false
    else (anyDimDisjoint isl fuel i A1 A2 d1 d2).bind fun b =>
      if b then .ok true
      else if d1.length = 1 then .ok false
      else (mkQuery fuel d1 d2 i A1 A2).bind fun q => .ok (isl q = some true)

/-- maps.cpp:261-275 `intersects` -/
def intersects (D : DEngine) (isl : Query → Option Bool) (fuel : Nat) (e1 e2 : List Expr) (i : String) (A1 A2 : Assums) : Res Bool :=
  (isDisjointMonotonic D i A1 e1 e2).bind fun m =>
    if m then .ok false
    else (isDisjointIsl D isl fuel e1 e2 i A1 A2).bind fun d => .ok !d

end Docc.Sym
