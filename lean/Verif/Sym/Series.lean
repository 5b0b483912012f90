import Verif.Sym.Poly

/-
Loop update classification (sdfg/src/symbolic/series.cpp).
-/
namespace Docc.Sym

/-- the expression is an Integer after SymEngine canonicalisation -/
def PolyEngine.asInteger (E : PolyEngine) (e : Expr) : Option Int :=
  match E.norm e with
  | .int n => some n
  | _ => none

/-- series.cpp:10-35 `affine_int_coeffs`: minimum of the coefficient and minimum of the constant, both integers. -/
def affineIntCoeffs (E : PolyEngine) (A : Assums) (e : Expr) (x : String) : Option (Int × Int) :=
  match E.poly e [x] with
  | none => none
  | some D => match affineCoefficients D [x] with
    | none => none
    | some c =>
      match symMinimum [] A (c.at' x), symMinimum [] A (c.at' constName) with
      | .ok m, .ok k => match E.asInteger m, E.asInteger k with
        | some m, some k => some (m, k)
        | _, _ => none
      | _, _ => none

/-- does the integer fit in `signed long` (`as_int` throws otherwise) -/
def fitsLong (n : Int) : Bool := -2 ^ 63 ≤ n ∧ n < 2 ^ 63

/-- series.cpp:37-54 -/
def isMonotonicAffine (E : PolyEngine) (A : Assums) (e : Expr) (x : String) : Bool :=
  match affineIntCoeffs E A e x with
  | some (m, k) => fitsLong m && fitsLong k && decide (m > 0) && decide (k > 0)
  | none => false

/-- series.cpp:56-73 -/
def isContiguousAffine (E : PolyEngine) (A : Assums) (e : Expr) (x : String) : Bool :=
  match affineIntCoeffs E A e x with
  | some (m, k) => fitsLong m && fitsLong k && decide (m = 1) && decide (k = 1)
  | none => false

/-- series.cpp:75-96: the parameter `sym` is not used. -/
def isMonotonicPow (E : PolyEngine) (A : Assums) (e : Expr) : Bool :=
  match e with
  | .pow (.sym y) (.int n) =>
    if n ≤ 0 then false
    else match symMinimum [] A (.sym y) with
      | .ok m => match E.asInteger m with
        | some m => decide (m ≥ 0)
        | none => false
      | _ => false
  | _ => false

/-- series.cpp:98-103 `is_monotonic`. -/
def isMonotonic (E : PolyEngine) (A : Assums) (e : Expr) (x : String) : Bool :=
  isMonotonicAffine E A e x || isMonotonicPow E A e

/-- series.cpp:105-110 `is_contiguous`. -/
def isContiguous (E : PolyEngine) (A : Assums) (e : Expr) (x : String) : Bool := isContiguousAffine E A e x

mutual
/-- a sum of integers (after canonicalisation: an integer) -/
def Expr.intSum : Expr → Option Int
  | .int n => some n
  | .add l => Expr.intSumL l
  | _ => none
/-- sum of a list of sums of integers -/
def Expr.intSumL : List Expr → Option Int
  | [] => some 0
  | e :: r => match Expr.intSum e, Expr.intSumL r with
    | some a, some b => some (a + b)
    | _, _ => none
end

end Docc.Sym
