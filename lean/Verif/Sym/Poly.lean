import Verif.Sym.Expr
import Verif.Sym.Extreme
import Verif.Sym.Simplify

/-
Polynomials (sdfg/src/symbolic/polynomials.cpp and symbolic.cpp:345-354).
-/
namespace Docc.Sym

/-- The dictionary of a SymEngine `MExprPoly`: exponent vector (one entry per generator, generators in set order) and
coefficient. -/
abbrev Poly := List (List Nat × Expr)

/-- the extra key of `AffineCoeffs` -/
def constName : String := "__daisy_constant__"

/-- `AffineCoeffs` as a function of the key, and its keys (polynomials.h:48). -/
structure Affine where
  keys : List String
  at' : String → Expr

/-- polynomials.cpp:33-40: the symbol selected by an exponent vector: the last `symbols[i]` with a positive exponent. -/
def pickSymbol : List String → List Nat → String → String
  | s :: ss, e :: es, cur => pickSymbol ss es (if e > 0 then s else cur)
  | _, _, cur => cur

/-- polynomials.cpp:21-53 `affine_coefficients`; `none` is the empty map (total degree above one). -/
def affineCoefficients (D : Poly) (symbols : List String) : Option Affine :=
  let rec go : Poly → (String → Expr) → Option (String → Expr)
    | [], f => some f
    | (es, c) :: r, f =>
      if es.sum > 1 then none
      else
        let s := pickSymbol symbols es constName
        go r (fun x => if x = s then .add [f s, c] else f x)
  match go D (fun _ => .int 0) with
  | some f => some ⟨symbols ++ [constName], f⟩
  | none => none

/-- polynomials.cpp:55-69 `affine_inverse`: `(symbol - Σ other coefficients) / coefficient`, in the order of the keys
after the symbol itself is removed.  `none` is `SymEngine::null`. -/
def affineInverse (A : Affine) (x : String) : Res Expr :=
  if x ∉ A.keys ∨ A.at' x = .int 0 then .null
  else sdiv ((A.keys.filter (· ≠ x)).foldl (fun acc s => .add [acc, .mul [.int (-1), A.at' s]]) (.sym x)) (A.at' x)

/-- SymEngine operations used on polynomials: `from_basic<MExprPoly>` (`none`: not a polynomial) and `expand`. -/
structure PolyEngine where
  poly : Expr → List String → Option Poly
  expand : Expr → Expr
  norm : Expr → Expr

/-- value of a monomial: the product of the generators raised to the exponents -/
def monoVal (ρ : Val) : List String → List Nat → Int
  | g :: gs, e :: es => ρ.sym g ^ e * monoVal ρ gs es
  | _, _ => 1

/-- value of a polynomial; `none` when a coefficient has no value -/
def polyVal (ρ : Val) (gens : List String) : Poly → Option Int
  | [] => some 0
  | (es, c) :: r => match c.eval ρ, polyVal ρ gens r with
    | .fin n, some m => some (n * monoVal ρ gens es + m)
    | _, _ => none

/-- symbolic.cpp:345-354 `inverse`.  `coeffs` of the map with the single generator `x`. -/
def symInverse (E : PolyEngine) (e : Expr) (x : String) : Res Expr :=
  match E.poly e [x] with
  | none => .null
  | some D => match affineCoefficients D [x] with
    | none => .null
    | some A => affineInverse A x

/-- polynomials.cpp:80-90: the first exponent vector is lexicographically greater than the second. -/
def lexGreater : List Nat → List Nat → Bool
  | a :: as, b :: bs => if a > b then true else if a < b then false else lexGreater as bs
  | _, _ => false

/-- polynomials.cpp:71-98 `get_leading_term`. -/
def leadingTerm : Poly → List Nat × Expr
  | [] => ([], .int 0)
  | t :: r => r.foldl (fun m t => if lexGreater t.1 m.1 then t else m) t

/-- polynomials.cpp:151-158: `exp_diff`; `null`: not divisible; reading past the end of `exp_sor` (the divisor is the zero
polynomial) is undefined behaviour. -/
def expDiff : List Nat → List Nat → Res (List Nat)
  | [], _ => .ok []
  | _ :: _, [] => .ub
  | a :: as, b :: bs => if a < b then .null else (expDiff as bs).bind fun l => .ok ((a - b) :: l)

/-- polynomials.cpp:167-171, 183-187: multiply a coefficient with the powers of the symbols -/
def buildTerm : List String → List Nat → Expr → Expr
  | s :: ss, e :: es, c => buildTerm ss es (if e > 0 then .mul [c, .pow (.sym s) (.int e)] else c)
  | _, _, c => c

/-- state of the division loop: quotient, remainder, dividend -/
structure DivSt where
  q : Expr
  r : Expr
  d : Expr

/-- One pass of the loop body polynomials.cpp:141-192.  `none`: the loop is left with `break`. -/
def divStep (E : PolyEngine) (symbols : List String) (stride : Expr) (ps : Poly) (s : DivSt) : Option (Res DivSt) :=
  match E.poly s.d symbols with
  | none => none
  | some pd =>
    let (ed, cd) := leadingTerm pd
    let (es, cs) := leadingTerm ps
    if ed = [] ∧ cd = .int 0 then none
    else
      let toRemainder : Res DivSt :=
        let t := buildTerm symbols ed cd
        .ok ⟨s.q, .add [s.r, t], E.expand (ssub s.d t)⟩
      match expDiff ed es with
      | .ub => some .ub
      | .null => some toRemainder
      | .ok diff =>
        match sdiv cd cs with
        | .ub => some .ub
        | .null => some .null
        | .ok cq =>
          if E.norm cq = .int 0 then some toRemainder
          else
            let t := buildTerm symbols diff cq
            some (.ok ⟨.add [s.q, t], s.r, E.expand (ssub s.d (.mul [t, stride]))⟩)

/-- The loop polynomials.cpp:140-193 with its iteration budget. -/
def divLoop (E : PolyEngine) (symbols : List String) (stride : Expr) (ps : Poly) : Nat → DivSt → Res DivSt
  | 0, s => .ok s
  | n + 1, s =>
    if E.norm s.d = .int 0 then .ok s
    else match divStep E symbols stride ps s with
      | none => .ok s
      | some r => r.bind (divLoop E symbols stride ps n)

/-- polynomials.cpp:109-130: fallback when the divisor is not a polynomial: `pick` is the sum of the terms of the expanded
quotient that have denominator one. -/
def divFallback (E : PolyEngine) (pick : Expr) (offset stride : Expr) : Expr × Expr :=
  (pick, E.expand (ssub offset (.mul [pick, stride])))

/-- polynomials.cpp:100-198 `polynomial_div`.  `symbols` is the sorted set of symbols of both arguments. -/
def polynomialDiv (E : PolyEngine) (symbols : List String) (pick : Expr → Expr → Expr) (offset stride : Expr) :
    Res (Expr × Expr) :=
  if offset = .int 0 then .ok (.int 0, .int 0)
  else match E.poly stride symbols with
    | none => .ok (divFallback E (pick offset stride) offset stride)
    | some ps => (divLoop E symbols stride ps 100 ⟨.int 0, .int 0, offset⟩).bind fun s =>
        .ok (s.q, E.expand (.add [s.r, s.d]))

end Docc.Sym
