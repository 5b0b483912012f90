import Verif.Types.Primitive
/-
A fragment of C: integer and floating point expressions over variables, with the integer promotions, the usual arithmetic
conversions and undefined behaviour of C11 (6.3.1, 6.5), for an implementation with 32-bit int, 64-bit long long, two's complement and
wrap-around conversion to signed types (gcc, clang).  Used to give a meaning to the text emitted by the code generator.
-/
namespace Docc.C

/-- arithmetic types: `_Bool`, integers by width and signedness, floating point (one format at a time) -/
inductive CTy where
  | bool
  | int (w : Nat) (sgn : Bool)
  | fp
  deriving Repr, DecidableEq

/-- binary operators -/
inductive BOp where
  | add | sub | mul | div | rem | shl | shr | lt | gt | le | ge | eq | ne | band | bxor | bor | land | lor
  deriving Repr, DecidableEq

/-- expressions: variables, small integer literals (of type int), parentheses, the operators, `isnan` and `fmod` -/
inductive CE where
  | v (i : Nat)
  | lit (n : Nat)
  | par (e : CE)
  | neg (e : CE)
  | not (e : CE)
  | bin (o : BOp) (a b : CE)
  | cond (c a b : CE)
  | isnan (a : CE)
  | fmod (a b : CE)
  deriving Repr, DecidableEq

/-! ### text -/

/-- the spelling of an operator -/
def BOp.text : BOp → String
  | .add => "+" | .sub => "-" | .mul => "*" | .div => "/" | .rem => "%" | .shl => "<<" | .shr => ">>"
  | .lt => "<" | .gt => ">" | .le => "<=" | .ge => ">=" | .eq => "==" | .ne => "!="
  | .band => "&" | .bxor => "^" | .bor => "|" | .land => "&&" | .lor => "||"

/-- precedence (C11 6.5.5 - 6.5.14), larger binds tighter; all binary operators associate to the left -/
def BOp.prec : BOp → Nat
  | .mul | .div | .rem => 13
  | .add | .sub => 12
  | .shl | .shr => 11
  | .lt | .gt | .le | .ge => 10
  | .eq | .ne => 9
  | .band => 8
  | .bxor => 7
  | .bor => 6
  | .land => 5
  | .lor => 4

/-- the precedence of an expression: primary 16, unary 14, conditional 3 -/
def CE.prec : CE → Nat
  | .v _ | .lit _ | .par _ | .isnan _ | .fmod .. => 16
  | .neg _ | .not _ => 14
  | .bin o _ _ => o.prec
  | .cond .. => 3

/-- the text of an expression; `nm` are the names of the variables, `isn` the spelling of `isnan` -/
def CE.text (isn : String) (nm : Nat → String) : CE → String
  | .v i => nm i
  | .lit n => toString n
  | .par e => "(" ++ e.text isn nm ++ ")"
  | .neg e => "-" ++ e.text isn nm
  | .not e => "!" ++ e.text isn nm
  | .bin o a b => a.text isn nm ++ " " ++ o.text ++ " " ++ b.text isn nm
  | .cond c a b => c.text isn nm ++ " ? " ++ a.text isn nm ++ " : " ++ b.text isn nm
  | .isnan a => isn ++ "(" ++ a.text isn nm ++ ")"
  | .fmod a b => "fmod(" ++ a.text isn nm ++ ", " ++ b.text isn nm ++ ")"

/-- the text of the expression is read back as the expression: no operand binds weaker than its position allows -/
def CE.wf : CE → Bool
  | .v _ | .lit _ => true
  | .par e => e.wf
  | .neg e | .not e => decide (14 < e.prec) && e.wf
  | .bin o a b => decide (o.prec ≤ a.prec) && decide (o.prec < b.prec) && a.wf && b.wf
  | .cond c a b => decide (3 < c.prec) && decide (3 ≤ b.prec) && c.wf && a.wf && b.wf
  | .isnan a => a.wf
  | .fmod a b => a.wf && b.wf

/-! ### values -/

/-- what is needed of a floating point format (IEEE 754): comparisons with a NaN are false -/
structure Fmt where
  F : Type
  nan : F → Bool
  eq : F → F → Bool
  lt : F → F → Bool
  le : F → F → Bool
  neg : F → F
  add : F → F → F
  sub : F → F → F
  mul : F → F → F
  div : F → F → F
  rem : F → F → F
  eq_nan : ∀ a b, nan a = true ∨ nan b = true → eq a b = false
  lt_nan : ∀ a b, nan a = true ∨ nan b = true → lt a b = false
  le_nan : ∀ a b, nan a = true ∨ nan b = true → le a b = false
  eq_refl : ∀ a, nan a = false → eq a a = true

/-- a typed value -/
inductive CV (F : Type) where
  | i (t : CTy) (n : Int)
  | f (x : F)

/-- the type of a value -/
def CV.ty {F : Type} : CV F → CTy
  | .i t _ => t
  | .f _ => .fp

/-- 6.3.1.1: integer promotion -/
def promote : CTy → CTy
  | .bool => .int 32 true
  | .int w s => if w < 32 then .int 32 true else .int w s
  | .fp => .fp

/-- 6.3.1.8: usual arithmetic conversions of promoted types -/
def uac : CTy → CTy → CTy
  | .int w s, .int w' s' =>
    if s = s' then .int (max w w') s
    else if s then (if w ≤ w' then .int w' false else .int w true)
    else (if w' ≤ w then .int w false else .int w' true)
  | .fp, _ => .fp
  | _, .fp => .fp
  | t, _ => t

/-- the type of the operands of a binary operator -/
def common (a b : CTy) : CTy := uac (promote a) (promote b)

/-- 6.3.1.2, 6.3.1.3: conversion of an integer value -/
def conv : CTy → Int → Int
  | .bool, n => if n = 0 then 0 else 1
  | .int w true, n => n.bmod (2 ^ w)
  | .int w false, n => n % 2 ^ w
  | .fp, n => n

/-- 6.5p5: a result outside the range of a signed type is undefined, an unsigned result is reduced -/
def fit : CTy → Int → Option Int
  | .int w true, n => if -(2 ^ (w - 1)) ≤ n ∧ n < 2 ^ (w - 1) then some n else none
  | .int w false, n => some (n % 2 ^ w)
  | _, _ => none

/-- the value of the bits -/
def val (s : Bool) {w : Nat} (b : BitVec w) : Int := if s then b.toInt else b.toNat

/-- bitwise operators on the representation -/
def bits (t : CTy) (f : {w : Nat} → BitVec w → BitVec w → BitVec w) (a b : Int) : Option Int :=
  match t with
  | .int w s => some (val s (f (BitVec.ofInt w a) (BitVec.ofInt w b)))
  | _ => none

/-- 6.5.5, 6.5.6, 6.5.10-12 on operands converted to the common type -/
def arith (o : BOp) (t : CTy) (a b : Int) : Option Int :=
  match o with
  | .add => fit t (a + b)
  | .sub => fit t (a - b)
  | .mul => fit t (a * b)
  | .div => if b = 0 then none else fit t (a.tdiv b)
  | .rem => if b = 0 then none else (fit t (a.tdiv b)).bind fun _ => fit t (a.tmod b)
  | .band => bits t (· &&& ·) a b
  | .bxor => bits t (· ^^^ ·) a b
  | .bor => bits t (· ||| ·) a b
  | _ => none

/-- 6.5.7: the left operand is promoted; a negative or too large count, and shifting a signed value out of its range, are undefined; the
right shift of a negative value is arithmetic (gcc, clang) -/
def shift (left : Bool) (t : CTy) (a b : Int) : Option Int :=
  match t with
  | .int w s =>
    if b < 0 ∨ (w : Int) ≤ b then none
    else if left then (if s then (if a < 0 then none else fit t (a * 2 ^ b.toNat)) else fit t (a * 2 ^ b.toNat))
    else some (a / 2 ^ b.toNat)
  | _ => none

/-- 6.5.8, 6.5.9 -/
def rel (o : BOp) (a b : Int) : Option Bool :=
  match o with
  | .lt => some (decide (a < b))
  | .gt => some (decide (b < a))
  | .le => some (decide (a ≤ b))
  | .ge => some (decide (b ≤ a))
  | .eq => some (decide (a = b))
  | .ne => some (!decide (a = b))
  | _ => none

/-- a truth value, of type int -/
def truth {F : Type} (b : Bool) : CV F := .i (.int 32 true) (if b then 1 else 0)

/-- floating point operators -/
def fbin (K : Fmt) (o : BOp) (a b : K.F) : Option (CV K.F) :=
  match o with
  | .add => some (.f (K.add a b))
  | .sub => some (.f (K.sub a b))
  | .mul => some (.f (K.mul a b))
  | .div => some (.f (K.div a b))
  | .lt => some (truth (K.lt a b))
  | .gt => some (truth (K.lt b a))
  | .le => some (truth (K.le a b))
  | .ge => some (truth (K.le b a))
  | .eq => some (truth (K.eq a b))
  | .ne => some (truth (!K.eq a b))
  | _ => none

/-- a binary operator other than `&&`, `||`; mixed integer and floating point operands do not occur -/
def binop (K : Fmt) (o : BOp) : CV K.F → CV K.F → Option (CV K.F)
  | .i t a, .i t' b =>
    match o with
    | .shl => (shift true (promote t) (conv (promote t) a) (conv (promote t') b)).map (.i (promote t))
    | .shr => (shift false (promote t) (conv (promote t) a) (conv (promote t') b)).map (.i (promote t))
    | _ =>
      let c := common t t'
      match rel o (conv c a) (conv c b) with
      | some r => some (truth r)
      | none => (arith o c (conv c a) (conv c b)).map (.i c)
  | .f a, .f b => fbin K o a b
  | _, _ => none

/-- the truth of a scalar; conditions of floating point type do not occur -/
def CV.isTrue {F : Type} : CV F → Option Bool
  | .i _ n => some (!decide (n = 0))
  | .f _ => none

/-- the static type of an expression -/
def CE.ty (env : Nat → CTy) : CE → CTy
  | .v i => env i
  | .lit _ => .int 32 true
  | .par e => e.ty env
  | .neg e => promote (e.ty env)
  | .not _ => .int 32 true
  | .bin o a b =>
    match o with
    | .lt | .gt | .le | .ge | .eq | .ne | .land | .lor => .int 32 true
    | .shl | .shr => promote (a.ty env)
    | _ => common (a.ty env) (b.ty env)
  | .cond _ a b => common (a.ty env) (b.ty env)
  | .isnan _ => .int 32 true
  | .fmod _ _ => .fp

/-- evaluation; `none` is undefined behaviour (or an ill-typed expression) -/
def CE.eval (K : Fmt) (env : Nat → CV K.F) : CE → Option (CV K.F)
  | .v i => some (env i)
  | .lit n => some (.i (.int 32 true) n)
  | .par e => e.eval K env
  | .neg e => (e.eval K env).bind fun
    | .i t n => (fit (promote t) (-(conv (promote t) n))).map (.i (promote t))
    | .f x => some (.f (K.neg x))
  | .not e => (e.eval K env).bind fun x => x.isTrue.map fun b => truth (!b)
  | .bin .land a b => (a.eval K env).bind fun x => x.isTrue.bind fun p =>
      if p then (b.eval K env).bind fun y => y.isTrue.map truth else some (truth false)
  | .bin .lor a b => (a.eval K env).bind fun x => x.isTrue.bind fun p =>
      if p then some (truth true) else (b.eval K env).bind fun y => y.isTrue.map truth
  | .bin o a b => (a.eval K env).bind fun x => (b.eval K env).bind fun y => binop K o x y
  | .cond c a b => (c.eval K env).bind fun x => x.isTrue.bind fun p =>
      (if p then a.eval K env else b.eval K env).bind fun
      | .i _ n => some (.i (common (a.ty fun i => (env i).ty) (b.ty fun i => (env i).ty))
          (conv (common (a.ty fun i => (env i).ty) (b.ty fun i => (env i).ty)) n))
      | .f x => some (.f x)
  | .isnan a => (a.eval K env).bind fun
    | .f x => some (truth (K.nan x))
    | .i _ _ => none
  | .fmod a b => (a.eval K env).bind fun x => (b.eval K env).bind fun y =>
    match x, y with
    | .f x, .f y => some (.f (K.rem x y))
    | _, _ => none

end Docc.C
