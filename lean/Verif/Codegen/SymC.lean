import Verif.Codegen.Signed
import Verif.Sym.Cond
/-
The C text of symbolic expressions and conditions: `CSymbolicPrinter`
(sdfg/src/codegen/language_extensions/c_language_extension.cpp:360-515, the same in cpp_language_extension.cpp), on top of SymEngine's
`StrPrinter` for sums, products and comparisons.  The text is modelled by the expression it is read as; `XE.text` gives it back and
`XE.wf` says that the text is read as that expression.
-/
namespace Docc.Codegen
open Docc.C Docc.Sym

/-- C expressions over named variables.  `mac` is `__daisy_min` / `__daisy_max`, `pow` a call of `__daisy_sym_pow`, `size` a call or operator
of type `size_t` (`sizeof`, `malloc_usable_size`). -/
inductive XE where
  | sym (x : String)
  | lit (n : Nat)
  | bool (b : Bool)
  | par (e : XE)
  | neg (e : XE)
  | not (e : XE)
  | bin (o : BOp) (a b : XE)
  | cond (c a b : XE)
  | cast (t : CTy) (e : XE)
  | mac (isMax : Bool) (a b : XE)
  | pow (a b : XE)
  | size (f arg : String)
  deriving Repr, DecidableEq

/-! ### text -/

/-- names of the types that occur in casts (c_language_extension.cpp:370-380, 476-478) -/
def castText : CTy → String
  | .int 64 true => "long long"
  | .int 64 false => "unsigned long long"
  | .int 32 true => "int"
  | .int 32 false => "unsigned int"
  | _ => "?"

/-- precedence, as in `CE.prec`; casts are unary -/
def XE.prec : XE → Nat
  | .sym _ | .lit _ | .bool _ | .par _ | .mac .. | .pow .. | .size .. => 16
  | .neg _ | .not _ | .cast .. => 14
  | .bin o _ _ => o.prec
  | .cond .. => 3

/-- the text; products are printed without blanks (SymEngine `print_mul`; squares have blanks around the `*`, which is not modelled) -/
def XE.text : XE → String
  | .sym x => x
  | .lit n => toString n
  | .bool b => if b then "true" else "false"
  | .par e => "(" ++ e.text ++ ")"
  | .neg e => "-" ++ e.text
  | .not e => "!" ++ e.text
  | .bin .mul a b => a.text ++ "*" ++ b.text
  | .bin o a b => a.text ++ " " ++ o.text ++ " " ++ b.text
  | .cond c a b => c.text ++ " ? " ++ a.text ++ " : " ++ b.text
  | .cast t e => "(" ++ castText t ++ ") " ++ e.text
  | .mac m a b => (if m then "__daisy_max(" else "__daisy_min(") ++ a.text ++ ", " ++ b.text ++ ")"
  | .pow a b => "__daisy_sym_pow(" ++ a.text ++ ", " ++ b.text ++ ")"
  | .size f x => f ++ "(" ++ x ++ ")"

/-- the text is read back as the expression (as `CE.wf`) -/
def XE.wf : XE → Bool
  | .sym _ | .lit _ | .bool _ | .size .. => true
  | .par e => e.wf
  | .neg e | .not e | .cast _ e => decide (14 < e.prec) && e.wf
  | .bin o a b => decide (o.prec ≤ a.prec) && decide (o.prec < b.prec) && a.wf && b.wf
  | .cond c a b => decide (3 < c.prec) && decide (3 ≤ b.prec) && c.wf && a.wf && b.wf
  | .mac _ a b | .pow a b => a.wf && b.wf

/-! ### values -/

/-- the type of a decimal literal (C11 6.4.4.1) -/
def litTy (n : Nat) : CTy := if n < 2 ^ 31 then .int 32 true else .int 64 true

/-- the static type; `Γ` gives the types of the variables, `size_t` is a 64-bit unsigned type -/
def XE.ty (Γ : String → CTy) : XE → CTy
  | .sym x => Γ x
  | .lit n => litTy n
  | .bool _ => .bool
  | .par e => e.ty Γ
  | .neg e => promote (e.ty Γ)
  | .not _ => .int 32 true
  | .bin o a b =>
    match o with
    | .lt | .gt | .le | .ge | .eq | .ne | .land | .lor => .int 32 true
    | .shl | .shr => promote (a.ty Γ)
    | _ => common (a.ty Γ) (b.ty Γ)
  | .cond _ a b => common (a.ty Γ) (b.ty Γ)
  | .cast t _ => t
  | .mac _ a b => common (a.ty Γ) (b.ty Γ)
  | .pow _ _ => .int 32 true
  | .size _ _ => .int 64 false

/-- daisy_rtl.h:141-148: the loop of `__daisy_sym_pow` on `int`; `none` is signed overflow.  The exponent has at most 31 bits, so 32 rounds
are enough. -/
def powLoop : Nat → Int → Nat → Int → Option Int
  | 0, r, _, _ => some r
  | k + 1, r, e, b =>
    if e = 0 then some r
    else (if e % 2 = 1 then fit (.int 32 true) (r * b) else some r).bind fun r' =>
      (fit (.int 32 true) (b * b)).bind fun b' => powLoop k r' (e / 2) b'

/-- daisy_rtl.h:136-150 `__daisy_sym_pow` on values converted to `int` -/
def symPow (b e : Int) : Option Int := if e < 0 then some 0 else powLoop 32 1 e.toNat b

/-- convert a selected operand of `?:` to the common type -/
def select {F : Type} (t : CTy) : CV F → CV F
  | .i _ n => .i t (conv t n)
  | .f x => .f x

/-- evaluation; `none` is undefined behaviour -/
def XE.eval (K : Fmt) (env : String → CV K.F) (size : String → String → Int) : XE → Option (CV K.F)
  | .sym x => some (env x)
  | .lit n => if n < 2 ^ 63 then some (.i (litTy n) n) else none
  | .bool b => some (.i .bool (if b then 1 else 0))
  | .par e => e.eval K env size
  | .neg e => (e.eval K env size).bind fun
    | .i t n => (fit (promote t) (-(conv (promote t) n))).map (.i (promote t))
    | .f x => some (.f (K.neg x))
  | .not e => (e.eval K env size).bind fun x => x.isTrue.map fun b => truth (!b)
  | .bin .land a b => (a.eval K env size).bind fun x => x.isTrue.bind fun p =>
      if p then (b.eval K env size).bind fun y => y.isTrue.map truth else some (truth false)
  | .bin .lor a b => (a.eval K env size).bind fun x => x.isTrue.bind fun p =>
      if p then some (truth true) else (b.eval K env size).bind fun y => y.isTrue.map truth
  | .bin o a b => (a.eval K env size).bind fun x => (b.eval K env size).bind fun y => binop K o x y
  | .cond c a b => (c.eval K env size).bind fun x => x.isTrue.bind fun p =>
      (if p then a.eval K env size else b.eval K env size).map
        (select (common (a.ty fun i => (env i).ty) (b.ty fun i => (env i).ty)))
  | .cast t e => (e.eval K env size).bind fun
    | .i _ n => some (.i t (conv t n))
    | .f _ => none
  -- daisy_rtl.h:131-132: `((a) < (b) ? (a) : (b))`, `((a) > (b) ? (a) : (b))`
  | .mac m a b => (a.eval K env size).bind fun x => (b.eval K env size).bind fun y =>
      (binop K (if m then .gt else .lt) x y).bind fun z => z.isTrue.map fun p =>
        select (common (a.ty fun i => (env i).ty) (b.ty fun i => (env i).ty)) (if p then x else y)
  -- the arguments are converted to `int`
  | .pow a b => (a.eval K env size).bind fun x => (b.eval K env size).bind fun y =>
    match x, y with
    | .i _ m, .i _ n => (symPow (conv (.int 32 true) m) (conv (.int 32 true) n)).map (.i (.int 32 true))
    | _, _ => none
  | .size f x => some (.i (.int 64 false) (size f x))

/-! ### printing -/

/-- what the printer asks the function: c_language_extension.cpp:370-386 -/
structure SymKind where
  null : String → Bool
  ext : String → Bool
  ptr : String → Bool
  pre : String

/-- c_language_extension.cpp:370-386: null pointers, externals and pointers are printed as addresses.  (`uintptr_t` is the 64-bit unsigned type;
`NULL` and `&x` are not modelled beyond being operands of the cast; no theorem is about their values.) -/
def printSym (S : SymKind) (x : String) : XE :=
  if S.null x then .par (.cast (.int 64 false) (.lit 0))
  else if S.ext x then .par (.cast (.int 64 false) (.par (.sym ("&" ++ S.pre ++ x))))
  else if S.ptr x then .par (.cast (.int 64 false) (.sym x))
  else .sym x

/-- a term of a sum: the sign and the factors -/
abbrev Term := Bool × List XE

/-- the text of a term: `-` in front of the first factor, the factors joined by `*` (SymEngine StrPrinter, Mul) -/
def finish : Term → XE
  | (s, []) => if s then .neg (.lit 1) else .lit 1
  | (s, f :: r) => r.foldl (.bin .mul) (if s then .neg f else f)

/-- SymEngine StrPrinter, `parenthesizeLT(.., Mul)`: a factor of a product; sums are parenthesized.  (Products in products and negative
numbers behind the first factor do not occur; they are parenthesized here.) -/
def factor : Expr → Term → XE
  | .add _, t | .mul _, t => .par (finish t)
  | .int n, t => if n < 0 then .par (finish t) else finish t
  | _, t => finish t

/-- SymEngine StrPrinter, Mul: the coefficient comes first, `-1` is printed as `-` -/
def mulTerm : List Expr → List Term → Term
  | .int c :: es, _ :: ts =>
    (decide (c < 0), (if c = -1 && !es.isEmpty then [] else [.lit c.natAbs]) ++ List.zipWith factor es ts)
  | es, ts => (false, List.zipWith factor es ts)

/-- SymEngine StrPrinter, Add: a term of a sum.  (Sums in sums do not occur; they are parenthesized here.) -/
def addend : Expr → Term → Term
  | .add _, t => (false, [.par (finish t)])
  | _, t => t

/-- SymEngine StrPrinter, Add: the first term, then ` + ` or ` - ` and the next one -/
def sumX : List Term → XE
  | [] => .lit 0
  | t :: r => r.foldl (fun acc t => .bin (if t.1 then .sub else .add) acc (finish (false, t.2))) (finish t)

/-- c_language_extension.cpp:421-471: nested two-argument minima and maxima -/
def macX (m : Bool) : List XE → Option XE
  | [] => none
  | [a] => some a
  | a :: r => (macX m r).map (.mac m a)

/-- c_language_extension.cpp:473-495: function symbols; the others throw.  The arguments of `sizeof` and `malloc_usable_size` are names. -/
def fnX (name : String) (args : List Expr) (ts : List Term) : Option XE :=
  if name = "idiv" then
    match ts with
    | [a, b] => some (.par (.bin .div (.par (finish a)) (.par (finish b))))
    | _ => none
  else if name = "iabs" then
    match ts with
    | [a] => some (.par (.cond (.bin .lt (.par (finish a)) (.lit 0)) (.neg (.par (finish a))) (.par (finish a))))
    | _ => none
  else if name = "zext_i64" then
    match ts with
    | [a] => some (.par (.cast (.int 64 true) (.par (.cast (.int 64 false) (.par (finish a))))))
    | _ => none
  else if name = "trunc_i32" then
    match ts with
    | [a] => some (.par (.cast (.int 32 true) (.par (.cast (.int 32 false) (.par (.cast (.int 64 false) (.par (finish a))))))))
    | _ => none
  else if name = "sizeof" || name = "malloc_usable_size" then
    match args with
    | [.sym x] => some (.size name x)
    | _ => none
  else none

/-- c_language_extension.cpp:497-514: squares are products of the two texts, all other powers calls.  (Exponents that are not integers do not
occur.) -/
def powX (e : Expr) (b' e' : Term) : XE :=
  match e with
  | .int 2 => .par (.bin .mul (.par (finish b')) (.par (finish b')))
  | _ => .pow (finish b') (finish e')

mutual
/-- the printer; `none` is an exception, or a text that is not an integer expression (infinities) -/
def term (S : SymKind) : Expr → Option Term
  | .int n => some (decide (n < 0), [.lit n.natAbs])
  | .sym x => some (false, [printSym S x])
  | .inf _ => none
  | .nan => none
  | .add l => (termL S l).map fun ts => (false, [sumX (List.zipWith addend l ts)])
  | .mul l => (termL S l).map (mulTerm l)
  | .max l => (termL S l).bind fun ts => (macX true (ts.map finish)).map fun x => (false, [x])
  | .min l => (termL S l).bind fun ts => (macX false (ts.map finish)).map fun x => (false, [x])
  | .pow b e => (term S b).bind fun b' => (term S e).map fun e' => (false, [powX e b' e'])
  | .fn name l => (termL S l).bind fun ts => (fnX name l ts).map fun x => (false, [x])
/-- argument lists -/
def termL (S : SymKind) : List Expr → Option (List Term)
  | [] => some []
  | e :: r => (term S e).bind fun t => (termL S r).map (t :: ·)
end

/-- CLanguageExtension::expression (c_language_extension.cpp:173-176) -/
def emit (S : SymKind) (e : Expr) : Option XE := (term S e).map finish

/-- operands joined by `&&` or `||` (c_language_extension.cpp:388-406) -/
def joinX (o : BOp) : List XE → Option XE
  | [] => none
  | a :: r => some (.par (r.foldl (.bin o) a))

mutual
/-- conditions: c_language_extension.cpp:368, 388-419 and SymEngine StrPrinter for `<=` and `<` -/
def emitC (S : SymKind) : Cond → Option XE
  | .tt => some (.bool true)
  | .ff => some (.bool false)
  | .atom x => some (printSym S x)
  | .eq a b => (emit S a).bind fun x => (emit S b).map fun y => .par (.bin .eq x y)
  | .ne a b => (emit S a).bind fun x => (emit S b).map fun y => .par (.bin .ne x y)
  | .le a b => (emit S a).bind fun x => (emit S b).map fun y => .bin .le x y
  | .lt a b => (emit S a).bind fun x => (emit S b).map fun y => .bin .lt x y
  | .eqB a b => (emitC S a).bind fun x => (emitC S b).map fun y => .par (.bin .eq x y)
  | .neB a b => (emitC S a).bind fun x => (emitC S b).map fun y => .par (.bin .ne x y)
  | .not c => (emitC S c).map fun x => .par (.not x)
  | .and l => (emitCL S l).bind (joinX .land)
  | .or l => (emitCL S l).bind (joinX .lor)
/-- operands of `&&` and `||` -/
def emitCL (S : SymKind) : List Cond → Option (List XE)
  | [] => some []
  | c :: r => (emitC S c).bind fun x => (emitCL S r).map (x :: ·)
end

end Docc.Codegen
