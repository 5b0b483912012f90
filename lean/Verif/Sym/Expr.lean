/-
Symbolic integer expressions (sdfg/include/sdfg/symbolic/symbolic.h, sdfg/src/symbolic/symbolic.cpp).

The C++ uses SymEngine terms.  We keep the constructors the docc code inspects: integers, symbols,
infinities, NaN, n-ary `Add`, `Mul`, `Max`, `Min`, `Pow` and function symbols.  SymEngine's canonical
ordering/merging of arguments is not modelled: the trees are raw and `eval` gives their meaning.
-/
namespace Docc.Sym

/-- Values of SymEngine numeric terms: integers, the two infinities, and NaN (undefined). -/
inductive V where
  | fin (n : Int)
  | pinf
  | ninf
  | nan
  deriving Repr, DecidableEq, Inhabited

namespace V

/-- SymEngine addition of numbers and infinities. -/
def add : V → V → V
  | nan, _ => nan
  | _, nan => nan
  | fin a, fin b => fin (a + b)
  | pinf, ninf => nan
  | ninf, pinf => nan
  | pinf, _ => pinf
  | _, pinf => pinf
  | ninf, _ => ninf
  | _, ninf => ninf

/-- product of an infinity of sign `s` with an integer -/
def scaleInf (pos : Bool) (n : Int) : V :=
  if n = 0 then nan else if (0 < n) = (pos = true) then pinf else ninf

/-- SymEngine multiplication of numbers and infinities (`0 * oo = NaN`). -/
def mul : V → V → V
  | nan, _ => nan
  | _, nan => nan
  | fin a, fin b => fin (a * b)
  | pinf, fin n => scaleInf true n
  | ninf, fin n => scaleInf false n
  | fin n, pinf => scaleInf true n
  | fin n, ninf => scaleInf false n
  | pinf, pinf => pinf
  | ninf, ninf => pinf
  | pinf, ninf => ninf
  | ninf, pinf => ninf

/-- maximum; NaN is absorbing -/
def max : V → V → V
  | nan, _ => nan
  | _, nan => nan
  | fin a, fin b => fin (if a ≤ b then b else a)
  | pinf, _ => pinf
  | _, pinf => pinf
  | ninf, b => b
  | a, ninf => a

/-- minimum; NaN is absorbing -/
def min : V → V → V
  | nan, _ => nan
  | _, nan => nan
  | fin a, fin b => fin (if a ≤ b then a else b)
  | ninf, _ => ninf
  | _, ninf => ninf
  | pinf, b => b
  | a, pinf => a

/-- powers with a non-negative integer exponent; anything else is not an integer -/
def pow : V → V → V
  | fin a, fin (.ofNat e) => fin (a ^ e)
  | _, _ => nan

/-- the order on proper values; nothing is related to NaN -/
def le : V → V → Prop
  | nan, _ => False
  | _, nan => False
  | ninf, _ => True
  | _, pinf => True
  | fin a, fin b => a ≤ b
  | _, _ => False

instance : LE V := ⟨V.le⟩

end V

/-- Symbolic expressions. -/
inductive Expr where
  | int (n : Int)
  | sym (x : String)
  | inf (pos : Bool)
  | nan
  | add (args : List Expr)
  | mul (args : List Expr)
  | max (args : List Expr)
  | min (args : List Expr)
  | pow (b e : Expr)
  | fn (name : String) (args : List Expr)
  deriving Repr, Inhabited

/-- A valuation: values of the symbols, and an interpretation of the opaque functions (`sizeof`,
`dynamic_sizeof`, `malloc_usable_size`, ...). -/
structure Val where
  sym : String → Int
  fn : String → List Int → Int

/-- bind a symbol -/
def Val.set (ρ : Val) (x : String) (n : Int) : Val :=
  { ρ with sym := fun y => if y = x then n else ρ.sym y }

/-- Meaning of a function symbol on integer arguments.  `idiv`/`imod` are C integer division and remainder
(undefined for 0), `iabs` the absolute value, `zext_i64` zero extension of a 32-bit value, `trunc_i32`
truncation to a signed 32-bit value (symbolic.cpp:87-130 and codegen/language_extensions). -/
def applyFn (ρ : Val) (name : String) (args : List Int) : V :=
  if name = "idiv" then
    match args with
    | [a, b] => if b = 0 then .nan else .fin (a.tdiv b)
    | _ => .nan
  else if name = "imod" then
    match args with
    | [a, b] => if b = 0 then .nan else .fin (a.tmod b)
    | _ => .nan
  else if name = "iabs" then
    match args with
    | [a] => .fin a.natAbs
    | _ => .nan
  else if name = "zext_i64" then
    match args with
    | [a] => .fin (a % 2 ^ 32)
    | _ => .nan
  else if name = "trunc_i32" then
    match args with
    | [a] => .fin (a.bmod (2 ^ 32))
    | _ => .nan
  else .fin (ρ.fn name args)

/-- all values finite -/
def finArgs : List V → Option (List Int)
  | [] => some []
  | .fin n :: r => match finArgs r with | some l => some (n :: l) | none => none
  | _ :: _ => none

mutual
/-- Meaning of an expression. -/
def Expr.eval (ρ : Val) : Expr → V
  | .int n => .fin n
  | .sym x => .fin (ρ.sym x)
  | .inf pos => if pos then .pinf else .ninf
  | .nan => .nan
  | .add l => (Expr.evalL ρ l).foldr V.add (.fin 0)
  | .mul l => (Expr.evalL ρ l).foldr V.mul (.fin 1)
  | .max l => match Expr.evalL ρ l with | [] => .nan | v :: r => r.foldl V.max v
  | .min l => match Expr.evalL ρ l with | [] => .nan | v :: r => r.foldl V.min v
  | .pow b e => V.pow (Expr.eval ρ b) (Expr.eval ρ e)
  | .fn name l => match finArgs (Expr.evalL ρ l) with | some ns => applyFn ρ name ns | none => .nan
/-- Meaning of an argument list. -/
def Expr.evalL (ρ : Val) : List Expr → List V
  | [] => []
  | e :: r => Expr.eval ρ e :: Expr.evalL ρ r
end

theorem Expr.evalL_eq_map (ρ : Val) (l : List Expr) : Expr.evalL ρ l = l.map (Expr.eval ρ) := by
  induction l with
  | nil => rfl
  | cons e r ih => simp [Expr.evalL, ih]

/-- Structural induction with hypotheses for list members. -/
theorem Expr.induct {P : Expr → Prop}
    (hint : ∀ n, P (.int n)) (hsym : ∀ x, P (.sym x)) (hinf : ∀ b, P (.inf b)) (hnan : P .nan)
    (hadd : ∀ l, (∀ e ∈ l, P e) → P (.add l)) (hmul : ∀ l, (∀ e ∈ l, P e) → P (.mul l))
    (hmax : ∀ l, (∀ e ∈ l, P e) → P (.max l)) (hmin : ∀ l, (∀ e ∈ l, P e) → P (.min l))
    (hpow : ∀ b e, P b → P e → P (.pow b e))
    (hfn : ∀ f l, (∀ e ∈ l, P e) → P (.fn f l)) (e : Expr) : P e :=
  Expr.rec (motive_1 := P) (motive_2 := fun l => ∀ e ∈ l, P e)
    hint hsym hinf hnan hadd hmul hmax hmin hpow hfn
    (by simp)
    (by intro h t ih1 ih2 e he
        rcases List.mem_cons.mp he with rfl | he
        · exact ih1
        · exact ih2 e he) e

mutual
/-- decidable syntactic equality, SymEngine::eq (symbolic.cpp:296 `eq`) -/
def Expr.beq : Expr → Expr → Bool
  | .int a, .int b => a == b
  | .sym a, .sym b => a == b
  | .inf a, .inf b => a == b
  | .nan, .nan => true
  | .add a, .add b => Expr.beqL a b
  | .mul a, .mul b => Expr.beqL a b
  | .max a, .max b => Expr.beqL a b
  | .min a, .min b => Expr.beqL a b
  | .pow a b, .pow c d => Expr.beq a c && Expr.beq b d
  | .fn f a, .fn g b => f == g && Expr.beqL a b
  | _, _ => false
/-- equality of argument lists -/
def Expr.beqL : List Expr → List Expr → Bool
  | [], [] => true
  | a :: r, b :: s => Expr.beq a b && Expr.beqL r s
  | _, _ => false
end

theorem Expr.beqL_iff (l l' : List Expr) (ih : ∀ e ∈ l, ∀ e', Expr.beq e e' = true ↔ e = e') :
    Expr.beqL l l' = true ↔ l = l' := by
  induction l generalizing l' with
  | nil => cases l' <;> simp [Expr.beqL]
  | cons a r ihr =>
    cases l' with
    | nil => simp [Expr.beqL]
    | cons b s =>
      simp only [Expr.beqL, Bool.and_eq_true, List.cons.injEq]
      rw [ih a (by simp), ihr s (fun e he => ih e (List.mem_cons_of_mem _ he))]

theorem Expr.beq_iff (e e' : Expr) : Expr.beq e e' = true ↔ e = e' := by
  induction e using Expr.induct generalizing e' with
  | hint n => cases e' <;> simp [Expr.beq]
  | hsym n => cases e' <;> simp [Expr.beq]
  | hinf n => cases e' <;> simp [Expr.beq]
  | hnan => cases e' <;> simp [Expr.beq]
  | hadd l ih => cases e' <;> simp [Expr.beq, Expr.beqL_iff _ _ ih]
  | hmul l ih => cases e' <;> simp [Expr.beq, Expr.beqL_iff _ _ ih]
  | hmax l ih => cases e' <;> simp [Expr.beq, Expr.beqL_iff _ _ ih]
  | hmin l ih => cases e' <;> simp [Expr.beq, Expr.beqL_iff _ _ ih]
  | hpow b e ih1 ih2 => cases e' <;> simp [Expr.beq, ih1, ih2]
  | hfn f l ih => cases e' <;> simp [Expr.beq, Expr.beqL_iff _ _ ih]

instance : DecidableEq Expr := fun a b => decidable_of_iff _ (Expr.beq_iff a b)

mutual
/-- symbolic.cpp:324-329 `subs(expr, old, new)` (`SymEngine::subs` with a one-entry map): every
subexpression equal to `old` is replaced by `new`. -/
def Expr.subs (e old new : Expr) : Expr :=
  match e with
  | .int n => if Expr.int n = old then new else .int n
  | .sym x => if Expr.sym x = old then new else .sym x
  | .inf b => if Expr.inf b = old then new else .inf b
  | .nan => if Expr.nan = old then new else .nan
  | .add l => if Expr.add l = old then new else .add (Expr.subsL l old new)
  | .mul l => if Expr.mul l = old then new else .mul (Expr.subsL l old new)
  | .max l => if Expr.max l = old then new else .max (Expr.subsL l old new)
  | .min l => if Expr.min l = old then new else .min (Expr.subsL l old new)
  | .pow b e => if Expr.pow b e = old then new else .pow (Expr.subs b old new) (Expr.subs e old new)
  | .fn f l => if Expr.fn f l = old then new else .fn f (Expr.subsL l old new)
/-- substitution in an argument list -/
def Expr.subsL (l : List Expr) (old new : Expr) : List Expr :=
  match l with
  | [] => []
  | e :: r => Expr.subs e old new :: Expr.subsL r old new
end

mutual
/-- symbolic.cpp:308 `uses` (`SymEngine::has_symbol`). -/
def Expr.uses (x : String) : Expr → Bool
  | .int _ => false
  | .sym y => y == x
  | .inf _ => false
  | .nan => false
  | .add l => Expr.usesL x l
  | .mul l => Expr.usesL x l
  | .max l => Expr.usesL x l
  | .min l => Expr.usesL x l
  | .pow b e => Expr.uses x b || Expr.uses x e
  | .fn _ l => Expr.usesL x l
/-- some argument uses the symbol -/
def Expr.usesL (x : String) : List Expr → Bool
  | [] => false
  | e :: r => Expr.uses x e || Expr.usesL x r
end

mutual
/-- symbolic.cpp:312-320 `atoms`: the symbols occurring in an expression. -/
def Expr.atoms : Expr → List String
  | .int _ => []
  | .sym y => [y]
  | .inf _ => []
  | .nan => []
  | .add l => Expr.atomsL l
  | .mul l => Expr.atomsL l
  | .max l => Expr.atomsL l
  | .min l => Expr.atomsL l
  | .pow b e => Expr.atoms b ++ Expr.atoms e
  | .fn _ l => Expr.atomsL l
/-- symbols of an argument list -/
def Expr.atomsL : List Expr → List String
  | [] => []
  | e :: r => Expr.atoms e ++ Expr.atomsL r
end

theorem Expr.subsL_eq_map (o n : Expr) (l : List Expr) : Expr.subsL l o n = l.map (fun e => Expr.subs e o n) := by
  induction l with
  | nil => rfl
  | cons e r ih => simp [Expr.subsL, ih]

theorem Expr.mem_atomsL (x : String) (l : List Expr) : x ∈ Expr.atomsL l ↔ ∃ e ∈ l, x ∈ e.atoms := by
  induction l with
  | nil => simp [Expr.atomsL]
  | cons e r ih => simp [Expr.atomsL, ih]

theorem Expr.usesL_iff (x : String) (l : List Expr) : Expr.usesL x l = true ↔ ∃ e ∈ l, e.uses x = true := by
  induction l with
  | nil => simp [Expr.usesL]
  | cons e r ih => simp [Expr.usesL, ih]

theorem applyFn_fn (ρ ρ' : Val) (h : ρ.fn = ρ'.fn) (f : String) (a : List Int) :
    applyFn ρ f a = applyFn ρ' f a := by
  unfold applyFn; rw [h]

end Docc.Sym
