import Verif.Codegen.SymCText
import Verif.Codegen.TaskletProps
/-
C65: the property theorems for the C text of symbolic expressions and conditions, and where the claim fails.
-/
namespace Docc.Codegen
open Docc.C Docc.Sym

/-- **C65 (partial)**.  Let `e` be an expression with value `n`, all of whose symbols are held by variables of signed (or `_Bool`) integer type.
If `e` uses no infinities, sizes or unknown functions, zero-extends only values in [0, 2^32) and raises only `int`s to powers, then it is
printed, the text is read as the printed expression, whenever its evaluation in C is defined the result is `n`, and it is defined if the same
expression on absolute values (`bnd`) stays below 2^31.

Missing: unsigned variables, pointers, `sizeof`; the claims fail for them, see below. -/
theorem emitted_expression_partial (K : Fmt) (env : String → CV K.F) (size : String → String → Int) (S : SymKind) (ρ : Val) (e : Expr)
    (hn : Narrow ρ e) (ha : ∀ x ∈ e.atoms, SymOk K env S ρ x) (n : Int) (hv : e.eval ρ = .fin n) :
    ∃ x, emit S e = some x ∧
      (∀ v, x.eval K env size = some v → ∃ t, v = .i t n) ∧
      (bnd ρ e < 2 ^ 31 → ∃ t, x.eval K env size = some (.i t n)) ∧
      (Canon e → x.wf = true) := by
  obtain ⟨x, hx, hg⟩ := oper_good (K := K) (env := env) (size := size) (S := S) (ρ := ρ) (e := e) ⟨hn, ha, n, hv⟩
  have hl : (leafOf ρ).ex e = n := by simp only [leafOf, hv]
  rw [hl] at hg
  refine ⟨x, hx, fun v h => sv_i (hg.val v h).1, fun hb => ?_, fun hc => (emit_shape hc hx).1⟩
  obtain ⟨v, h⟩ := hg.defd hb
  obtain ⟨t, rfl⟩ := sv_i (hg.val v h).1
  exact ⟨t, h⟩

/-- **C65 (partial)**, conditions: the text of a condition is true in C exactly if the condition holds, whenever its evaluation is defined, and
it is defined if all operands stay below 2^31 on absolute values. -/
theorem emitted_condition_partial (K : Fmt) (env : String → CV K.F) (size : String → String → Int) (S : SymKind) (ρ : Val) (c : Cond)
    (hc : CondOk K env S ρ c) :
    ∃ x, emitC S c = some x ∧
      (∀ v, x.eval K env size = some v → v.isTrue = some (c.eval (leafOf ρ))) ∧
      (cbnd ρ c < 2 ^ 31 → ∃ v, x.eval K env size = some v ∧ v.isTrue = some (c.eval (leafOf ρ))) ∧
      (CanonC c → x.wf = true) := by
  obtain ⟨x, hx, hg⟩ := claimC (K := K) (env := env) (size := size) c hc
  refine ⟨x, hx, fun v h => (hg.val v h).1, fun hb => ?_, fun h => (emitC_shape c h x hx).1⟩
  obtain ⟨v, h⟩ := hg.defd hb
  exact ⟨v, h, (hg.val v h).1⟩

/-! ### examples -/

/-- no pointers -/
def exKind : SymKind := ⟨fun _ => false, fun _ => false, fun _ => false, ""⟩

/-- symbol values: `i = -5`, all others 3 -/
def exVal : Val := ⟨fun x => if x = "i" then -5 else 3, fun _ _ => 0⟩

/-- `int` variables with these values -/
def exC : String → CV exFmt.F := fun x => .i (.int 32 true) (exVal.sym x)

/-- `2*(i + n) - min(i, n, 7)**2` -/
def exBig : Expr :=
  .add [.mul [.int 2, .add [.sym "i", .sym "n"]], .mul [.int (-1), .pow (.min [.sym "i", .sym "n", .int 7]) (.int 2)],
    .fn "idiv" [.sym "i", .sym "n"], .pow (.sym "n") (.int 3)]

set_option maxRecDepth 4000 in
example : (emit exKind exBig).map XE.text = some
    "2*(i + n) - ((__daisy_min(i, __daisy_min(n, 7)))*(__daisy_min(i, __daisy_min(n, 7)))) + ((i) / (n)) + __daisy_sym_pow(n, 3)" := by
  decide

theorem exSymOk (x : String) : SymOk exFmt exC exKind exVal x := by
  refine ⟨rfl, rfl, rfl, Or.inl ⟨32, by decide, rfl, ?_⟩⟩
  simp only [exVal]
  split <;> (unfold InR; decide)

theorem exNarrow : Narrow exVal exBig := by
  refine ⟨⟨trivial, ⟨trivial, trivial, trivial⟩, trivial⟩, ⟨trivial, ⟨⟨trivial, trivial, trivial, trivial⟩, trivial, Or.inl rfl⟩, trivial⟩,
    ⟨⟨trivial, trivial, trivial⟩, Or.inl rfl⟩, ⟨trivial, trivial, Or.inr ⟨?_, ?_⟩⟩, trivial⟩
  · intro n hn; cases hn; decide
  · intro n hn; cases hn; decide

example : ∃ x, emit exKind exBig = some x ∧ (∃ t, x.eval exFmt exC (fun _ _ => 0) = some (.i t (-3))) ∧ x.wf = true := by
  obtain ⟨x, h1, _, h2, h3⟩ := emitted_expression_partial exFmt exC (fun _ _ => 0) exKind exVal exBig exNarrow (fun x _ => exSymOk x) (-3) (by decide)
  refine ⟨x, h1, h2 (by decide), h3 ?_⟩
  simp [Canon, CanonL, exBig]

/-- `(i <= n && !(i == 3)) || false` -/
def exCond : Cond := .or [.and [.le (.sym "i") (.sym "n"), .not (.eq (.sym "i") (.int 3))], .lt exBig (.int 0)]

example : (emitC exKind (.or [.and [.le (.sym "i") (.sym "n"), .not (.eq (.sym "i") (.int 3))], .ff])).map XE.text =
    some "((i <= n && (!(i == 3))) || false)" := by decide

example : ∃ x v, emitC exKind exCond = some x ∧ x.eval exFmt exC (fun _ _ => 0) = some v ∧ v.isTrue = some true := by
  have ok : ∀ e n, Narrow exVal e → e.eval exVal = .fin n → OperOk exFmt exC exKind exVal e := fun e n h hn =>
    ⟨h, fun x _ => exSymOk x, n, hn⟩
  obtain ⟨x, h1, _, h2, _⟩ := emitted_condition_partial exFmt exC (fun _ _ => 0) exKind exVal exCond
    ⟨by simp, ⟨by simp, ⟨ok _ (-5) trivial rfl, ok _ 3 trivial rfl⟩, ⟨ok _ (-5) trivial rfl, ok _ 3 trivial rfl⟩, trivial⟩,
      ⟨ok _ (-3) exNarrow (by decide), ok _ 0 trivial rfl⟩, trivial⟩
  obtain ⟨v, hv, ht⟩ := h2 (by decide)
  exact ⟨x, v, h1, hv, ht⟩

/-! ### where the claim fails -/

/-- the text of `e`, evaluated with these variables -/
def runX (env : String → CV exFmt.F) (e : Expr) : Option (CV exFmt.F) := (emit exKind e).bind (·.eval exFmt env fun _ _ => 8)

/-- the same for conditions -/
def runC (env : String → CV exFmt.F) (c : Cond) : Option Bool :=
  (emitC exKind c).bind fun x => (x.eval exFmt env fun _ _ => 8).bind (·.isTrue)

/-- a value -/
def valOf {F : Type} : CV F → Option Int
  | .i _ n => some n
  | .f _ => none

/-- an `int32` variable `i` and a `uint64` variable `n`: `i < n` is compared as unsigned numbers, so it is false for `i = -1`, `n = 1` -/
theorem unsigned_comparison_wrong :
    runC (fun x => if x = "i" then .i (.int 32 true) (-1) else .i (.int 64 false) 1) (.lt (.sym "i") (.sym "n")) = some false ∧
    (Cond.lt (.sym "i") (.sym "n")).eval (leafOf ⟨fun x => if x = "i" then -1 else 1, fun _ _ => 0⟩) = true := by decide

/-- also the value of a sum with an unsigned variable is not the value of the symbolic sum: `-1*n + i` -/
theorem unsigned_sum_wrong :
    (runX (fun x => if x = "i" then .i (.int 32 true) 0 else .i (.int 32 false) 1) (.add [.mul [.int (-1), .sym "n"], .sym "i"])).bind valOf
      = some 4294967295 ∧
    (Expr.add [.mul [.int (-1), .sym "n"], .sym "i"]).eval ⟨fun x => if x = "i" then 0 else 1, fun _ _ => 0⟩ = .fin (-1) := by decide

/-- products of `int32` symbols are computed in `int`: `i*j` is undefined for 65536 · 65536, although the value fits into the 64 bits the
expression is used with -/
theorem product_overflow :
    runX (fun _ => .i (.int 32 true) 65536) (.mul [.sym "i", .sym "j"]) = none ∧
    (Expr.mul [.sym "i", .sym "j"]).eval ⟨fun _ => 65536, fun _ _ => 0⟩ = .fin 4294967296 := by decide

/-- `zext_i64` of a negative `int32`: the conversion to `unsigned long long` sign-extends, the result is -1 and not 2^32 - 1 -/
theorem zext_sign_extends :
    (runX (fun _ => .i (.int 32 true) (-1)) (.fn "zext_i64" [.sym "i"])).bind valOf = some (-1) ∧
    (Expr.fn "zext_i64" [.sym "i"]).eval ⟨fun _ => -1, fun _ _ => 0⟩ = .fin 4294967295 := by decide

/-- `__daisy_sym_pow` squares the base once more than needed: 2^16 is undefined although the value is 65536 -/
theorem pow_squares_too_often :
    runX (fun _ => .i (.int 32 true) 2) (.pow (.sym "i") (.int 16)) = none ∧
    (Expr.pow (.sym "i") (.int 16)).eval ⟨fun _ => 2, fun _ _ => 0⟩ = .fin 65536 := by decide

/-- powers are computed in `int`, also those of 64-bit symbols: 2000^3 is undefined, and the cube of 2^32 + 1 is 1 -/
theorem pow_in_int :
    runX (fun _ => .i (.int 64 true) 2000) (.pow (.sym "i") (.int 3)) = none ∧
    (runX (fun _ => .i (.int 64 true) 4294967297) (.pow (.sym "i") (.int 3))).bind valOf = some 1 ∧
    (Expr.pow (.sym "i") (.int 3)).eval ⟨fun _ => 4294967297, fun _ _ => 0⟩ ≠ .fin 1 := by decide

/-- `dynamic_sizeof` cannot be printed -/
theorem dynamic_sizeof_unsupported (l : List Expr) (S : SymKind) : emit S (.fn "dynamic_sizeof" l) = none := by
  rw [emit, term]
  cases termL S l with
  | none => rfl
  | some ts => rfl

/-- the sum of a negative symbol and a size is computed unsigned: `i < sizeof(T)` is false for `i = -1` -/
theorem sizeof_comparison_wrong :
    runC (fun _ => .i (.int 64 true) (-1)) (.lt (.sym "i") (.fn "sizeof" [.sym "T"])) = some false ∧
    (Cond.lt (.sym "i") (.fn "sizeof" [.sym "T"])).eval (leafOf ⟨fun _ => -1, fun _ _ => 8⟩) = true := by decide

end Docc.Codegen
