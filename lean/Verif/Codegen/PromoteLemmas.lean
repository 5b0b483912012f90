import Verif.Codegen.Signed
import Verif.Codegen.Promote
import Verif.Sym.SimplifyProps
import Verif.Sym.PolyProps
/-
C62: the emitted code of the tasklets SymbolPromotion knows is exact on operands of signed type.
-/
set_option linter.unusedSimpArgs false
namespace Docc.Codegen
open Docc.C Docc.Types Docc.Sym

/-- tasklet.h:161-232 `arity`, of the operations SymbolPromotion knows -/
def Code.arity : Code → Nat
  | .assign | .int_abs | .fp_neg => 1
  | .fp_fma => 3
  | _ => 2

/-- a value of the range of an integer type -/
def InTy (p : Prim) (n : Int) : Prop := if p = .bool then n = 0 ∨ n = 1 else InR p.bitWidth p.isSigned n

/-- integer, not unsigned: Bool or signed -/
def sgnTy (p : Prim) : Bool := p.isInteger && !p.isUnsigned

theorem cty_sgn (l : Lang) (cs : Bool) {p : Prim} (h : sgnTy p = true) :
    (p = .bool ∧ cty l cs p = .bool) ∨ (p ≠ .bool ∧ cty l cs p = .int p.bitWidth true ∧ 0 < p.bitWidth ∧ p.isSigned = true) := by
  cases p <;> simp [sgnTy, Prim.isInteger, Prim.isUnsigned] at h <;> simp [cty, Prim.bitWidth, Prim.isSigned]

theorem conn_sv {F : Type} (l : Lang) (cs : Bool) {p : Prim} {n : Int} (h : sgnTy p = true) (hn : InTy p n) :
    SV (F := F) (.i (cty l cs p) (conv (cty l cs p) n)) n := by
  rcases cty_sgn l cs h with ⟨rfl, h2⟩ | ⟨h1, h2, h3, h4⟩
  · rw [h2]
    simp only [InTy, if_true] at hn
    refine Or.inr ⟨?_, hn⟩
    rcases hn with rfl | rfl <;> rfl
  · rw [h2]
    rw [InTy, if_neg h1, h4] at hn
    rw [conv_in h3 hn]
    exact Or.inl ⟨_, h3, rfl, hn⟩

theorem opd_eval {F : String → List Int → Int} {m : Mem} {e : InE} {a : Int} (hs : e.sub = []) (h : e.get F m = some a) :
    e.opd.sym.eval (m.val F) = .fin a := by
  unfold InE.get at h
  cases ho : e.opd with
  | cst n => rw [ho] at h; simp only [Option.some.injEq] at h; subst h; rfl
  | var x =>
    rw [ho] at h
    simp only [hs, Mem.idx, Option.map_some, Option.some.injEq] at h
    rw [Opd.sym, Expr.eval, ← h]; rfl

theorem sv_true {F : Type} {x : CV F} {n : Int} (h : SV x n) : x.isTrue = some (!decide (n = 0)) := by
  obtain ⟨t, rfl⟩ := sv_i h; rfl

/-- the conversion of a truth value -/
theorem truth_sv' {F : Type} {x : CV F} {b : Bool} (h : SV x (if b then 1 else 0)) : x.isTrue = some b := by
  rw [sv_true h]; cases b <;> rfl

/-- the conditional expression of `int_smin`, `int_smax` on signed operands is exact -/
theorem cond_sv (K : Fmt) {env : Nat → CV K.F} {o : BOp} (ho : o = .lt ∨ o = .gt) {a b : Int} (hx : SV (env 0) a) (hy : SV (env 1) b)
    {z : CV K.F} (h : (CE.cond (.bin o (.v 0) (.v 1)) (.v 0) (.v 1)).eval K env = some z) :
    SV z (match o with | .lt => if a < b then a else b | _ => if b < a then a else b) := by
  have hc : ∃ r : CV K.F, binop K o (env 0) (env 1) = some r ∧ SV r (if (match o with | .lt => decide (a < b) | _ => decide (b < a)) then 1 else 0) := by
    obtain ⟨t, e0⟩ := sv_i hx
    obtain ⟨t', e1⟩ := sv_i hy
    rw [e0] at hx; rw [e1] at hy
    obtain ⟨h1, h2, h3, h4⟩ := common_sv hx hy
    rcases ho with rfl | rfl <;> rw [e0, e1] <;> refine ⟨truth _, by simp only [binop, rel, h3, h4], truth_sv _⟩
  obtain ⟨r, hr, hsv⟩ := hc
  have hb : (CE.bin o (.v 0) (.v 1)).eval K env = binop K o (env 0) (env 1) := by rcases ho with rfl | rfl <;> rfl
  obtain ⟨t, e0⟩ := sv_i hx
  obtain ⟨t', e1⟩ := sv_i hy
  rw [CE.eval, hb, hr] at h
  simp only [Option.bind_some, truth_sv' hsv] at h
  have hx' := hx; have hy' := hy
  rw [e0] at hx'; rw [e1] at hy'
  obtain ⟨h1, h2, h3, h4⟩ := common_sv hx' hy'
  have k1 : ∀ q : Bool, q = true → (if q = true then (CE.v 0).eval K env else (CE.v 1).eval K env) = some (.i t a) := by
    intro q hq; rw [if_pos hq, CE.eval, e0]
  have k2 : ∀ q : Bool, q = false → (if q = true then (CE.v 0).eval K env else (CE.v 1).eval K env) = some (.i t' b) := by
    intro q hq; rw [if_neg (by simp [hq]), CE.eval, e1]
  have hty : common (CE.ty (fun i => (env i).ty) (.v 0)) (CE.ty (fun i => (env i).ty) (.v 1)) = common t t' := by
    simp only [CE.ty, e0, e1, CV.ty]
  rcases ho with rfl | rfl
  · by_cases hab : a < b
    · rw [k1 _ (by simpa using hab)] at h
      simp only [Option.bind_some, Option.some.injEq, hty, h3] at h
      subst h
      simp only [if_pos hab]
      exact h1.sv
    · rw [k2 _ (by simpa using hab)] at h
      simp only [Option.bind_some, Option.some.injEq, hty, h4] at h
      subst h
      simp only [if_neg hab]
      exact h2.sv
  · by_cases hab : b < a
    · rw [k1 _ (by simpa using hab)] at h
      simp only [Option.bind_some, Option.some.injEq, hty, h3] at h
      subst h
      simp only [if_pos hab]
      exact h1.sv
    · rw [k2 _ (by simpa using hab)] at h
      simp only [Option.bind_some, Option.some.injEq, hty, h4] at h
      subst h
      simp only [if_neg hab]
      exact h2.sv

theorem lit_sv {F : Type} {k : Nat} (h : (k : Int) < 2 ^ 31) : SV (F := F) (.i (.int 32 true) k) k :=
  Or.inl ⟨32, by decide, rfl, by simp only [InR, if_true, Nat.reduceSub]; omega⟩

/-- the conditional expression of `int_abs` on a signed operand is exact -/
theorem abs_sv (K : Fmt) {env : Nat → CV K.F} {a : Int} (hx : SV (env 0) a) {z : CV K.F}
    (h : Code.int_abs.ast.eval K env = some z) : SV z a.natAbs := by
  obtain ⟨t, e0⟩ := sv_i hx
  have hx' := hx
  rw [e0] at hx'
  obtain ⟨-, hp⟩ := PTy.of_sv hx'
  have hb : (CE.bin .lt (.v 0) (.lit 0)).eval K env = some (truth (decide (a < 0))) := by
    obtain ⟨h1, h2, h3, h4⟩ := common_sv hx' (lit_sv (F := K.F) (k := 0) (by decide))
    simp only [CE.eval, Option.bind_some, e0, binop, rel, h3, h4]
    rfl
  simp only [Code.ast, CE.eval, Option.bind_some] at h
  simp only [CE.eval, Option.bind_some] at hb
  rw [hb] at h
  simp only [Option.bind_some, truth_true] at h
  have hty : common (CE.ty (fun i => (env i).ty) (.neg (.v 0))) (CE.ty (fun i => (env i).ty) (.v 0)) = common (promote t) t := by
    simp only [CE.ty, e0, CV.ty]
  have hpp : promote (promote t) = promote t := by
    obtain ⟨W, hW, he, _⟩ := hp
    rw [he, promote, if_neg (by omega)]
  have hcm : common (promote t) t = promote t := by
    obtain ⟨W, hW, he, _⟩ := hp
    rw [common, hpp, he, uac, if_pos rfl, Nat.max_self]
  rw [hty, hcm] at h
  by_cases ha : a < 0
  · rw [if_pos (by simpa using ha), e0] at h
    simp only [hp.conv] at h
    rw [Option.bind_eq_some_iff] at h
    obtain ⟨w, hw, h⟩ := h
    rw [Option.map_eq_some_iff] at hw
    obtain ⟨n, hn, rfl⟩ := hw
    obtain ⟨rfl, hn'⟩ := hp.fit hn
    simp only [Option.some.injEq, hn'.conv] at h
    subst h
    have : (a.natAbs : Int) = -a := by omega
    rw [this]; exact hn'.sv
  · rw [if_neg (by simpa using ha), e0] at h
    simp only [Option.bind_some, Option.some.injEq, hp.conv] at h
    subst h
    have : (a.natAbs : Int) = a := by omega
    rw [this]; exact hp.sv

/-- `x ^ -1` and `-1 ^ x` are `-x - 1` -/
theorem xor_sv (K : Fmt) {x y z : CV K.F} {a b : Int} (hx : SV x a) (hy : SV y b) (h : binop K .bxor x y = some z) (hm : a = -1 ∨ b = -1) :
    SV z (if b = -1 then -a - 1 else -b - 1) := by
  obtain ⟨t, rfl⟩ := sv_i hx
  obtain ⟨t', rfl⟩ := sv_i hy
  obtain ⟨h1, h2, h3, h4⟩ := common_sv hx hy
  obtain ⟨W, hW, he, hra⟩ := h1
  obtain ⟨W', hW', he', hrb⟩ := h2
  rw [he] at he'
  cases he'
  simp only [binop, h3, h4, rel, arith] at h
  rw [he] at h
  simp only [bits, Option.map_some, Option.some.injEq] at h
  subst h
  have hk : ∀ k, InR W true k → InR W true (-k - 1) := by
    intro k hk; simp only [InR, if_true] at hk ⊢; omega
  have hnot : ∀ (k : Int), InR W true k → (~~~ (BitVec.ofInt W k)).toInt = -k - 1 := by
    intro k hk'
    have h5 : ~~~ (BitVec.ofInt W k) = BitVec.ofInt W (-k + -1) := by
      rw [BitVec.not_eq_neg_add, BitVec.ofInt_add, BitVec.ofInt_neg, BitVec.ofInt_neg, BitVec.sub_eq_add_neg]
      simp
    have := conv_in (by omega) (hk k hk')
    simp only [conv] at this
    rw [h5, BitVec.toInt_ofInt]
    exact_mod_cast this
  have hall : BitVec.ofInt W (-1) = BitVec.allOnes W := by
    rw [← BitVec.neg_one_eq_allOnes]
    simp [BitVec.ofInt_neg]
  by_cases hb : b = -1
  · subst hb
    rw [if_pos rfl]
    rw [hall, BitVec.xor_allOnes]
    simp only [val, if_true]
    rw [hnot a hra]
    exact Or.inl ⟨W, by omega, rfl, hk a hra⟩
  · rw [if_neg hb]
    obtain rfl : a = -1 := by rcases hm with h | h; exact h; exact absurd h hb
    rw [hall, BitVec.allOnes_xor]
    simp only [val, if_true]
    rw [hnot b hrb]
    exact Or.inl ⟨W, by omega, rfl, hk b hrb⟩

end Docc.Codegen
