import Verif.Codegen.TaskletLemmas
/-
C expressions over operands of signed (or `_Bool`) type: whenever the result is defined it is the mathematical one.
-/
set_option linter.unusedSimpArgs false
namespace Docc.Codegen
open Docc.C Docc.Types

/-- a value of signed or `_Bool` type, in the range of its type -/
def SV {F : Type} (x : CV F) (n : Int) : Prop :=
  (∃ w, 0 < w ∧ x = .i (.int w true) n ∧ InR w true n) ∨ (x = .i .bool n ∧ (n = 0 ∨ n = 1))

/-- signed promoted types -/
def PTy (t : CTy) (n : Int) : Prop := ∃ W, 32 ≤ W ∧ t = .int W true ∧ InR W true n

theorem inr_mono {w W : Nat} (h : w ≤ W) {n : Int} (hn : InR w true n) : InR W true n := by
  have := pow_mono (show w - 1 ≤ W - 1 by omega)
  simp only [InR, if_true] at hn ⊢
  omega

theorem PTy.of_sv {F : Type} {t : CTy} {n k : Int} (h : SV (F := F) (.i t n) k) : n = k ∧ PTy (promote t) n := by
  rcases h with ⟨w, hw, he, hr⟩ | ⟨he, hr⟩
  · simp only [CV.i.injEq] at he
    obtain ⟨rfl, rfl⟩ := he
    refine ⟨rfl, ?_⟩
    obtain ⟨W, S, h1, h2, h3, h4, h5, h6⟩ := prom_ok hw true
    by_cases h32 : w < 32
    · obtain ⟨rfl, rfl⟩ := h5 h32
      exact ⟨32, by omega, h1, h4 _ hr⟩
    · obtain ⟨rfl, rfl⟩ := h6 (by omega)
      exact ⟨_, by omega, h1, hr⟩
  · simp only [CV.i.injEq] at he
    obtain ⟨rfl, rfl⟩ := he
    refine ⟨rfl, 32, by decide, rfl, ?_⟩
    rcases hr with rfl | rfl <;> (simp only [InR, if_true]; decide)

theorem PTy.conv {t : CTy} {n : Int} (h : PTy t n) : conv t n = n := by
  obtain ⟨W, hW, rfl, hr⟩ := h
  exact conv_in (by omega) hr

theorem PTy.uac {t t' : CTy} {a b : Int} (ha : PTy t a) (hb : PTy t' b) : PTy (uac t t') a ∧ PTy (uac t t') b := by
  obtain ⟨W, hW, rfl, hr⟩ := ha
  obtain ⟨W', hW', rfl, hr'⟩ := hb
  have : C.uac (.int W true) (.int W' true) = .int (max W W') true := by rw [C.uac, if_pos rfl]
  rw [this]
  exact ⟨⟨_, by omega, rfl, inr_mono (by omega) hr⟩, ⟨_, by omega, rfl, inr_mono (by omega) hr'⟩⟩

theorem PTy.sv {F : Type} {t : CTy} {n : Int} (h : PTy t n) : SV (F := F) (.i t n) n := by
  obtain ⟨W, hW, rfl, hr⟩ := h
  exact Or.inl ⟨W, by omega, rfl, hr⟩

theorem PTy.fit {t : CTy} {a n m : Int} (h : PTy t a) (hf : fit t n = some m) : m = n ∧ PTy t n := by
  obtain ⟨W, hW, rfl, hr⟩ := h
  rw [C.fit] at hf
  split at hf
  · rename_i h'
    cases hf
    exact ⟨rfl, W, hW, rfl, by simpa [InR] using h'⟩
  · cases hf

theorem truth_sv {F : Type} (b : Bool) : SV (F := F) (truth b) (if b then 1 else 0) := by
  refine Or.inl ⟨32, by decide, rfl, ?_⟩
  cases b <;> (simp only [InR, if_true, Bool.false_eq_true, if_false]; decide)

/-- the mathematical value of an operator on operands in range -/
def mathOp (o : BOp) (a b n : Int) : Prop :=
  match o with
  | .add => n = a + b
  | .sub => n = a - b
  | .mul => n = a * b
  | .div => b ≠ 0 ∧ n = a.tdiv b
  | .rem => b ≠ 0 ∧ n = a.tmod b
  | .shl => 0 ≤ a ∧ 0 ≤ b ∧ n = a * 2 ^ b.toNat
  | .shr => 0 ≤ b ∧ n = a / 2 ^ b.toNat
  | .lt => n = if a < b then 1 else 0
  | .gt => n = if b < a then 1 else 0
  | .le => n = if a ≤ b then 1 else 0
  | .ge => n = if b ≤ a then 1 else 0
  | .eq => n = if a = b then 1 else 0
  | .ne => n = if a = b then 0 else 1
  | _ => True

/-- the common type of two signed operands, and the operands in it -/
theorem common_sv {F : Type} {t t' : CTy} {a b k k' : Int} (ha : SV (F := F) (.i t a) k) (hb : SV (F := F) (.i t' b) k') :
    PTy (common t t') k ∧ PTy (common t t') k' ∧ conv (common t t') a = k ∧ conv (common t t') b = k' := by
  obtain ⟨rfl, h1⟩ := PTy.of_sv ha
  obtain ⟨rfl, h2⟩ := PTy.of_sv hb
  obtain ⟨h3, h4⟩ := PTy.uac h1 h2
  exact ⟨h3, h4, h3.conv, h4.conv⟩

theorem sv_i {F : Type} {x : CV F} {k : Int} (h : SV x k) : ∃ t, x = .i t k := by
  rcases h with ⟨w, _, he, _⟩ | ⟨he, _⟩
  · exact ⟨_, he⟩
  · exact ⟨_, he⟩

/-- a defined operation on signed operands (not bitwise or logical) has the mathematical value, which is in the range of its type -/
theorem binop_sv (K : Fmt) {o : BOp} (ho : o ≠ .band ∧ o ≠ .bor ∧ o ≠ .bxor ∧ o ≠ .land ∧ o ≠ .lor) {x y z : CV K.F} {a b : Int}
    (hx : SV x a) (hy : SV y b) (h : binop K o x y = some z) : ∃ n, SV z n ∧ mathOp o a b n := by
  obtain ⟨t, rfl⟩ := sv_i hx
  obtain ⟨t', rfl⟩ := sv_i hy
  obtain ⟨h1, h2, h3, h4⟩ := common_sv hx hy
  obtain ⟨-, hp⟩ := PTy.of_sv hx
  obtain ⟨-, hq⟩ := PTy.of_sv hy
  obtain ⟨ho1, ho2, ho3, ho4, ho5⟩ := ho
  cases o <;> simp only [binop, h3, h4, rel, arith, hp.conv, hq.conv] at h
  case band => exact absurd rfl ho1
  case bor => exact absurd rfl ho2
  case bxor => exact absurd rfl ho3
  case land => exact absurd rfl ho4
  case lor => exact absurd rfl ho5
  case shl =>
    obtain ⟨W, hW, he, hr⟩ := hp
    rw [he, shift] at h
    split at h
    · cases h
    · simp only [if_true] at h
      split at h
      · cases h
      · rw [Option.map_eq_some_iff] at h
        obtain ⟨m, hm, rfl⟩ := h
        obtain ⟨rfl, hm'⟩ := PTy.fit ⟨W, hW, rfl, hr⟩ hm
        exact ⟨_, hm'.sv, by omega, by omega, rfl⟩
  case shr =>
    obtain ⟨W, hW, he, hr⟩ := hp
    rw [he, shift] at h
    split at h
    · cases h
    · simp only [Bool.false_eq_true, if_false, Option.map_some, Option.some.injEq] at h
      subst h
      refine ⟨a / 2 ^ b.toNat, Or.inl ⟨W, by omega, rfl, ?_⟩, by omega, rfl⟩
      simp only [InR, if_true] at hr ⊢
      have hk : (0 : Int) < 2 ^ b.toNat := Int.pow_pos (by decide)
      have h0 : (0 : Int) < 2 ^ (W - 1) := Int.pow_pos (by decide)
      refine ⟨?_, ?_⟩
      · rw [Int.le_ediv_iff_mul_le hk]
        have : (2 : Int) ^ (W - 1) * 1 ≤ 2 ^ (W - 1) * 2 ^ b.toNat := Int.mul_le_mul_of_nonneg_left (by omega) (by omega)
        rw [Int.neg_mul]; omega
      · rw [Int.ediv_lt_iff_lt_mul hk]
        have : (2 : Int) ^ (W - 1) * 1 ≤ 2 ^ (W - 1) * 2 ^ b.toNat := Int.mul_le_mul_of_nonneg_left (by omega) (by omega)
        omega
  case div =>
    split at h
    · cases h
    · rw [Option.map_eq_some_iff] at h
      obtain ⟨m, hm, rfl⟩ := h
      obtain ⟨rfl, hm'⟩ := h1.fit hm
      exact ⟨_, hm'.sv, by omega, rfl⟩
  case rem =>
    split at h
    · cases h
    · rw [Option.map_eq_some_iff] at h
      obtain ⟨m, hm, rfl⟩ := h
      rw [Option.bind_eq_some_iff] at hm
      obtain ⟨q, _, hm⟩ := hm
      obtain ⟨rfl, hm'⟩ := h1.fit hm
      exact ⟨_, hm'.sv, by omega, rfl⟩
  case add => 
    rw [Option.map_eq_some_iff] at h
    obtain ⟨m, hm, rfl⟩ := h
    obtain ⟨rfl, hm'⟩ := h1.fit hm
    exact ⟨_, hm'.sv, rfl⟩
  case sub => 
    rw [Option.map_eq_some_iff] at h
    obtain ⟨m, hm, rfl⟩ := h
    obtain ⟨rfl, hm'⟩ := h1.fit hm
    exact ⟨_, hm'.sv, rfl⟩
  case mul => 
    rw [Option.map_eq_some_iff] at h
    obtain ⟨m, hm, rfl⟩ := h
    obtain ⟨rfl, hm'⟩ := h1.fit hm
    exact ⟨_, hm'.sv, rfl⟩
  all_goals
    simp only [Option.some.injEq] at h
    subst h
    refine ⟨_, truth_sv _, ?_⟩
    simp only [mathOp, decide_eq_true_eq, Bool.not_eq_true', decide_eq_false_iff_not, ite_not]

end Docc.Codegen
