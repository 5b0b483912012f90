import Verif.Codegen.SymC
import Verif.Sym.SimplifyProps
/-
Lemmas: operators on signed values are exact when they are defined, and defined when the magnitudes stay below 2^31.
-/
namespace Docc.Codegen
open Docc.C Docc.Sym

/-- signed and boolean types -/
def STy (t : CTy) : Prop := t = .bool ∨ ∃ w, 0 < w ∧ t = .int w true

theorem promote_sty {t : CTy} (h : STy t) : ∃ W, 32 ≤ W ∧ promote t = .int W true := by
  rcases h with rfl | ⟨w, hw, rfl⟩
  · exact ⟨32, by decide, rfl⟩
  · by_cases h : w < 32
    · exact ⟨32, by decide, by rw [promote, if_pos h]⟩
    · exact ⟨w, by omega, by rw [promote, if_neg h]⟩

theorem common_sty {t t' : CTy} (h : STy t) (h' : STy t') : ∃ W, 32 ≤ W ∧ common t t' = .int W true := by
  obtain ⟨W, hW, e⟩ := promote_sty h
  obtain ⟨W', hW', e'⟩ := promote_sty h'
  exact ⟨max W W', by omega, by rw [common, e, e', uac, if_pos rfl]⟩

theorem STy.of {W : Nat} (h : 32 ≤ W) {t : CTy} (e : t = .int W true) : STy t := Or.inr ⟨W, by omega, e⟩

theorem sv_sty {F : Type} {t : CTy} {n m : Int} (h : SV (F := F) (.i t n) m) : STy t ∧ n = m := by
  rcases h with ⟨w, hw, he, _⟩ | ⟨he, _⟩
  · simp only [CV.i.injEq] at he
    exact ⟨Or.inr ⟨w, hw, he.1⟩, he.2⟩
  · simp only [CV.i.injEq] at he
    exact ⟨Or.inl he.1, he.2⟩

theorem small_in {W : Nat} (hW : 32 ≤ W) {n : Int} (h : n.natAbs < 2 ^ 31) : InR W true n := by
  have := pow_mono (show 31 ≤ W - 1 by omega)
  simp only [InR, if_true]
  omega

theorem small_pty {t t' : CTy} {k n : Int} (h : PTy (common t t') k) (hn : n.natAbs < 2 ^ 31) : PTy (common t t') n := by
  obtain ⟨W, hW, he, _⟩ := h
  exact ⟨W, hW, he, small_in hW hn⟩

theorem pty_fit {t : CTy} {n : Int} (h : PTy t n) : fit t n = some n := by
  obtain ⟨W, hW, rfl, hr⟩ := h
  exact fit_in hr

section
variable (K : Fmt) (env : String → CV K.F) (size : String → String → Int)

/-- `x` has the value `m` whenever it is defined, and is defined if `B` is below 2^31 -/
structure Good (x : XE) (m : Int) (B : Nat) : Prop where
  sty : STy (x.ty fun i => (env i).ty)
  val : ∀ v, x.eval K env size = some v → SV v m ∧ v.ty = x.ty fun i => (env i).ty
  defd : B < 2 ^ 31 → ∃ v, x.eval K env size = some v
  bnd : m.natAbs ≤ B
  one : 1 ≤ B

variable {K env size}

theorem Good.mono {x : XE} {m : Int} {B D : Nat} (h : Good K env size x m B) (hd : B ≤ D) : Good K env size x m D :=
  ⟨h.sty, h.val, fun h' => h.defd (by omega), by have := h.bnd; omega, by have := h.one; omega⟩

theorem Good.par {x : XE} {m : Int} {B : Nat} (h : Good K env size x m B) : Good K env size (.par x) m B :=
  ⟨h.sty, h.val, h.defd, h.bnd, h.one⟩

theorem good_lit (n : Nat) : Good K env size (.lit n) n (max 1 n) := by
  refine ⟨?_, ?_, ?_, by omega, by omega⟩
  · rw [XE.ty, litTy]
    split
    · exact Or.inr ⟨32, by decide, rfl⟩
    · exact Or.inr ⟨64, by decide, rfl⟩
  · intro v hv
    rw [XE.eval] at hv
    split at hv
    · cases hv
      refine ⟨?_, rfl⟩
      rw [litTy]
      split
      · refine Or.inl ⟨32, by decide, rfl, ?_⟩
        simp only [InR, if_true]
        constructor <;> (simp only [Nat.reduceSub]; omega)
      · refine Or.inl ⟨64, by decide, rfl, ?_⟩
        simp only [InR, if_true]
        constructor <;> (simp only [Nat.reduceSub]; omega)
    · cases hv
  · intro h
    rw [XE.eval, if_pos (by omega)]
    exact ⟨_, rfl⟩

theorem Good.neg {x : XE} {m : Int} {B : Nat} (h : Good K env size x m B) : Good K env size (.neg x) (-m) B := by
  obtain ⟨W, hW, hp⟩ := promote_sty h.sty
  refine ⟨STy.of hW (by rw [XE.ty]; exact hp), ?_, ?_, by have := h.bnd; omega, h.one⟩
  · intro v hv
    rw [XE.eval, Option.bind_eq_some_iff] at hv
    obtain ⟨u, hu, hv⟩ := hv
    obtain ⟨hs, ht⟩ := h.val u hu
    obtain ⟨t, rfl⟩ := sv_i hs
    have ht : t = _ := ht
    subst ht
    obtain ⟨-, hP⟩ := PTy.of_sv hs
    simp only [hP.conv] at hv
    rw [Option.map_eq_some_iff] at hv
    obtain ⟨n, hn, rfl⟩ := hv
    obtain ⟨rfl, hP'⟩ := hP.fit hn
    exact ⟨hP'.sv, rfl⟩
  · intro hB
    obtain ⟨u, hu⟩ := h.defd hB
    obtain ⟨hs, ht⟩ := h.val u hu
    obtain ⟨t, rfl⟩ := sv_i hs
    obtain ⟨-, hP⟩ := PTy.of_sv hs
    rw [XE.eval, hu]
    simp only [Option.bind_some, hP.conv]
    have : PTy (promote t) (-m) := by
      obtain ⟨W', hW', he, _⟩ := hP
      exact ⟨W', hW', he, small_in hW' (by have := h.bnd; omega)⟩
    rw [pty_fit this]
    exact ⟨_, rfl⟩

/-- the arithmetic operators the printer uses -/
def isAr : BOp → Bool
  | .add | .sub | .mul | .div => true
  | _ => false

theorem ty_ar {o : BOp} (ho : isAr o = true) (a b : XE) (Γ : String → CTy) : (XE.bin o a b).ty Γ = common (a.ty Γ) (b.ty Γ) := by
  cases o <;> simp [isAr] at ho <;> rfl

theorem eval_ar {o : BOp} (h1 : o ≠ .land) (h2 : o ≠ .lor) (a b : XE) :
    (XE.bin o a b).eval K env size = (a.eval K env size).bind fun x => (b.eval K env size).bind fun y => binop K o x y := by
  cases o <;> first | rfl | exact absurd rfl h1 | exact absurd rfl h2

theorem binop_ty {o : BOp} (ho : isAr o = true) {t t' : CTy} {a b : Int} {z : CV K.F} (h : binop K o (.i t a) (.i t' b) = some z) :
    z.ty = common t t' := by
  cases o <;> simp [isAr] at ho <;> simp only [binop, rel] at h <;> (rw [Option.map_eq_some_iff] at h; obtain ⟨n, _, rfl⟩ := h; rfl)

theorem Good.bin {o : BOp} (ho : isAr o = true) {x y : XE} {m n r : Int} {B C D : Nat} (hx : Good K env size x m B)
    (hy : Good K env size y n C) (hr : ∀ q, mathOp o m n q → q = r) (hz : o = .div → n ≠ 0) (hB : B ≤ D) (hC : C ≤ D) (hD : r.natAbs ≤ D) :
    Good K env size (.bin o x y) r D := by
  have hl : o ≠ .land ∧ o ≠ .lor := by cases o <;> simp [isAr] at ho <;> decide
  obtain ⟨W, hW, hc⟩ := common_sty hx.sty hy.sty
  refine ⟨STy.of hW (by rw [ty_ar ho]; exact hc), ?_, ?_, hD, by have := hx.one; omega⟩
  · intro v hv
    rw [eval_ar hl.1 hl.2, Option.bind_eq_some_iff] at hv
    obtain ⟨u, hu, hv⟩ := hv
    rw [Option.bind_eq_some_iff] at hv
    obtain ⟨w, hw, hv⟩ := hv
    obtain ⟨hs, ht⟩ := hx.val u hu
    obtain ⟨hs', ht'⟩ := hy.val w hw
    obtain ⟨q, hq, hm⟩ := binop_sv K (by cases o <;> simp [isAr] at ho <;> decide) hs hs' hv
    refine ⟨hr q hm ▸ hq, ?_⟩
    obtain ⟨t, rfl⟩ := sv_i hs
    obtain ⟨t', rfl⟩ := sv_i hs'
    have ht : t = _ := ht
    have ht' : t' = _ := ht'
    rw [binop_ty ho hv, ty_ar ho, ht, ht']
  · intro hd
    obtain ⟨u, hu⟩ := hx.defd (by omega)
    obtain ⟨w, hw⟩ := hy.defd (by omega)
    obtain ⟨hs, ht⟩ := hx.val u hu
    obtain ⟨hs', ht'⟩ := hy.val w hw
    obtain ⟨t, rfl⟩ := sv_i hs
    obtain ⟨t', rfl⟩ := sv_i hs'
    obtain ⟨h1, h2, h3, h4⟩ := common_sv hs hs'
    rw [eval_ar hl.1 hl.2, hu, hw]
    have hP : PTy (common t t') r := small_pty h1 (by omega)
    cases o <;> simp [isAr] at ho <;> simp only [Option.bind_some, binop, h3, h4, rel, arith]
    case add => rw [hr _ rfl, pty_fit hP]; exact ⟨_, rfl⟩
    case sub => rw [hr _ rfl, pty_fit hP]; exact ⟨_, rfl⟩
    case mul => rw [hr _ rfl, pty_fit hP]; exact ⟨_, rfl⟩
    case div =>
      have hn : n ≠ 0 := hz rfl
      rw [if_neg hn, hr _ ⟨hn, rfl⟩, pty_fit hP]
      exact ⟨_, rfl⟩

/-- comparisons: a truth value whenever defined, and defined if the operands are -/
structure GoodB (x : XE) (b : Bool) (B : Nat) : Prop where
  val : ∀ v, x.eval K env size = some v → v.isTrue = some b ∧ SV v (if b then 1 else 0)
  defd : B < 2 ^ 31 → ∃ v, x.eval K env size = some v

theorem truth_isTrue {F : Type} (b : Bool) : (truth b : CV F).isTrue = some b := by cases b <;> rfl

theorem good_rel {o : BOp} (ho : BOp.isRel o = true) {x y : XE} {m n : Int} {B C D : Nat} (hx : Good K env size x m B)
    (hy : Good K env size y n C) {b : Bool} (hb : rel o m n = some b) (hB : B ≤ D) (hC : C ≤ D) :
    GoodB (K := K) (env := env) (size := size) (.bin o x y) b D := by
  have hl : o ≠ .land ∧ o ≠ .lor := by cases o <;> simp [BOp.isRel] at ho <;> decide
  have key : ∀ u w, SV u m → SV w n → binop K o u w = some (truth b) := by
    intro u w hs hs'
    obtain ⟨t, rfl⟩ := sv_i hs
    obtain ⟨t', rfl⟩ := sv_i hs'
    obtain ⟨h1, h2, h3, h4⟩ := common_sv hs hs'
    cases o <;> simp [BOp.isRel] at ho <;> simp only [binop, h3, h4] <;> simp only [hb]
  constructor
  · intro v hv
    rw [eval_ar hl.1 hl.2, Option.bind_eq_some_iff] at hv
    obtain ⟨u, hu, hv⟩ := hv
    rw [Option.bind_eq_some_iff] at hv
    obtain ⟨w, hw, hv⟩ := hv
    rw [key u w (hx.val u hu).1 (hy.val w hw).1] at hv
    cases hv
    exact ⟨truth_isTrue b, truth_sv b⟩
  · intro hd
    obtain ⟨u, hu⟩ := hx.defd (by omega)
    obtain ⟨w, hw⟩ := hy.defd (by omega)
    rw [eval_ar hl.1 hl.2, hu, hw]
    simp only [Option.bind_some]
    rw [key u w (hx.val u hu).1 (hy.val w hw).1]
    exact ⟨_, rfl⟩

/-- selecting an operand of signed type keeps its value -/
theorem select_sv {t t' : CTy} (h : STy t) (h' : STy t') {u : CV K.F} {m : Int} (hs : SV u m) (ht : u.ty = t ∨ u.ty = t') :
    SV (select (common t t') u) m ∧ (select (common t t') u).ty = common t t' := by
  obtain ⟨s, rfl⟩ := sv_i hs
  refine ⟨?_, rfl⟩
  have hP : PTy (common t t') m := by
    obtain ⟨-, W, hW, he, hr⟩ := PTy.of_sv hs
    obtain ⟨A, hA, ha⟩ := promote_sty h
    obtain ⟨A', hA', ha'⟩ := promote_sty h'
    have hc : common t t' = .int (max A A') true := by rw [common, ha, ha', uac, if_pos rfl]
    rw [hc]
    refine ⟨_, by omega, rfl, ?_⟩
    have ht : s = t ∨ s = t' := ht
    rcases ht with rfl | rfl
    · rw [ha] at he; cases he; exact inr_mono (by omega) hr
    · rw [ha'] at he; cases he; exact inr_mono (by omega) hr
  rw [select, hP.conv]
  exact hP.sv

theorem Good.mac {isMax : Bool} {x y : XE} {m n : Int} {B C : Nat} (hx : Good K env size x m B) (hy : Good K env size y n C) :
    Good K env size (.mac isMax x y) (if isMax then max m n else min m n) (max B C) := by
  obtain ⟨W, hW, hc⟩ := common_sty hx.sty hy.sty
  have key : ∀ u w, SV u m → SV w n → binop K (if isMax then .gt else .lt) u w = some (truth (if isMax then decide (n < m) else decide (m < n))) := by
    intro u w hs hs'
    obtain ⟨t, rfl⟩ := sv_i hs
    obtain ⟨t', rfl⟩ := sv_i hs'
    obtain ⟨h1, h2, h3, h4⟩ := common_sv hs hs'
    cases isMax <;> simp only [Bool.false_eq_true, if_false, if_true, binop, h3, h4, rel]
  have pick : ∀ u w : CV K.F, SV u m → SV w n → SV (if (if isMax then decide (n < m) else decide (m < n)) then u else w) (if isMax then max m n else min m n) := by
    intro u w hs hs'
    cases isMax <;> simp only [Bool.false_eq_true, if_false, if_true]
    · by_cases h : m < n
      · simp only [h, decide_true, if_true]; rw [show min m n = m by omega]; exact hs
      · simp only [h, decide_false, if_false, Bool.false_eq_true]; rw [show min m n = n by omega]; exact hs'
    · by_cases h : n < m
      · simp only [h, decide_true, if_true]; rw [show max m n = m by omega]; exact hs
      · simp only [h, decide_false, if_false, Bool.false_eq_true]; rw [show max m n = n by omega]; exact hs'
  refine ⟨STy.of hW (by rw [XE.ty]; exact hc), ?_, ?_, by have := hx.bnd; have := hy.bnd; split <;> omega, by have := hx.one; omega⟩
  · intro v hv
    rw [XE.eval, Option.bind_eq_some_iff] at hv
    obtain ⟨u, hu, hv⟩ := hv
    rw [Option.bind_eq_some_iff] at hv
    obtain ⟨w, hw, hv⟩ := hv
    obtain ⟨hs, ht⟩ := hx.val u hu
    obtain ⟨hs', ht'⟩ := hy.val w hw
    rw [key u w hs hs'] at hv
    simp only [Option.bind_some, truth_isTrue, Option.map_some, Option.some.injEq] at hv
    subst hv
    exact select_sv hx.sty hy.sty (pick u w hs hs') (by
      cases (if isMax then decide (n < m) else decide (m < n))
      · exact Or.inr ht'
      · exact Or.inl ht)
  · intro hd
    obtain ⟨u, hu⟩ := hx.defd (by omega)
    obtain ⟨w, hw⟩ := hy.defd (by omega)
    rw [XE.eval, hu, hw]
    simp only [Option.bind_some]
    rw [key u w (hx.val u hu).1 (hy.val w hw).1]
    simp only [Option.bind_some, truth_isTrue, Option.map_some]
    exact ⟨_, rfl⟩

theorem Good.abs {x : XE} {m : Int} {B : Nat} (hx : Good K env size x m B) :
    Good K env size (.par (.cond (.bin .lt (.par x) (.lit 0)) (.neg (.par x)) (.par x))) m.natAbs B := by
  have hB := hx.one
  have hc := good_rel (o := .lt) rfl hx.par (good_lit (K := K) (env := env) (size := size) 0) (b := decide (m < 0)) rfl (Nat.le_refl B) (by omega)
  have hn := hx.par.neg
  obtain ⟨W, hW, hcm⟩ := common_sty hn.sty hx.par.sty
  refine Good.par ⟨STy.of hW (by rw [XE.ty]; exact hcm), ?_, ?_, by have := hx.bnd; omega, hB⟩
  · intro v hv
    rw [XE.eval, Option.bind_eq_some_iff] at hv
    obtain ⟨z, hz, hv⟩ := hv
    rw [(hc.val z hz).1, Option.bind_some, Option.map_eq_some_iff] at hv
    obtain ⟨u, hu, rfl⟩ := hv
    by_cases h : m < 0
    · simp only [h, decide_true, if_true] at hu
      obtain ⟨hs, ht⟩ := hn.val u hu
      rw [show ((m.natAbs : Nat) : Int) = -m by omega]
      exact select_sv hn.sty hx.par.sty hs (Or.inl ht)
    · simp only [h, decide_false, Bool.false_eq_true, if_false] at hu
      obtain ⟨hs, ht⟩ := hx.par.val u hu
      rw [show ((m.natAbs : Nat) : Int) = m by omega]
      exact select_sv hn.sty hx.par.sty hs (Or.inr ht)
  · intro hd
    obtain ⟨z, hz⟩ := hc.defd hd
    obtain ⟨u, hu⟩ := hn.defd hd
    obtain ⟨w, hw⟩ := hx.par.defd hd
    rw [XE.eval, hz, Option.bind_some, (hc.val z hz).1, Option.bind_some]
    cases decide (m < 0)
    · simp only [Bool.false_eq_true, if_false]; rw [hw]; exact ⟨_, rfl⟩
    · simp only [if_true]; rw [hu]; exact ⟨_, rfl⟩

theorem Good.zext {x : XE} {m : Int} {B : Nat} (hx : Good K env size x m B) (h0 : 0 ≤ m) (h1 : m < 2 ^ 32) :
    Good K env size (.par (.cast (.int 64 true) (.par (.cast (.int 64 false) (.par x))))) m B := by
  refine Good.par ⟨Or.inr ⟨64, by decide, rfl⟩, ?_, ?_, hx.bnd, hx.one⟩
  · intro v hv
    simp only [XE.eval] at hv
    rw [Option.bind_eq_some_iff] at hv
    obtain ⟨u, hu, hv⟩ := hv
    rw [Option.bind_eq_some_iff] at hu
    obtain ⟨w, hw, hu⟩ := hu
    obtain ⟨t, rfl⟩ := sv_i (hx.val w hw).1
    cases hu
    cases hv
    have e1 : conv (.int 64 false) m = m := conv_in (by decide) (by simp only [InR, Bool.false_eq_true, if_false]; omega)
    have r1 : InR 64 true m := by simp only [InR, if_true, Nat.reduceSub]; omega
    rw [e1, conv_in (by decide) r1]
    exact ⟨Or.inl ⟨64, by decide, rfl, r1⟩, rfl⟩
  · intro hd
    obtain ⟨u, hu⟩ := hx.defd hd
    obtain ⟨t, rfl⟩ := sv_i (hx.val u hu).1
    simp only [XE.eval, hu, Option.bind_some]
    exact ⟨_, rfl⟩

theorem trunc_conv (m : Int) : conv (.int 32 true) (conv (.int 32 false) (conv (.int 64 false) m)) = m.bmod (2 ^ 32) := by
  simp only [conv]
  have e : m % 2 ^ 64 % 2 ^ 32 = m % 2 ^ 32 := by omega
  rw [e, show ((2 ^ 32 : Nat)) = 4294967296 by decide, show (2 : Int) ^ 32 = 4294967296 by decide]
  rw [Int.bmod_def, Int.bmod_def]
  simp only [Nat.cast_ofNat]
  rw [Int.emod_emod_of_dvd _ (Int.dvd_refl _)]

theorem bmod_small (m : Int) : (m.bmod (2 ^ 32)).natAbs ≤ m.natAbs := by
  rw [show ((2 ^ 32 : Nat)) = 4294967296 by decide, Int.bmod_def]
  simp only [Nat.cast_ofNat]
  split <;> omega

theorem bmod_in (m : Int) : InR 32 true (m.bmod (2 ^ 32)) := by
  rw [show ((2 ^ 32 : Nat)) = 4294967296 by decide, Int.bmod_def]
  simp only [Nat.cast_ofNat, InR, if_true, Nat.reduceSub]
  split <;> omega

theorem Good.trunc {x : XE} {m : Int} {B : Nat} (hx : Good K env size x m B) :
    Good K env size (.par (.cast (.int 32 true) (.par (.cast (.int 32 false) (.par (.cast (.int 64 false) (.par x))))))) (m.bmod (2 ^ 32)) B := by
  refine Good.par ⟨Or.inr ⟨32, by decide, rfl⟩, ?_, ?_, by have := hx.bnd; have := bmod_small m; omega, hx.one⟩
  · intro v hv
    simp only [XE.eval] at hv
    rw [Option.bind_eq_some_iff] at hv
    obtain ⟨u, hu, hv⟩ := hv
    rw [Option.bind_eq_some_iff] at hu
    obtain ⟨w, hw, hu⟩ := hu
    rw [Option.bind_eq_some_iff] at hw
    obtain ⟨z, hz, hw⟩ := hw
    obtain ⟨t, rfl⟩ := sv_i (hx.val z hz).1
    cases hw
    cases hu
    cases hv
    rw [trunc_conv]
    exact ⟨Or.inl ⟨32, by decide, rfl, bmod_in m⟩, rfl⟩
  · intro hd
    obtain ⟨u, hu⟩ := hx.defd hd
    obtain ⟨t, rfl⟩ := sv_i (hx.val u hu).1
    simp only [XE.eval, hu, Option.bind_some]
    exact ⟨_, rfl⟩
end
end Docc.Codegen
