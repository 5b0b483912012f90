import Verif.Codegen.TaskletSpec
/-
C61: the operators of C on operands of one integer type are the operations on bit vectors.
-/
set_option linter.unusedSimpArgs false
namespace Docc.Codegen
open Docc.C Docc.Types

theorem ofInt_val {w : Nat} (s : Bool) (b : BitVec w) : BitVec.ofInt w (val s b) = b := by
  cases s <;> simp [val]

theorem conv_val {w : Nat} (s s' : Bool) (b : BitVec w) : conv (.int w s) (val s' b) = val s b := by
  cases s <;> cases s'
  · simp only [conv, val, Bool.false_eq_true, if_false]
    have := b.isLt
    rw [Int.emod_eq_of_lt (by omega) (by exact_mod_cast this)]
  · simp only [conv, val, Bool.false_eq_true, if_false, if_true]
    have h := BitVec.toNat_ofInt (n := w) b.toInt
    rw [BitVec.ofInt_toInt] at h
    rw [h]
    have h0 : (0:Int) < 2 ^ w := Int.pow_pos (by decide)
    have := Int.emod_nonneg b.toInt (b := ((2 ^ w : Nat) : Int)) (by push_cast; omega)
    rw [Int.toNat_of_nonneg this]; simp
  · simp only [conv, val, Bool.false_eq_true, if_false, if_true]
    rw [BitVec.toInt_eq_toNat_bmod]
  · simp only [conv, val, if_true]
    have := BitVec.toInt_ofInt (n := w) b.toInt
    rw [BitVec.ofInt_toInt] at this
    exact this.symm

theorem ofInt_ext {w : Nat} {a b : Int} (h : (2 ^ w : Int) ∣ a - b) : BitVec.ofInt w a = BitVec.ofInt w b := by
  apply BitVec.eq_of_toNat_eq
  rw [BitVec.toNat_ofInt, BitVec.toNat_ofInt]
  congr 1
  push_cast
  exact Int.emod_eq_emod_iff_emod_sub_eq_zero.mpr (Int.emod_eq_zero_of_dvd h)

theorem ofInt_conv {w W : Nat} (h : w ≤ W) (s : Bool) (n : Int) : BitVec.ofInt w (conv (.int W s) n) = BitVec.ofInt w n := by
  apply ofInt_ext
  have hd : (2 ^ w : Int) ∣ 2 ^ W := by
    obtain ⟨k, rfl⟩ := Nat.exists_eq_add_of_le h
    rw [Int.pow_add]; exact Int.dvd_mul_right ..
  refine Int.dvd_trans hd ?_
  cases s
  · have := Int.emod_add_mul_ediv n (2 ^ W)
    exact ⟨-(n / 2 ^ W), by rw [conv, Int.mul_neg]; omega⟩
  · have := Int.bmod_add_bdiv n (2 ^ W)
    refine ⟨-(n.bdiv (2 ^ W)), ?_⟩
    rw [conv, Int.mul_neg]
    push_cast at this
    omega

/-- the range of an integer type -/
def InR (W : Nat) (S : Bool) (n : Int) : Prop := if S then -(2 ^ (W - 1)) ≤ n ∧ n < 2 ^ (W - 1) else 0 ≤ n ∧ n < 2 ^ W

theorem two_pow_pred {W : Nat} (h : 0 < W) : (2 : Int) ^ W = 2 * 2 ^ (W - 1) := by
  obtain ⟨k, rfl⟩ : ∃ k, W = k + 1 := ⟨W - 1, by omega⟩
  rw [Int.pow_succ, Nat.add_sub_cancel]; omega

theorem conv_in {W : Nat} (hW : 0 < W) {S : Bool} {n : Int} (h : InR W S n) : conv (.int W S) n = n := by
  have h2 := two_pow_pred hW
  cases S
  · simp only [InR, Bool.false_eq_true, if_false] at h
    exact Int.emod_eq_of_lt h.1 h.2
  · simp only [InR, if_true] at h
    rw [conv]
    apply Int.bmod_eq_of_le <;> push_cast <;> rw [h2] <;> omega

theorem fit_in {W : Nat} {S : Bool} {n : Int} (h : InR W S n) : fit (.int W S) n = some n := by
  cases S
  · simp only [InR, Bool.false_eq_true, if_false] at h
    rw [fit, Int.emod_eq_of_lt h.1 h.2]
  · simp only [InR, if_true] at h
    rw [fit, if_pos h]

theorem fit_ofInt {w W : Nat} (h : w ≤ W) {S : Bool} {n m : Int} (hf : fit (.int W S) n = some m) : BitVec.ofInt w m = BitVec.ofInt w n := by
  cases S
  · rw [fit] at hf
    cases hf
    exact ofInt_conv h false n
  · rw [fit] at hf
    split at hf
    · cases hf; rfl
    · cases hf

theorem val_in {w : Nat} (s : Bool) (b : BitVec w) : InR w s (val s b) := by
  cases s
  · simp only [InR, val, Bool.false_eq_true, if_false]
    exact ⟨by omega, by exact_mod_cast b.isLt⟩
  · simp only [InR, val, if_true]
    have h1 := BitVec.le_toInt b
    have h2 := BitVec.toInt_lt (x := b)
    exact ⟨h1, h2⟩

theorem pow_mono {a b : Nat} (h : a ≤ b) : (2 : Int) ^ a ≤ 2 ^ b := by
  have := Nat.pow_le_pow_right (n := 2) (by decide) h
  exact_mod_cast this

/-- promotion of an integer type: wider, and it keeps all values -/
theorem prom_ok {w : Nat} (hw : 0 < w) (s : Bool) : ∃ W S, promote (.int w s) = .int W S ∧ w ≤ W ∧ 0 < W ∧
    (∀ n, InR w s n → InR W S n) ∧ (w < 32 → W = 32 ∧ S = true) ∧ (32 ≤ w → W = w ∧ S = s) := by
  by_cases h : w < 32
  · refine ⟨32, true, by rw [promote, if_pos h], by omega, by decide, ?_, fun _ => ⟨rfl, rfl⟩, fun h' => absurd h (by omega)⟩
    intro n hn
    have h31 : (2 : Int) ^ w ≤ 2 ^ 31 := pow_mono (by omega)
    have h30 : (2 : Int) ^ (w - 1) ≤ 2 ^ 31 := pow_mono (by omega)
    cases s <;> simp only [InR, Bool.false_eq_true, if_false, if_true] at hn ⊢ <;> simp only [Nat.reduceSub] <;> omega
  · exact ⟨w, s, by rw [promote, if_neg h], by omega, by omega, fun _ h => h, fun h' => absurd h' h, fun _ => ⟨rfl, rfl⟩⟩

theorem common_self {w : Nat} {s : Bool} {W : Nat} {S : Bool} (h : promote (.int w s) = .int W S) : common (.int w s) (.int w s) = .int W S := by
  rw [common, h, uac, if_pos rfl, Nat.max_self]

/-! ### the operators on operands of one type -/

/-- an operator that is neither relational, logical nor a shift -/
def BOp.isArith : BOp → Bool
  | .add | .sub | .mul | .div | .rem | .band | .bxor | .bor => true
  | _ => false

/-- a relational operator -/
def BOp.isRel : BOp → Bool
  | .lt | .gt | .le | .ge | .eq | .ne => true
  | _ => false

theorem binop_arith (K : Fmt) {o : BOp} (ho : BOp.isArith o = true) {w W : Nat} {s S : Bool} (hP : promote (.int w s) = .int W S)
    (hW : 0 < W) {a b : Int} (ha : InR W S a) (hb : InR W S b) :
    binop K o (.i (.int w s) a) (.i (.int w s) b) = (arith o (.int W S) a b).map (.i (.int W S)) := by
  have hc := common_self hP
  cases o <;> simp [BOp.isArith] at ho <;> simp only [binop, hc, rel, conv_in hW ha, conv_in hW hb]

theorem binop_rel (K : Fmt) {o : BOp} (ho : BOp.isRel o = true) {w W : Nat} {s S : Bool} (hP : promote (.int w s) = .int W S)
    (hW : 0 < W) {a b : Int} (ha : InR W S a) (hb : InR W S b) :
    binop K o (.i (.int w s) a) (.i (.int w s) b) = (rel o a b).map truth := by
  have hc := common_self hP
  cases o <;> simp [BOp.isRel] at ho <;> simp only [binop, hc, rel, conv_in hW ha, conv_in hW hb] <;> rfl

theorem binop_shift (K : Fmt) (left : Bool) {w W : Nat} {s S : Bool} (hP : promote (.int w s) = .int W S)
    (hW : 0 < W) {a b : Int} (ha : InR W S a) (hb : InR W S b) :
    binop K (if left then .shl else .shr) (.i (.int w s) a) (.i (.int w s) b) = (shift left (.int W S) a b).map (.i (.int W S)) := by
  cases left <;> simp only [Bool.false_eq_true, if_false, if_true, binop, hP, conv_in hW ha, conv_in hW hb]

/-! ### arithmetic is arithmetic on bits -/

theorem bits_ofInt {w W : Nat} (h : w ≤ W) (f : {w : Nat} → BitVec w → BitVec w → BitVec w)
    (hf : ∀ (a b : BitVec W), (f a b).setWidth w = f (a.setWidth w) (b.setWidth w)) {S : Bool} {a b n : Int}
    (hn : bits (.int W S) f a b = some n) : BitVec.ofInt w n = f (BitVec.ofInt w a) (BitVec.ofInt w b) := by
  have key : ∀ m : Int, (BitVec.ofInt W m).setWidth w = BitVec.ofInt w m := by
    intro m
    apply BitVec.eq_of_toNat_eq
    rw [BitVec.toNat_setWidth, BitVec.toNat_ofInt, BitVec.toNat_ofInt]
    have hd : ((2 ^ w : Nat) : Int) ∣ ((2 ^ W : Nat) : Int) := by
      obtain ⟨k, rfl⟩ := Nat.exists_eq_add_of_le h
      push_cast; rw [Int.pow_add]; exact Int.dvd_mul_right ..
    have h0 : 0 ≤ m % ((2 ^ W : Nat) : Int) := Int.emod_nonneg _ (by have := Nat.pow_pos (n := W) (show 0 < 2 by decide); omega)
    have h1 : 0 ≤ m % ((2 ^ w : Nat) : Int) := Int.emod_nonneg _ (by have := Nat.pow_pos (n := w) (show 0 < 2 by decide); omega)
    apply Int.ofNat_inj.mp
    rw [Int.natCast_emod, Int.toNat_of_nonneg h0, Int.toNat_of_nonneg h1, Int.emod_emod_of_dvd _ hd]
  rw [bits] at hn
  cases hn
  rw [← key, ofInt_val, hf, key, key]

theorem sdiv_ofInt {w : Nat} (x y : BitVec w) : BitVec.ofInt w (x.toInt.tdiv y.toInt) = x.sdiv y := by
  apply BitVec.eq_of_toInt_eq
  rw [BitVec.toInt_ofInt, BitVec.toInt_sdiv]

theorem srem_ofInt {w : Nat} (x y : BitVec w) : BitVec.ofInt w (x.toInt.tmod y.toInt) = x.srem y := by
  rw [← BitVec.toInt_srem, BitVec.ofInt_toInt]

theorem udiv_ofInt {w : Nat} (x y : BitVec w) : BitVec.ofInt w ((x.toNat : Int).tdiv y.toNat) = x / y := by
  rw [← Int.ofNat_tdiv, BitVec.ofInt_natCast]
  apply BitVec.eq_of_toNat_eq
  rw [BitVec.toNat_ofNat, BitVec.toNat_udiv, Nat.mod_eq_of_lt (Nat.lt_of_le_of_lt (Nat.div_le_self ..) x.isLt)]

theorem urem_ofInt {w : Nat} (x y : BitVec w) : BitVec.ofInt w ((x.toNat : Int).tmod y.toNat) = x % y := by
  rw [← Int.ofNat_tmod, BitVec.ofInt_natCast]
  apply BitVec.eq_of_toNat_eq
  rw [BitVec.toNat_ofNat, BitVec.toNat_umod, Nat.mod_eq_of_lt (Nat.lt_of_le_of_lt (Nat.mod_le ..) x.isLt)]

theorem lshr_ofInt {w : Nat} (x : BitVec w) (k : Nat) : BitVec.ofInt w ((x.toNat : Int) / 2 ^ k) = x >>> k := by
  have : (x.toNat : Int) / 2 ^ k = ((x.toNat / 2 ^ k : Nat) : Int) := by push_cast; rfl
  rw [this, BitVec.ofInt_natCast]
  apply BitVec.eq_of_toNat_eq
  rw [BitVec.toNat_ofNat, BitVec.toNat_ushiftRight, Nat.shiftRight_eq_div_pow,
    Nat.mod_eq_of_lt (Nat.lt_of_le_of_lt (Nat.div_le_self ..) x.isLt)]

theorem ashr_ofInt {w : Nat} (x : BitVec w) (k : Nat) : BitVec.ofInt w (x.toInt / 2 ^ k) = x.sshiftRight k := by
  have h := BitVec.toInt_sshiftRight (x := x) (n := k)
  rw [Int.shiftRight_eq_div_pow] at h
  rw [← BitVec.ofInt_toInt (x := x.sshiftRight k), h]; push_cast; rfl

theorem shl_ofInt {w : Nat} (s : Bool) (x : BitVec w) (k : Nat) : BitVec.ofInt w (val s x * 2 ^ k) = x <<< k := by
  rw [BitVec.ofInt_mul, ofInt_val, BitVec.shiftLeft_eq_mul_twoPow]
  congr 1
  have : (2 : Int) ^ k = ((2 ^ k : Nat) : Int) := by push_cast; rfl
  rw [this, BitVec.ofInt_natCast]
  apply BitVec.eq_of_toNat_eq
  rw [BitVec.toNat_ofNat, BitVec.toNat_twoPow]

theorem val_small {w : Nat} (s : Bool) (y : BitVec w) (h : y.toNat < w) : val s y = y.toNat := by
  cases s
  · rfl
  · have h2 : w - 1 < 2 ^ (w - 1) := Nat.lt_two_pow_self
    have h3 : 2 ^ w = 2 * 2 ^ (w - 1) := by
      obtain ⟨k, rfl⟩ : ∃ k, w = k + 1 := ⟨w - 1, by omega⟩
      rw [Nat.pow_succ, Nat.add_sub_cancel]; omega
    simp only [val, if_true]
    rw [BitVec.toInt_eq_toNat_of_lt (by omega)]

/-- no signed overflow in the emitted expression: the exact condition on the operands -/
def noOverflow {w : Nat} (code : Code) (d : Bool) (x y : BitVec w) : Bool :=
  match code with
  | .int_add => (fit (promote (.int w d)) (val d x + val d y)).isSome
  | .int_sub => (fit (promote (.int w d)) (val d x - val d y)).isSome
  | .int_mul => (fit (promote (.int w d)) (val d x * val d y)).isSome
  | .int_shl => (shift true (promote (.int w d)) (val d x) (val d y)).isSome
  | .int_abs => decide (0 ≤ x.toInt) || (fit (promote (.int w d)) (-x.toInt)).isSome
  | _ => true

/-- the environment of the emitted expression -/
def envI (K : Fmt) {w : Nat} (d : Bool) (x y : BitVec w) (i : Nat) : CV K.F := .i (.int w d) (val d ([x, y].getD i 0))

theorem fit_case {w W : Nat} {S : Bool} (hle : w ≤ W) {F : Type} {m : Int} {r : BitVec w} (hr : BitVec.ofInt w m = r) :
    ∃ t n, BitVec.ofInt w n = r ∧ (fit (.int W S) m).map (CV.i (F := F) (.int W S)) =
      if (fit (.int W S) m).isSome then some (.i t n) else none := by
  cases h : fit (.int W S) m with
  | none => exact ⟨.bool, m, hr, by simp⟩
  | some n => exact ⟨.int W S, n, by rw [fit_ofInt hle h, hr], by simp⟩

theorem truth_true {F : Type} (b : Bool) : (truth b : CV F).isTrue = some b := by cases b <;> rfl

theorem core (K : Fmt) {w : Nat} (hw : 0 < w) (d : Bool) (code : Code) (x y r : BitVec w) (hs : specInt code x y = some r)
    (h1 : code.isSigned = true → d = true) (h2 : code.isUnsigned = true → d = false) :
    ∃ t n, BitVec.ofInt w n = r ∧ code.ast.eval K (envI K d x y) = if noOverflow code d x y then some (.i t n) else none := by
  obtain ⟨W, S, hP, hle, hW, hin, h32, h64⟩ := prom_ok hw d
  have hx := hin _ (val_in d x)
  have hy := hin _ (val_in d y)
  have hc := common_self hP
  have e0 : envI K d x y 0 = .i (.int w d) (val d x) := rfl
  have e1 : envI K d x y 1 = .i (.int w d) (val d y) := rfl
  have hbit : ∀ (f : {w : Nat} → BitVec w → BitVec w → BitVec w),
      (∀ (a b : BitVec W), (f a b).setWidth w = f (a.setWidth w) (b.setWidth w)) →
      ∃ n, BitVec.ofInt w n = f x y ∧ bits (.int W S) f (val d x) (val d y) = some n := by
    intro f hf
    refine ⟨_, ?_, rfl⟩
    rw [bits_ofInt hle f hf (S := S) (a := val d x) (b := val d y) rfl, ofInt_val, ofInt_val]
  have hu : ∀ n : Int, d = false → (∃ z : BitVec w, n = z.toNat) → fit (.int W S) n = some n := by
    rintro n rfl ⟨z, rfl⟩
    exact fit_in (hin _ (val_in false z))
  have hsg : ∀ n : Int, d = true → (∃ z : BitVec w, n = z.toInt) → fit (.int W S) n = some n := by
    rintro n rfl ⟨z, rfl⟩
    exact fit_in (hin _ (val_in true z))
  cases code
  case assign =>
    simp only [specInt, Option.some.injEq] at hs; subst hs
    exact ⟨.int w d, _, ofInt_val d x, by simp only [Code.ast, CE.eval, e0, noOverflow, if_true]⟩
  case int_add =>
    simp only [specInt, Option.some.injEq] at hs; subst hs
    have := fit_case (F := K.F) (S := S) hle (m := val d x + val d y) (r := x + y) (by rw [BitVec.ofInt_add, ofInt_val, ofInt_val])
    simpa only [Code.ast, CE.eval, e0, e1, Option.bind_some, binop_arith K (o := .add) rfl hP hW hx hy, arith, noOverflow, hP] using this
  case int_sub =>
    simp only [specInt, Option.some.injEq] at hs; subst hs
    have := fit_case (F := K.F) (S := S) hle (m := val d x - val d y) (r := x - y)
      (by rw [Int.sub_eq_add_neg, BitVec.ofInt_add, BitVec.ofInt_neg, ofInt_val, ofInt_val, BitVec.sub_eq_add_neg])
    simpa only [Code.ast, CE.eval, e0, e1, Option.bind_some, binop_arith K (o := .sub) rfl hP hW hx hy, arith, noOverflow, hP] using this
  case int_mul =>
    simp only [specInt, Option.some.injEq] at hs; subst hs
    have := fit_case (F := K.F) (S := S) hle (m := val d x * val d y) (r := x * y) (by rw [BitVec.ofInt_mul, ofInt_val, ofInt_val])
    simpa only [Code.ast, CE.eval, e0, e1, Option.bind_some, binop_arith K (o := .mul) rfl hP hW hx hy, arith, noOverflow, hP] using this
  case int_sdiv =>
    simp only [specInt] at hs
    split at hs
    · cases hs
    · rename_i hn
      cases hs
      have hd := h1 rfl
      have hy0 : val d y ≠ 0 := by
        intro h
        apply hn; left
        rw [← ofInt_val d y, h]; rfl
      have e : (x.sdiv y).toInt = x.toInt.tdiv y.toInt := BitVec.toInt_sdiv_of_ne_or_ne _ _ (by
        by_cases h : x = BitVec.intMin w
        · exact .inr fun h' => hn (.inr ⟨h, h'⟩)
        · exact .inl h)
      refine ⟨.int W S, _, sdiv_ofInt x y, ?_⟩
      simp only [Code.ast, CE.eval, e0, e1, Option.bind_some, binop_arith K (o := .div) rfl hP hW hx hy, arith, noOverflow, if_true,
        if_neg hy0]
      subst hd
      simp only [val, if_true]
      rw [hsg _ rfl ⟨x.sdiv y, e.symm⟩]; rfl
  case int_srem =>
    simp only [specInt] at hs
    split at hs
    · cases hs
    · rename_i hn
      cases hs
      have hd := h1 rfl
      have hy0 : val d y ≠ 0 := by
        intro h
        apply hn; left
        rw [← ofInt_val d y, h]; rfl
      have e : (x.sdiv y).toInt = x.toInt.tdiv y.toInt := BitVec.toInt_sdiv_of_ne_or_ne _ _ (by
        by_cases h : x = BitVec.intMin w
        · exact .inr fun h' => hn (.inr ⟨h, h'⟩)
        · exact .inl h)
      refine ⟨.int W S, _, srem_ofInt x y, ?_⟩
      simp only [Code.ast, CE.eval, e0, e1, Option.bind_some, binop_arith K (o := .rem) rfl hP hW hx hy, arith, noOverflow, if_true,
        if_neg hy0]
      subst hd
      simp only [val, if_true]
      rw [hsg _ rfl ⟨x.sdiv y, e.symm⟩, Option.bind_some, hsg _ rfl ⟨x.srem y, (BitVec.toInt_srem x y).symm⟩]; rfl
  case int_udiv =>
    simp only [specInt] at hs
    split at hs
    · cases hs
    · rename_i hn
      cases hs
      have hd := h2 rfl
      have hy0 : val d y ≠ 0 := by
        intro h
        apply hn
        rw [← ofInt_val d y, h]; rfl
      refine ⟨.int W S, _, udiv_ofInt x y, ?_⟩
      simp only [Code.ast, CE.eval, e0, e1, Option.bind_some, binop_arith K (o := .div) rfl hP hW hx hy, arith, noOverflow, if_true,
        if_neg hy0]
      subst hd
      simp only [val, Bool.false_eq_true, if_false]
      rw [hu _ rfl ⟨x / y, by rw [← Int.ofNat_tdiv, BitVec.toNat_udiv]⟩]; rfl
  case int_urem =>
    simp only [specInt] at hs
    split at hs
    · cases hs
    · rename_i hn
      cases hs
      have hd := h2 rfl
      have hy0 : val d y ≠ 0 := by
        intro h
        apply hn
        rw [← ofInt_val d y, h]; rfl
      refine ⟨.int W S, _, urem_ofInt x y, ?_⟩
      simp only [Code.ast, CE.eval, e0, e1, Option.bind_some, binop_arith K (o := .rem) rfl hP hW hx hy, arith, noOverflow, if_true,
        if_neg hy0]
      subst hd
      simp only [val, Bool.false_eq_true, if_false]
      rw [hu _ rfl ⟨x / y, by rw [← Int.ofNat_tdiv, BitVec.toNat_udiv]⟩, Option.bind_some,
        hu _ rfl ⟨x % y, by rw [← Int.ofNat_tmod, BitVec.toNat_umod]⟩]; rfl
  case int_and =>
    simp only [specInt, Option.some.injEq] at hs; subst hs
    obtain ⟨n, hn, hb⟩ := hbit (fun {_} => (· &&& ·)) (fun a b => BitVec.setWidth_and)
    exact ⟨.int W S, n, hn, by
      simp only [Code.ast, CE.eval, e0, e1, Option.bind_some, binop_arith K (o := .band) rfl hP hW hx hy, arith, noOverflow, if_true, hb]; rfl⟩
  case int_or =>
    simp only [specInt, Option.some.injEq] at hs; subst hs
    obtain ⟨n, hn, hb⟩ := hbit (fun {_} => (· ||| ·)) (fun a b => BitVec.setWidth_or)
    exact ⟨.int W S, n, hn, by
      simp only [Code.ast, CE.eval, e0, e1, Option.bind_some, binop_arith K (o := .bor) rfl hP hW hx hy, arith, noOverflow, if_true, hb]; rfl⟩
  case int_xor =>
    simp only [specInt, Option.some.injEq] at hs; subst hs
    obtain ⟨n, hn, hb⟩ := hbit (fun {_} => (· ^^^ ·)) (fun a b => BitVec.setWidth_xor)
    exact ⟨.int W S, n, hn, by
      simp only [Code.ast, CE.eval, e0, e1, Option.bind_some, binop_arith K (o := .bxor) rfl hP hW hx hy, arith, noOverflow, if_true, hb]; rfl⟩
  case int_shl =>
    simp only [specInt] at hs
    split at hs
    · cases hs
    · rename_i hn
      cases hs
      have hk := val_small d y (by omega)
      have hf := shl_ofInt d x y.toNat
      have hlt : ¬ ((y.toNat : Int) < 0 ∨ (W : Int) ≤ y.toNat) := by omega
      have hsh := binop_shift K true hP hW hx hy
      simp only [if_true] at hsh
      have : ∃ t n, BitVec.ofInt w n = x <<< y.toNat ∧ (shift true (.int W S) (val d x) (val d y)).map (CV.i (F := K.F) (.int W S)) =
          if (shift true (.int W S) (val d x) (val d y)).isSome then some (.i t n) else none := by
        simp only [shift, hk, if_neg hlt, if_true, Int.toNat_natCast]
        split
        · split
          · exact ⟨.bool, val d x * 2 ^ y.toNat, hf, by simp⟩
          · exact fit_case hle hf
        · exact fit_case hle hf
      simpa only [Code.ast, CE.eval, e0, e1, Option.bind_some, hsh, noOverflow, hP] using this
  case int_ashr =>
    simp only [specInt] at hs
    split at hs
    · cases hs
    · rename_i hn
      cases hs
      have hk := val_small d y (by omega)
      have hd := h1 rfl
      have hlt : ¬ ((y.toNat : Int) < 0 ∨ (W : Int) ≤ y.toNat) := by omega
      have hsh := binop_shift K false hP hW hx hy
      simp only [Bool.false_eq_true, if_false] at hsh
      refine ⟨.int W S, _, ashr_ofInt x y.toNat, ?_⟩
      simp only [Code.ast, CE.eval, e0, e1, Option.bind_some, hsh, noOverflow, if_true]
      simp only [shift, hk, if_neg hlt, Bool.false_eq_true, if_false, Int.toNat_natCast]
      subst hd; rfl
  case int_lshr =>
    simp only [specInt] at hs
    split at hs
    · cases hs
    · rename_i hn
      cases hs
      have hk := val_small d y (by omega)
      have hd := h2 rfl
      have hlt : ¬ ((y.toNat : Int) < 0 ∨ (W : Int) ≤ y.toNat) := by omega
      have hsh := binop_shift K false hP hW hx hy
      simp only [Bool.false_eq_true, if_false] at hsh
      refine ⟨.int W S, _, lshr_ofInt x y.toNat, ?_⟩
      simp only [Code.ast, CE.eval, e0, e1, Option.bind_some, hsh, noOverflow, if_true]
      simp only [shift, hk, if_neg hlt, Bool.false_eq_true, if_false, Int.toNat_natCast]
      subst hd; rfl
  case int_smin =>
    simp only [specInt, Option.some.injEq] at hs; subst hs
    have hd := h1 rfl
    have hr := binop_rel K (o := .lt) rfl hP hW hx hy
    simp only [rel, Option.map_some] at hr
    refine ⟨.int W S, if decide (val d x < val d y) then val d x else val d y, ?_, ?_⟩
    · subst hd
      simp only [val, if_true] 
      split <;> split <;> rename_i ha hb <;> simp only [decide_eq_true_eq] at ha
      all_goals first
        | (simp; done)
        | (simp only [BitVec.ofInt_toInt, BitVec.ofInt_natCast, BitVec.ofNat_toNat, BitVec.setWidth_eq]; apply BitVec.eq_of_toInt_eq; omega)
        | (exfalso; omega)
    · simp only [Code.ast, CE.eval, e0, e1, Option.bind_some, hr, noOverflow, if_true, truth_true, CE.ty, CV.ty, hc]
      split <;> simp only [Option.bind_some, conv_in hW hx, conv_in hW hy]
  case int_smax =>
    simp only [specInt, Option.some.injEq] at hs; subst hs
    have hd := h1 rfl
    have hr := binop_rel K (o := .gt) rfl hP hW hx hy
    simp only [rel, Option.map_some] at hr
    refine ⟨.int W S, if decide (val d y < val d x) then val d x else val d y, ?_, ?_⟩
    · subst hd
      simp only [val, if_true] 
      split <;> split <;> rename_i ha hb <;> simp only [decide_eq_true_eq] at ha
      all_goals first
        | (simp; done)
        | (simp only [BitVec.ofInt_toInt, BitVec.ofInt_natCast, BitVec.ofNat_toNat, BitVec.setWidth_eq]; apply BitVec.eq_of_toInt_eq; omega)
        | (exfalso; omega)
    · simp only [Code.ast, CE.eval, e0, e1, Option.bind_some, hr, noOverflow, if_true, truth_true, CE.ty, CV.ty, hc]
      split <;> simp only [Option.bind_some, conv_in hW hx, conv_in hW hy]
  case int_umin =>
    simp only [specInt, Option.some.injEq] at hs; subst hs
    have hd := h2 rfl
    have hr := binop_rel K (o := .lt) rfl hP hW hx hy
    simp only [rel, Option.map_some] at hr
    refine ⟨.int W S, if decide (val d x < val d y) then val d x else val d y, ?_, ?_⟩
    · subst hd
      simp only [val, Bool.false_eq_true, if_false] 
      split <;> split <;> rename_i ha hb <;> simp only [decide_eq_true_eq] at ha
      all_goals first
        | (simp; done)
        | (simp only [BitVec.ofInt_toInt, BitVec.ofInt_natCast, BitVec.ofNat_toNat, BitVec.setWidth_eq]; apply BitVec.eq_of_toNat_eq; omega)
        | (exfalso; omega)
    · simp only [Code.ast, CE.eval, e0, e1, Option.bind_some, hr, noOverflow, if_true, truth_true, CE.ty, CV.ty, hc]
      split <;> simp only [Option.bind_some, conv_in hW hx, conv_in hW hy]
  case int_umax =>
    simp only [specInt, Option.some.injEq] at hs; subst hs
    have hd := h2 rfl
    have hr := binop_rel K (o := .gt) rfl hP hW hx hy
    simp only [rel, Option.map_some] at hr
    refine ⟨.int W S, if decide (val d y < val d x) then val d x else val d y, ?_, ?_⟩
    · subst hd
      simp only [val, Bool.false_eq_true, if_false] 
      split <;> split <;> rename_i ha hb <;> simp only [decide_eq_true_eq] at ha
      all_goals first
        | (simp; done)
        | (simp only [BitVec.ofInt_toInt, BitVec.ofInt_natCast, BitVec.ofNat_toNat, BitVec.setWidth_eq]; apply BitVec.eq_of_toNat_eq; omega)
        | (exfalso; omega)
    · simp only [Code.ast, CE.eval, e0, e1, Option.bind_some, hr, noOverflow, if_true, truth_true, CE.ty, CV.ty, hc]
      split <;> simp only [Option.bind_some, conv_in hW hx, conv_in hW hy]
  case int_scmp =>
    simp only [specInt, Option.some.injEq] at hs; subst hs
    have hd := h1 rfl
    have hr := binop_rel K (o := .lt) rfl hP hW hx hy
    have hr2 := binop_rel K (o := .gt) rfl hP hW hx hy
    simp only [rel, Option.map_some] at hr hr2
    refine ⟨.int 32 true, if val d x < val d y then -1 else if val d y < val d x then 1 else 0, ?_, ?_⟩
    · subst hd
      simp only [val, if_true]
      by_cases h : x = y
      · subst h; simp
      · have : x.toInt ≠ y.toInt := fun e => h (BitVec.eq_of_toInt_eq e)
        rw [if_neg h]
        by_cases ha : x.toInt < y.toInt
        · rw [if_pos ha, if_pos ha]; exact BitVec.ofInt_neg
        · rw [if_neg ha, if_neg ha, if_pos (by omega)]; rfl
    · simp only [Code.ast, CE.eval, e0, e1, Option.bind_some, hr, hr2, noOverflow, if_true, truth_true, CE.ty]
      have k1 : promote (.int 32 true) = .int 32 true := rfl
      have k2 : common (.int 32 true) (.int 32 true) = .int 32 true := rfl
      simp only [k1, k2]
      by_cases ha : val d x < val d y
      · simp only [ha, decide_true, if_true]; rfl
      · by_cases hb : val d y < val d x
        · simp only [ha, hb, decide_false, decide_true, Bool.false_eq_true, if_false, if_true]; rfl
        · simp only [ha, hb, decide_false, Bool.false_eq_true, if_false]; rfl
  case int_ucmp =>
    simp only [specInt, Option.some.injEq] at hs; subst hs
    have hd := h2 rfl
    have hr := binop_rel K (o := .lt) rfl hP hW hx hy
    have hr2 := binop_rel K (o := .gt) rfl hP hW hx hy
    simp only [rel, Option.map_some] at hr hr2
    refine ⟨.int 32 true, if val d x < val d y then -1 else if val d y < val d x then 1 else 0, ?_, ?_⟩
    · subst hd
      simp only [val, Bool.false_eq_true, if_false]
      by_cases h : x = y
      · subst h; simp
      · have : x.toNat ≠ y.toNat := fun e => h (BitVec.eq_of_toNat_eq e)
        rw [if_neg h]
        by_cases ha : x.toNat < y.toNat
        · rw [if_pos ha, if_pos (by omega)]; exact BitVec.ofInt_neg
        · rw [if_neg ha, if_neg (by omega), if_pos (by omega)]; rfl
    · simp only [Code.ast, CE.eval, e0, e1, Option.bind_some, hr, hr2, noOverflow, if_true, truth_true, CE.ty]
      have k1 : promote (.int 32 true) = .int 32 true := rfl
      have k2 : common (.int 32 true) (.int 32 true) = .int 32 true := rfl
      simp only [k1, k2]
      by_cases ha : val d x < val d y
      · simp only [ha, decide_true, if_true]; rfl
      · by_cases hb : val d y < val d x
        · simp only [ha, hb, decide_false, decide_true, Bool.false_eq_true, if_false, if_true]; rfl
        · simp only [ha, hb, decide_false, Bool.false_eq_true, if_false]; rfl
  case int_abs =>
    simp only [specInt, Option.some.injEq] at hs; subst hs
    have hd := h1 rfl
    subst hd
    have hS : S = true ∧ 32 ≤ W := by
      by_cases h : w < 32
      · exact ⟨(h32 h).2, by rw [(h32 h).1]; omega⟩
      · exact ⟨(h64 (by omega)).2, by rw [(h64 (by omega)).1]; omega⟩
    obtain ⟨rfl, hW32⟩ := hS
    have hx' : InR W true x.toInt := hx
    have k1 : common (.int w true) (.int 32 true) = .int W true := by
      rw [common, hP, promote, if_neg (by omega), uac, if_pos rfl, Nat.max_eq_left hW32]
    have k2 : promote (.int W true) = .int W true := by rw [promote, if_neg (by omega)]
    have k3 : common (.int W true) (.int w true) = .int W true := by rw [common, hP, k2, uac, if_pos rfl, Nat.max_self]
    have h0 : InR W true (0 : Int) := by
      simp only [InR, if_true]
      have : (0 : Int) < 2 ^ (W - 1) := Int.pow_pos (by decide)
      omega
    have hb : binop K .lt (.i (.int w true) x.toInt) (.i (.int 32 true) ((0 : Nat) : Int)) = some (truth (decide (x.toInt < 0))) := by
      simp only [binop, k1, conv_in hW hx', Int.ofNat_zero, conv_in hW h0, rel]
    have e0' : envI K true x y 0 = .i (.int w true) x.toInt := rfl
    simp only [Code.ast, CE.eval, e0', Option.bind_some, hb, truth_true, CE.ty, CV.ty, hP, k3, conv_in hW hx', noOverflow]
    by_cases hneg : x.toInt < 0
    · have hge : ¬ 0 ≤ x.toInt := by omega
      simp only [hneg, hge, decide_true, decide_false, Bool.false_or, if_true]
      cases hf : fit (.int W true) (-x.toInt) with
      | none => exact ⟨.bool, -x.toInt, by rw [BitVec.ofInt_neg, BitVec.ofInt_toInt], by simp⟩
      | some n =>
          have hn : n = -x.toInt ∧ InR W true n := by
            rw [fit] at hf
            split at hf
            · rename_i hh; cases hf; exact ⟨rfl, hh⟩
            · cases hf
          refine ⟨.int W true, n, by rw [hn.1, BitVec.ofInt_neg, BitVec.ofInt_toInt], ?_⟩
          simp [conv_in hW hn.2]
    · have hge : 0 ≤ x.toInt := by omega
      simp only [hneg, hge, decide_true, decide_false, Bool.true_or, if_true, if_false, Bool.false_eq_true]
      exact ⟨.int W true, x.toInt, BitVec.ofInt_toInt, by simp [conv_in hW hx']⟩
  all_goals simp [specInt] at hs

/-! ### comparisons -/

theorem core_cmp (K : Fmt) {w : Nat} (hw : 0 < w) (d : Bool) (code : Code) (x y : BitVec w) (r : Bool) (hs : specCmp code x y = some r)
    (h1 : code.isSigned = true → d = true) (h2 : code.isUnsigned = true → d = false) :
    code.ast.eval K (envI K d x y) = some (truth r) := by
  obtain ⟨W, S, hP, hle, hW, hin, h32, h64⟩ := prom_ok hw d
  have hx := hin _ (val_in d x)
  have hy := hin _ (val_in d y)
  have e0 : envI K d x y 0 = .i (.int w d) (val d x) := rfl
  have e1 : envI K d x y 1 = .i (.int w d) (val d y) := rfl
  have hinj : val d x = val d y ↔ x = y := by
    constructor
    · intro h; rw [← ofInt_val d x, h, ofInt_val]
    · rintro rfl; rfl
  cases code <;> simp only [specCmp, Option.some.injEq, reduceCtorEq] at hs <;> subst hs <;>
    simp only [Code.ast, CE.eval, e0, e1, Option.bind_some] <;>
    rw [binop_rel K rfl hP hW hx hy] <;> simp only [rel, Option.map_some, hinj] <;>
    first
      | rfl
      | (have hd := h1 rfl; subst hd; rfl)
      | (have hd := h2 rfl; subst hd; simp only [val, Bool.false_eq_true, if_false, Int.ofNat_le, Int.ofNat_lt])

end Docc.Codegen
