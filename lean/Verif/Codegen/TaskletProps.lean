import Verif.Codegen.TaskletLemmas
/-
C61: the code emitted for a tasklet computes its operation.
-/
set_option linter.unusedSimpArgs false
namespace Docc.Codegen
open Docc.C Docc.Types

/-! ### C61: tasklets -/

/-- the integer types other than Bool -/
def intTy (p : Prim) : Bool := p.isInteger && decide (p ≠ .bool)

/-- the signedness of the C type of a container -/
def cSigned (l : Lang) (cs : Bool) (p : Prim) : Bool :=
  p.isSigned || (decide (p = .uint8) && decide (l ≠ .cpp) && cs)

theorem cty_int (l : Lang) (cs : Bool) (p : Prim) (h : intTy p = true) : cty l cs p = .int p.bitWidth (cSigned l cs p) := by
  cases p <;> simp [intTy, Prim.isInteger] at h <;> cases l <;> cases cs <;> rfl

theorem decl_int (code : Code) (p : Prim) (h : intTy p = true) : intTy (declTy code p) = true ∧ (declTy code p).bitWidth = p.bitWidth := by
  cases p <;> simp [intTy, Prim.isInteger] at h <;> rw [declTy] <;> split <;> exact ⟨rfl, rfl⟩

theorem width_pos {p : Prim} (h : intTy p = true) : 0 < p.bitWidth := by
  cases p <;> simp [intTy, Prim.isInteger] at h <;> decide

/-- the operands are read as the operation demands: signed operations are applied to signed types, and unsigned operations not to 8 bit
values where plain `char` is signed -/
def SignOk (l : Lang) (cs : Bool) (code : Code) (p : Prim) : Prop :=
  (code.isSigned = true → p.isSigned = true) ∧ (code.isUnsigned = true → p.bitWidth = 8 → l = .cpp ∨ cs = false)

theorem signOk_decl {l : Lang} {cs : Bool} {code : Code} {p : Prim} (hp : intTy p = true) (h : SignOk l cs code p) :
    (code.isSigned = true → cSigned l cs (declTy code p) = true) ∧ (code.isUnsigned = true → cSigned l cs (declTy code p) = false) := by
  constructor
  · intro h1
    have : code.isUnsigned = false := by cases code <;> simp [Code.isSigned] at h1 <;> rfl
    rw [declTy, this, cSigned, if_neg (by simp), h.1 h1]; rfl
  · intro h2
    have := h.2 h2
    rw [declTy, if_pos h2]
    cases p <;> simp [intTy, Prim.isInteger] at hp <;> simp [Prim.bitWidth] at this <;> simp [Prim.asUnsigned, cSigned, Prim.isSigned] <;>
      (rcases this with rfl | rfl <;> simp)

theorem runInt_eq (K : Fmt) (l : Lang) (cs : Bool) (code : Code) (p q : Prim) (hp : intTy p = true) {w : Nat} (hw : p.bitWidth = w)
    (x y : BitVec w) (w' : Nat) :
    runInt K l cs code p q [x, y] w' = (code.ast.eval K (envI K (cSigned l cs (declTy code p)) x y)).bind fun
      | .i _ n => some (BitVec.ofInt w' (conv (cty l cs q) (conv (cty l cs (declTy code q)) n)))
      | .f _ => none := by
  obtain ⟨h1, h2⟩ := decl_int code p hp
  simp only [runInt]
  rw [cty_int l cs p hp, cty_int l cs _ h1, h2, hw]
  have : (fun i => CV.i (F := K.F) (.int w (cSigned l cs (declTy code p))) (conv (.int w (cSigned l cs (declTy code p)))
      (read (.int w (cSigned l cs p)) ([x, y].getD i 0)))) = envI K (cSigned l cs (declTy code p)) x y := by
    funext i
    rw [envI, read, conv_val]
  rw [this]
  rfl

/-- C61 (part): if the operands are read with the right sign, the emitted block stores exactly the value of the operation, unless the
expression overflows a signed type, in which case the program is undefined.  What is missing: the cases excluded by `SignOk` and
`noOverflow`, in which it fails (`signed_op_violated`, `uint8_violated`, `overflow_violated`). -/
theorem tasklet_int_partial (K : Fmt) (l : Lang) (cs : Bool) (code : Code) (p q : Prim) (hp : intTy p = true) (hq : intTy q = true)
    (w : Nat) (hpw : p.bitWidth = w) (hqw : q.bitWidth = w) (x y r : BitVec w) (hs : specInt code x y = some r)
    (hsign : SignOk l cs code p) :
    runInt K l cs code p q [x, y] w = if noOverflow code (cSigned l cs (declTy code p)) x y then some r else none := by
  obtain ⟨h1, h2⟩ := signOk_decl hp hsign
  obtain ⟨t, n, hn, he⟩ := core K (by rw [← hpw]; exact width_pos hp) (cSigned l cs (declTy code p)) code x y r hs h1 h2
  obtain ⟨h3, h4⟩ := decl_int code q hq
  rw [runInt_eq K l cs code p q hp hpw, he, cty_int l cs q hq, cty_int l cs _ h3, h4, hqw]
  split
  · simp only [Option.bind_some]
    rw [ofInt_conv (Nat.le_refl _), ofInt_conv (Nat.le_refl _), hn]
  · rfl

/-- C61 (part): on the unsigned types of at least 32 bits every operation that is not a signed one is exact, without any condition on
the operands -/
theorem tasklet_unsigned_exact (K : Fmt) (l : Lang) (cs : Bool) (code : Code) (p q : Prim) (hp : p.isUnsigned = true) (h32 : 32 ≤ p.bitWidth)
    (hq : intTy q = true) (w : Nat) (hpw : p.bitWidth = w) (hqw : q.bitWidth = w) (x y r : BitVec w) (hs : specInt code x y = some r)
    (hc : code.isSigned = false) : runInt K l cs code p q [x, y] w = some r := by
  have hpi : intTy p = true := by cases p <;> simp [Prim.isUnsigned] at hp <;> rfl
  have hd : cSigned l cs (declTy code p) = false := by
    cases p <;> simp [Prim.isUnsigned, Prim.bitWidth] at hp h32 <;> rw [declTy] <;> split <;> rfl
  rw [tasklet_int_partial K l cs code p q hpi hq w hpw hqw x y r hs
    ⟨fun h => (by rw [hc] at h; cases h), fun _ h => (by omega)⟩, hd, if_pos]
  have hP : promote (.int w false) = .int w false := by rw [promote, if_neg (by omega)]
  cases code <;> simp only [noOverflow, hP, fit, Option.isSome_some]
  · simp only [specInt] at hs
    split at hs
    · cases hs
    · have hk := val_small false y (by omega)
      simp only [shift, hk, Bool.false_eq_true, if_true, if_false, fit]
      rw [if_neg (by omega)]; rfl
  · cases hc

/-- C61 (part): 8 and 16 bit additions and subtractions never overflow -/
theorem tasklet_small_exact (K : Fmt) (l : Lang) (cs : Bool) (code : Code) (p q : Prim) (hp : intTy p = true) (hq : intTy q = true)
    (w : Nat) (hpw : p.bitWidth = w) (hqw : q.bitWidth = w) (hw : w < 32) (x y r : BitVec w) (hs : specInt code x y = some r)
    (hc : code = .int_add ∨ code = .int_sub) : runInt K l cs code p q [x, y] w = some r := by
  have hso : SignOk l cs code p := by
    rcases hc with rfl | rfl <;> exact ⟨fun h => (by cases h), fun h => (by cases h)⟩
  rw [tasklet_int_partial K l cs code p q hp hq w hpw hqw x y r hs hso, if_pos]
  have h16 : w ≤ 16 := by cases p <;> simp [intTy, Prim.isInteger, Prim.bitWidth] at hp hpw <;> omega
  have h1 : (2 : Int) ^ w ≤ 2 ^ 16 := pow_mono h16
  have h2 : (2 : Int) ^ (w - 1) ≤ 2 ^ 16 := pow_mono (by omega)
  have hb : ∀ (d : Bool) (z : BitVec w), -(2 ^ 16) ≤ val d z ∧ val d z ≤ 2 ^ 16 := by
    intro d z
    have := val_in d z
    cases d <;> simp only [InR, Bool.false_eq_true, if_false, if_true] at this <;> omega
  have hP : ∀ d, promote (.int w d) = .int 32 true := by intro d; rw [promote, if_pos hw]
  have hx := hb (cSigned l cs (declTy code p)) x
  have hy := hb (cSigned l cs (declTy code p)) y
  rcases hc with rfl | rfl <;> simp only [noOverflow, hP, fit] <;> rw [if_pos] <;> first | rfl | (simp only [Nat.reduceSub]; omega)

/-- C61 (part): integer comparisons store 0 or 1 into a destination of any integer type -/
theorem tasklet_cmp_partial (K : Fmt) (l : Lang) (cs : Bool) (code : Code) (p q : Prim) (hp : intTy p = true) (hq : q.isInteger = true)
    (w : Nat) (hpw : p.bitWidth = w) (x y : BitVec w) (r : Bool) (hs : specCmp code x y = some r) (hsign : SignOk l cs code p) :
    runInt K l cs code p q [x, y] q.bitWidth = some (BitVec.ofNat _ r.toNat) := by
  obtain ⟨h1, h2⟩ := signOk_decl hp hsign
  have he := core_cmp K (by rw [← hpw]; exact width_pos hp) (cSigned l cs (declTy code p)) code x y r hs h1 h2
  rw [runInt_eq K l cs code p q hp hpw, he]
  simp only [Option.bind_some, truth]
  congr 1
  by_cases hb : q = .bool
  · subst hb
    have : cty l cs (declTy code .bool) = .bool := by rw [declTy]; split <;> rfl
    rw [this]
    cases r <;> rfl
  · have hq' : intTy q = true := by rw [intTy, hq]; simpa using hb
    obtain ⟨h3, h4⟩ := decl_int code q hq'
    rw [cty_int l cs q hq', cty_int l cs _ h3, h4, ofInt_conv (Nat.le_refl _), ofInt_conv (Nat.le_refl _)]
    cases r
    · rfl
    · exact BitVec.ofInt_natCast (n := 1) ..

/-- C61 (part): bitwise operations and comparisons of Bool containers are the logical ones -/
theorem tasklet_bool_exact (K : Fmt) (l : Lang) (cs : Bool) (x y : BitVec 1) :
    runInt K l cs .int_and .bool .bool [x, y] 1 = some (x &&& y) ∧
    runInt K l cs .int_or .bool .bool [x, y] 1 = some (x ||| y) ∧
    runInt K l cs .int_xor .bool .bool [x, y] 1 = some (x ^^^ y) ∧
    runInt K l cs .int_eq .bool .bool [x, y] 1 = some (BitVec.ofBool (x == y)) ∧
    runInt K l cs .int_ne .bool .bool [x, y] 1 = some (BitVec.ofBool (x != y)) := by
  have h : ∀ z : BitVec 1, z = 0#1 ∨ z = 1#1 := by decide
  rcases h x with rfl | rfl <;> rcases h y with rfl | rfl <;> refine ⟨?_, ?_, ?_, rfl, rfl⟩ <;>
    simp [runInt, Code.ast, CE.eval, binop, common, promote, uac, rel, arith, bits, conv, cty, declTy, Code.isUnsigned, read, val] <;> decide

/-- the value of the bits of a container as its SDFG type says -/
def sdfgVal (p : Prim) {w : Nat} (b : BitVec w) : Int := val p.isSigned b

/-- C61 (part): an assignment between integer types of any widths stores the value of the source, reduced to the width of the
destination: zero extension, sign extension, truncation.  What is missing: UInt8 sources where plain `char` is signed
(`uint8_violated`). -/
theorem tasklet_cast_partial (K : Fmt) (l : Lang) (cs : Bool) (p q : Prim) (hp : intTy p = true) (hq : intTy q = true)
    (h8 : p = .uint8 → l = .cpp ∨ cs = false) (x : BitVec p.bitWidth) :
    runInt K l cs .assign p q [x] q.bitWidth = some (BitVec.ofInt _ (sdfgVal p x)) := by
  have hr : ∀ a b : CTy, (declTy .assign p) = p ∧ declTy .assign q = q := fun _ _ => ⟨rfl, rfl⟩
  have hsg : cSigned l cs p = p.isSigned := by
    rw [cSigned]
    by_cases h : p = .uint8
    · rcases h8 h with rfl | rfl <;> simp
    · simp [h]
  simp only [runInt, Code.ast, CE.eval, Option.bind_some]
  rw [(hr .bool .bool).1, (hr .bool .bool).2, cty_int l cs p hp, cty_int l cs q hq, hsg]
  simp only [List.getD_cons_zero, read]
  rw [conv_val, ofInt_conv (Nat.le_refl _), ofInt_conv (Nat.le_refl _), sdfgVal]

/-- C61 (part): an assignment to a Bool container stores whether the source is not zero -/
theorem tasklet_to_bool (K : Fmt) (l : Lang) (cs : Bool) (p : Prim) (hp : intTy p = true) (x : BitVec p.bitWidth) :
    runInt K l cs .assign p .bool [x] 1 = some (BitVec.ofBool (x != 0)) := by
  simp only [runInt, Code.ast, CE.eval, Option.bind_some]
  have e : declTy .assign p = p := rfl
  have e2 : declTy .assign .bool = .bool := rfl
  rw [e, e2, cty_int l cs p hp]
  simp only [List.getD_cons_zero, read, conv_val, cty]
  by_cases h : x = 0
  · subst h
    have : val (cSigned l cs p) (0 : BitVec p.bitWidth) = 0 := by cases cSigned l cs p <;> simp [val]
    rw [this]; simp [conv]
  · have : val (cSigned l cs p) x ≠ 0 := by
      intro h'
      apply h
      rw [← ofInt_val (cSigned l cs p) x, h']; rfl
    have hb : (x != 0) = true := by simpa using h
    rw [hb]
    simp [conv, this]

/-- C61 (part): floating point arithmetic -/
theorem tasklet_fp_exact (K : Fmt) (code : Code) (a : Nat → K.F) (r : K.F) (hs : specFp K code (a 0) (a 1) (a 2) = some r) :
    runFp K code a = some r := by
  cases code <;> simp [specFp] at hs <;> subst hs <;> rfl

/-- C61 (part): floating point comparisons other than `fp_ord` and `fp_one` store 0 or 1 into a destination of any integer type.  What is
missing: these two, for which it fails (`fp_ord_violated`, `fp_one_violated`). -/
theorem tasklet_fpcmp_partial (K : Fmt) (l : Lang) (cs : Bool) (code : Code) (q : Prim) (hq : q.isInteger = true) (a : Nat → K.F) (r : Bool)
    (hs : specFpCmp K code (a 0) (a 1) = some r) (h1 : code ≠ .fp_ord) (h2 : code ≠ .fp_one ∨ (K.nan (a 0) = false ∧ K.nan (a 1) = false)) :
    runFpCmp K l cs code q a q.bitWidth = some (BitVec.ofNat _ r.toNat) := by
  have he : code.ast.eval K (fun i => .f (a i)) = some (truth r) := by
    cases code <;> simp only [specFpCmp, Option.some.injEq, reduceCtorEq] at hs <;> subst hs <;>
      first
        | exact absurd rfl h1
        | (simp only [Code.ast, CE.eval, Option.bind_some, binop, fbin]; done)
        | (rcases h2 with h2 | ⟨h2, h3⟩
           · exact absurd rfl h2
           · simp only [Code.ast, CE.eval, Option.bind_some, binop, fbin, h2, h3]; rfl)
        | (simp only [Code.ast, CE.eval, Option.bind_some, binop, fbin, truth_true, Option.map_some]
           cases K.nan (a 0) <;> cases K.nan (a 1) <;> simp [truth_true])
  simp only [runFpCmp, he, Option.bind_some, truth]
  congr 1
  by_cases hb : q = .bool
  · subst hb
    have : cty l cs (declTy code .bool) = .bool := by rw [declTy]; split <;> rfl
    rw [this]
    cases r <;> rfl
  · have hq' : intTy q = true := by rw [intTy, hq]; simpa using hb
    obtain ⟨h3, h4⟩ := decl_int code q hq'
    rw [cty_int l cs q hq', cty_int l cs _ h3, h4, ofInt_conv (Nat.le_refl _), ofInt_conv (Nat.le_refl _)]
    cases r
    · rfl
    · exact BitVec.ofInt_natCast (n := 1) ..

/-- C61: the emitted text is the text of the expression that is evaluated, and the precedence of its operators is as needed -/
theorem tasklet_text (code : Code) (isn a b c : String) :
    code.text isn a b c = code.ast.text isn (fun i => [a, b, c].getD i "") ∧ code.ast.wf = true := by
  have h0 : Nat.repr 0 = "0" := by decide
  have h1 : Nat.repr 1 = "1" := by decide
  refine ⟨?_, by cases code <;> decide⟩
  cases code <;> simp [Code.text, Code.ast, CE.text, BOp.text, String.append_assoc, h0, h1] <;>
    (apply String.toList_inj.mp; simp [String.toList_append])

/-! ### where it fails -/

/-- C61 fails: `fp_ord` ("neither operand is NaN") is emitted as `isnan(a) && isnan(b)`: on operands that are not NaN it stores 0 -/
theorem fp_ord_violated (K : Fmt) (l : Lang) (cs : Bool) (a : Nat → K.F) (h0 : K.nan (a 0) = false) (h1 : K.nan (a 1) = false) :
    specFpCmp K .fp_ord (a 0) (a 1) = some true ∧ runFpCmp K l cs .fp_ord .bool a 1 = some 0 := by
  constructor
  · simp [specFpCmp, h0, h1]
  · simp [runFpCmp, Code.ast, CE.eval, h0, CV.isTrue, truth, declTy, Code.isUnsigned, cty, conv]

/-- C61 fails: `fp_one` (ordered and not equal) is emitted as `a != b`, which is true on a NaN -/
theorem fp_one_violated (K : Fmt) (l : Lang) (cs : Bool) (a : Nat → K.F) (h0 : K.nan (a 0) = true) :
    specFpCmp K .fp_one (a 0) (a 1) = some false ∧ runFpCmp K l cs .fp_one .bool a 1 = some 1 := by
  constructor
  · simp [specFpCmp, h0]
  · simp [runFpCmp, Code.ast, CE.eval, binop, fbin, K.eq_nan (a 0) (a 1) (.inl h0), truth, declTy, Code.isUnsigned, cty, conv]

/-- C61 fails: the C and CUDA generators spell UInt8 as `char`; where `char` is signed, widening 200 to UInt32 stores 4294967240, and the
unsigned comparison 200 > 100 and division 200 / 100 are wrong -/
theorem uint8_violated (K : Fmt) (l : Lang) (hl : l ≠ .cpp) :
    runInt K l true .assign .uint8 .uint32 [200#8] 32 = some 4294967240#32 ∧
    (specCmp .int_ugt 200#8 100#8 = some true ∧ runInt K l true .int_ugt .uint8 .bool [200#8, 100#8] 1 = some 0) ∧
    (specInt .int_udiv 200#8 100#8 = some 2#8 ∧ runInt K l true .int_udiv .uint8 .uint8 [200#8, 100#8] 8 = some 0#8) := by
  cases l
  · exact ⟨rfl, ⟨rfl, rfl⟩, by decide, rfl⟩
  · exact absurd rfl hl
  · exact ⟨rfl, ⟨rfl, rfl⟩, by decide, rfl⟩

/-- C61 fails: the operands of a signed operation are not converted to signed types: on UInt32 containers with the bits of -1 and 1 the
signed comparison -1 < 1 stores 0, the signed division -1 / 1 is right but -2 / 2 is not, and the arithmetic shift is a logical one -/
theorem signed_op_violated (K : Fmt) (l : Lang) (cs : Bool) :
    (specCmp .int_slt (-1 : BitVec 32) 1 = some true ∧ runInt K l cs .int_slt .uint32 .bool [(-1 : BitVec 32), 1] 1 = some 0) ∧
    (specInt .int_sdiv (-2 : BitVec 32) 2 = some (-1) ∧ runInt K l cs .int_sdiv .uint32 .uint32 [(-2 : BitVec 32), 2] 32 = some 2147483647#32) ∧
    (specInt .int_ashr (-2 : BitVec 32) 1 = some (-1) ∧ runInt K l cs .int_ashr .uint32 .uint32 [(-2 : BitVec 32), 1] 32 = some 2147483647#32) :=
  ⟨⟨by decide, rfl⟩, ⟨by decide, rfl⟩, by decide, by
    simp [runInt, Code.ast, CE.eval, binop, common, promote, uac, rel, arith, shift, fit, conv, cty, declTy, Code.isUnsigned, read, val]⟩

/-- C61 fails: wrapping operations are emitted as C operators on signed types, so that overflow is undefined: Int32 addition, and, because
of the promotion to int, UInt16 multiplication -/
theorem overflow_violated (K : Fmt) (l : Lang) (cs : Bool) :
    (specInt .int_add 2147483647#32 1#32 = some 2147483648#32 ∧ runInt K l cs .int_add .int32 .int32 [2147483647#32, 1#32] 32 = none) ∧
    (specInt .int_mul 65535#16 65535#16 = some 1#16 ∧ runInt K l cs .int_mul .uint16 .uint16 [65535#16, 65535#16] 16 = none) :=
  ⟨⟨by decide, by simp [runInt, Code.ast, CE.eval, binop, common, promote, uac, rel, arith, shift, fit, conv, cty, declTy, Code.isUnsigned, read, val]⟩, by decide, by
    simp [runInt, Code.ast, CE.eval, binop, common, promote, uac, rel, arith, shift, fit, conv, cty, declTy, Code.isUnsigned, read, val]⟩

/-! ### the hypotheses are met -/

example (K : Fmt) : runInt K .c true .int_sdiv .int32 .int32 [(-7 : BitVec 32), 2] 32 = some (-3) :=
  tasklet_int_partial K .c true .int_sdiv .int32 .int32 rfl rfl 32 rfl rfl (-7) 2 (-3) (by decide) ⟨fun _ => rfl, fun h => by cases h⟩

example (K : Fmt) : runInt K .c true .int_lshr .int16 .int16 [(-2 : BitVec 16), 1] 16 = some 32767#16 :=
  tasklet_int_partial K .c true .int_lshr .int16 .int16 rfl rfl 16 rfl rfl (-2) 1 32767#16 (by decide)
    ⟨fun h => (by cases h), fun _ h => (by cases h)⟩

example (K : Fmt) : runInt K .cpp true .int_ugt .uint8 .bool [200#8, 100#8] 1 = some 1 :=
  tasklet_cmp_partial K .cpp true .int_ugt .uint8 .bool rfl rfl 8 rfl 200#8 100#8 true (by decide) ⟨fun h => (by cases h), fun _ _ => .inl rfl⟩

example (K : Fmt) : runInt K .c true .assign .int8 .uint32 [200#8] 32 = some 4294967240#32 :=
  tasklet_cast_partial K .c true .int8 .uint32 rfl rfl (fun h => by cases h) 200#8

/-- a floating point format with one NaN: the integers and `none` -/
def exFmt : Fmt where
  F := Option Int
  nan a := a.isNone
  eq a b := match a, b with | some a, some b => decide (a = b) | _, _ => false
  lt a b := match a, b with | some a, some b => decide (a < b) | _, _ => false
  le a b := match a, b with | some a, some b => decide (a ≤ b) | _, _ => false
  neg a := a.map (-·)
  add a b := a.bind fun a => b.map (a + ·)
  sub a b := a.bind fun a => b.map (a - ·)
  mul a b := a.bind fun a => b.map (a * ·)
  div a b := a.bind fun a => b.bind fun b => if b = 0 then none else some (a / b)
  rem a b := a.bind fun a => b.bind fun b => if b = 0 then none else some (a % b)
  eq_nan := by rintro (_ | a) (_ | b) h <;> simp at h ⊢
  lt_nan := by rintro (_ | a) (_ | b) h <;> simp at h ⊢
  le_nan := by rintro (_ | a) (_ | b) h <;> simp at h ⊢
  eq_refl := by rintro (_ | a) h <;> simp at h ⊢

example : runFpCmp exFmt .c true .fp_ult .int32 (fun i => if i = 0 then none else some 3) 32 = some 1#32 :=
  tasklet_fpcmp_partial exFmt .c true .fp_ult .int32 rfl _ true rfl (by decide) (.inl (by decide))

example : runFp exFmt .fp_fma (fun i => some (i + 2)) = some (some 10) := tasklet_fp_exact exFmt .fp_fma _ _ rfl

end Docc.Codegen
