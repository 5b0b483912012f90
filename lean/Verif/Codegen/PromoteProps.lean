import Verif.Codegen.PromoteLemmas
import Verif.Codegen.TaskletProps
/-
C62: promoting a tasklet to a symbolic assignment preserves the effect of the block.
-/
set_option linter.unusedSimpArgs false
namespace Docc.Codegen
open Docc.C Docc.Types Docc.Sym

/-- the block is valid and its operands hold values of their types: as many operands as the operation takes (Tasklet::validate,
tasklet.cpp:20-59), the operands in the range of their types, integer types throughout -/
structure WellTyped (F : String → List Int → Int) (b : PBlk) (m : Mem) : Prop where
  arity : b.ins.length = b.code.arity
  vals : ∀ e ∈ b.ins, ∀ n, e.get F m = some n → InTy e.own.prim n
  csts : ∀ e ∈ b.ins, e.opd.isCst = true → e.own.prim = e.base.prim
  ints : b.out.own.prim.isInteger = true ∧ ∀ e ∈ b.ins, e.own.prim.isInteger = true

/-- the shift count of an arithmetic right shift divides the value, or the value is not negative -/
def ShiftOk (F : String → List Int → Int) (b : PBlk) (m : Mem) : Prop :=
  b.code = .int_ashr → ∀ i j, b.ins = [i, j] → ∀ a k, i.get F m = some a → j.get F m = some k → 0 ≤ a ∨ (2 ^ k.toNat : Int) ∣ a

theorem tdiv_shift {a k : Int} (h : 0 ≤ a ∨ (2 ^ k.toNat : Int) ∣ a) : a.tdiv (2 ^ k.toNat) = a / 2 ^ k.toNat := by
  rcases h with h | h
  · exact Int.tdiv_eq_ediv_of_nonneg h
  · exact Int.tdiv_eq_ediv_of_dvd h

theorem spow2_eval {ρ : Val} {e : Expr} {k : Int} (he : e = .int k) (hk : 0 ≤ k) : (spow2 e).eval ρ = .fin (2 ^ k.toNat) := by
  subst he
  obtain ⟨n, rfl⟩ := Int.eq_ofNat_of_zero_le hk
  simp [spow2, Expr.eval]

/-- bitwise operators on 0 and 1 -/
theorem bits_sv (K : Fmt) {o : BOp} (ho : o = .band ∨ o = .bor ∨ o = .bxor) {x y z : CV K.F} {a b : Int} (hx : SV x a) (hy : SV y b)
    (h : binop K o x y = some z) (ha : a = 0 ∨ a = 1) (hb : b = 0 ∨ b = 1) :
    SV z (match o with
      | .band => if a = 1 ∧ b = 1 then 1 else 0
      | .bor => if a = 1 ∨ b = 1 then 1 else 0
      | _ => if a = b then 0 else 1) := by
  obtain ⟨t, rfl⟩ := sv_i hx
  obtain ⟨t', rfl⟩ := sv_i hy
  obtain ⟨h1, h2, h3, h4⟩ := common_sv hx hy
  obtain ⟨W, hW, he, hra⟩ := h1
  have e0 : BitVec.ofInt W 0 = 0#W := by simp
  have e1 : BitVec.ofInt W 1 = 1#W := by simp
  have v0 : (0#W).toInt = 0 := by simp
  have v1 : (1#W).toInt = 1 := BitVec.toInt_one (by omega)
  have s0 : SV (F := K.F) (.i (.int W true) 0) 0 := Or.inl ⟨W, by omega, rfl, by
    have : (0:Int) < 2 ^ (W - 1) := Int.pow_pos (by decide)
    simp only [InR, if_true]; omega⟩
  have s1 : SV (F := K.F) (.i (.int W true) 1) 1 := Or.inl ⟨W, by omega, rfl, by
    have : (2:Int) ^ 1 ≤ 2 ^ (W - 1) := pow_mono (by omega)
    simp only [InR, if_true]; omega⟩
  rcases ho with rfl | rfl | rfl <;> simp only [binop, h3, h4, rel, arith] at h <;> rw [he] at h <;>
    simp only [bits, Option.map_some, Option.some.injEq] at h <;> subst h <;>
    rcases ha with rfl | rfl <;> rcases hb with rfl | rfl <;>
    simp only [e0, e1, BitVec.and_self, BitVec.or_self, BitVec.xor_self, BitVec.zero_and, BitVec.and_zero, BitVec.zero_or, BitVec.or_zero,
      BitVec.zero_xor, BitVec.xor_zero, val, if_true, v0, v1, if_false, and_self, or_self, and_false, false_and, or_true, true_or,
      Int.zero_ne_one, Int.one_ne_zero, Int.reduceEq, and_true, or_false, false_or, reduceIte] <;>
    first | exact s0 | exact s1

/-- two operands of signed types -/
theorem two_value (K : Fmt) (F : String → List Int → Int) (b : PBlk) (m : Mem) (i j : InE) (hin : b.ins = [i, j]) (hi : i.sub = []) (hj : j.sub = [])
    (hk : b.known = true) (a c : Int) (ha : i.get F m = some a) (hc : j.get F m = some c) (env : Nat → CV K.F) (h0 : SV (env 0) a) (h1 : SV (env 1) c)
    (hsh : ShiftOk F b m) (ht : CTy) (n : Int) (hev : b.code.ast.eval K env = some (.i ht n)) (r : Rhs) (hr : b.rhs = some r)
    (hbool : b.allBool = true → (a = 0 ∨ a = 1) ∧ (c = 0 ∨ c = 1)) (hco : b.code.arity = 2) : r.value F m = some n := by
  have ea := opd_eval hi ha
  have ec := opd_eval hj hc
  have hone : ∀ {z : CV K.F} {k : Int}, SV z k → z = .i ht n → k = n := by
    intro z k hz he
    obtain ⟨t, rfl⟩ := sv_i hz
    simp only [CV.i.injEq] at he
    exact he.2
  have hbin : ∀ (o : BOp), (o ≠ .band ∧ o ≠ .bor ∧ o ≠ .bxor ∧ o ≠ .land ∧ o ≠ .lor) → binop K o (env 0) (env 1) = some (.i ht n) → mathOp o a c n := by
    intro o ho hz
    obtain ⟨k, hk1, hk2⟩ := binop_sv K ho h0 h1 hz
    exact (hone hk1 rfl) ▸ hk2
  unfold PBlk.rhs at hr
  rw [hin] at hr
  have hleaf : ∀ (x : InE) (v : Int), x.opd.sym.eval (m.val F) = .fin v →
      (isTrueC x.opd).eval ⟨fun e => (fin? (e.eval (m.val F))).getD 0, fun _ => false⟩ = decide (v = 1) := by
    intro x v hv
    simp only [isTrueC, Cond.eval, hv, fin?, Option.getD_some, Expr.eval]
    rfl
  cases hcode : b.code <;> rw [hcode] at hr hev hco <;> simp only [PBlk.known, hcode, reduceCtorEq, Bool.false_eq_true] at hk <;>
    simp only [Code.arity, reduceCtorEq, Nat.reduceEqDiff] at hco
  case int_add =>
    cases hr
    have := hbin .add (by decide) hev
    simp only [Rhs.value, eval_add2 ea ec, fin?]
    rw [this]
  case int_sub =>
    cases hr
    have := hbin .sub (by decide) hev
    simp only [Rhs.value, eval_ssub ea ec, fin?]
    rw [this]
  case int_mul =>
    cases hr
    have := hbin .mul (by decide) hev
    simp only [Rhs.value, eval_mul2 ea ec, fin?]
    rw [this]
  case int_sdiv =>
    obtain ⟨hc0, hn⟩ := hbin .div (by decide) hev
    simp only at hr
    split at hr
    · rename_i q hq
      cases hr
      simp only [Rhs.value, div_value _ _ _ _ _ _ ea ec hc0 hq, fin?]
      rw [hn]
    · cases hr
  case int_srem =>
    obtain ⟨hc0, hn⟩ := hbin .rem (by decide) hev
    simp only at hr
    split at hr
    · rename_i q hq
      cases hr
      simp only [Rhs.value, mod_value _ _ _ _ _ _ ea ec hc0 hq, fin?]
      rw [hn]
    · cases hr
  case int_smin =>
    cases hr
    have := hone (cond_sv K (Or.inl rfl) h0 h1 hev) rfl
    simp only [Rhs.value, Expr.eval, Expr.evalL, ea, ec, List.foldl, V.min, fin?]
    rw [← this]
    simp only
    split <;> split <;> first | rfl | (congr 1; omega)
  case int_smax =>
    cases hr
    have := hone (cond_sv K (Or.inr rfl) h0 h1 hev) rfl
    simp only [Rhs.value, Expr.eval, Expr.evalL, ea, ec, List.foldl, V.max, fin?]
    rw [← this]
    simp only
    split <;> split <;> first | rfl | (congr 1; omega)
  case int_ashr =>
    obtain ⟨hc0, hn⟩ := hbin .shr (by decide) hev
    rw [hin] at hk
    simp only [List.getElem?_cons_succ, List.getElem?_cons_zero] at hk
    have hjc : j.opd.sym = .int c := by
      cases ho : j.opd with
      | cst v => rw [InE.get, ho] at hc; simp only [Option.some.injEq] at hc; rw [hc]; rfl
      | var x => rw [ho] at hk; simp [Opd.isCst] at hk
    simp only at hr
    split at hr
    · rename_i q hq
      cases hr
      have hp0 : (2 : Int) ^ c.toNat ≠ 0 := Int.ne_of_gt (Int.pow_pos (by decide))
      simp only [Rhs.value, div_value _ _ _ _ _ _ ea (spow2_eval hjc hc0) hp0 hq, fin?]
      rw [hn, tdiv_shift (hsh hcode i j hin a c ha hc)]
    · cases hr
  case int_shl =>
    obtain ⟨_, hc0, hn⟩ := hbin .shl (by decide) hev
    rw [hin] at hk
    simp only [List.getElem?_cons_succ, List.getElem?_cons_zero] at hk
    have hjc : j.opd.sym = .int c := by
      cases ho : j.opd with
      | cst v => rw [InE.get, ho] at hc; simp only [Option.some.injEq] at hc; rw [hc]; rfl
      | var x => rw [ho] at hk; simp [Opd.isCst] at hk
    cases hr
    simp only [Rhs.value, eval_mul2 ea (spow2_eval hjc hc0), fin?]
    rw [hn]
  case int_and =>
    obtain ⟨ba, bc⟩ := hbool hk
    cases hr
    have := hone (bits_sv K (Or.inl rfl) h0 h1 hev ba bc) rfl
    simp only [Rhs.value, Cond.eval, Cond.evalAll, hleaf i a ea, hleaf j c ec]
    rw [← this]
    rcases ba with rfl | rfl <;> rcases bc with rfl | rfl <;> rfl
  case int_or =>
    obtain ⟨ba, bc⟩ := hbool hk
    cases hr
    have := hone (bits_sv K (Or.inr (Or.inl rfl)) h0 h1 hev ba bc) rfl
    simp only [Rhs.value, Cond.eval, Cond.evalAny, hleaf i a ea, hleaf j c ec]
    rw [← this]
    rcases ba with rfl | rfl <;> rcases bc with rfl | rfl <;> rfl
  case int_xor =>
    by_cases hall : b.allBool = true
    · obtain ⟨ba, bc⟩ := hbool hall
      rw [hall] at hr
      cases hr
      have := hone (bits_sv K (Or.inr (Or.inr rfl)) h0 h1 hev ba bc) rfl
      simp only [Rhs.value, Cond.eval, Cond.evalAny, Cond.evalAll, hleaf i a ea, hleaf j c ec]
      rw [← this]
      rcases ba with rfl | rfl <;> rcases bc with rfl | rfl <;> rfl
    · rw [Bool.not_eq_true] at hall
      simp only [hall, Bool.false_eq_true, if_false] at hr
      rw [hall, hin] at hk
      simp only [Bool.false_or, List.any_cons, List.any_nil, Bool.or_false, Bool.or_eq_true, decide_eq_true_eq] at hk
      have hcst : ∀ (e : InE) (v : Int), e.opd = .cst (-1) → e.get F m = some v → v = -1 := by
        intro e v he hv
        rw [InE.get, he] at hv
        simp only [Option.some.injEq] at hv
        omega
      have hm : a = -1 ∨ c = -1 := hk.imp (fun h => hcst i a h ha) (fun h => hcst j c h hc)
      have hn := hone (xor_sv K h0 h1 hev hm) rfl
      have hval : ∀ (e : InE) (v : Int), e.opd.sym.eval (m.val F) = .fin v →
          (Expr.add [.mul [e.opd.sym, .int (-1)], .int (-1)]).eval (m.val F) = .fin (v * -1 + -1) := by
        intro e v hv
        exact eval_add2 (eval_mul2 hv rfl) rfl
      simp only [List.reverse_cons, List.reverse_nil, List.nil_append, List.cons_append, List.find?_cons, List.find?_nil] at hr
      cases hjc : j.opd.isCst <;> simp only [hjc, Bool.not_false, Bool.not_true] at hr
      · cases hr
        have hai : a = -1 := by
          rcases hk with h | h
          · exact hcst i a h ha
          · rw [h] at hjc; cases hjc
        simp only [Rhs.value, hval j c ec, fin?]
        rw [← hn]
        split <;> (congr 1; omega)
      · cases hic : i.opd.isCst <;> simp only [hic, Bool.not_false, Bool.not_true] at hr
        · cases hr
          have hci : c = -1 := by
            rcases hk with h | h
            · rw [h] at hic; cases hic
            · exact hcst j c h hc
          simp only [Rhs.value, hval i a ea, fin?]
          rw [← hn, if_pos hci]
          congr 1; omega
        · cases hr

/-! ### C62 -/

theorem conv_eq_val (w : Nat) (s : Bool) (n : Int) : conv (.int w s) n = val s (BitVec.ofInt w n) := by
  rw [← conv_val s s, ← ofInt_conv (Nat.le_refl w) s n]
  cases s
  · simp only [val, conv, Bool.false_eq_true, if_false, BitVec.toNat_ofInt]
    have h0 : (0:Int) < 2 ^ w := Int.pow_pos (by decide)
    have := Int.emod_nonneg n (b := (2 ^ w : Int)) (by omega)
    have h2 : ((((n % 2 ^ w) % ((2 ^ w : Nat) : Int)).toNat : Nat) : Int) = n % 2 ^ w := by
      push_cast
      rw [Int.emod_emod_of_dvd n (Int.dvd_refl _), Int.toNat_of_nonneg this]
    rw [h2, Int.emod_emod_of_dvd n (Int.dvd_refl _)]
  · simp only [val, conv, if_true, BitVec.toInt_ofInt, Int.bmod_bmod, Nat.cast_pow, Nat.cast_ofNat]

theorem conv_congr {w : Nat} {s : Bool} {a b : Int} (h : BitVec.ofInt w a = BitVec.ofInt w b) : conv (.int w s) a = conv (.int w s) b := by
  rw [conv_eq_val, conv_eq_val, h]

theorem conv_idem (t : CTy) (n : Int) : conv t (conv t n) = conv t n := by
  match t with
  | .bool => simp only [conv]; split <;> simp
  | .int w s => exact conv_congr (ofInt_conv (Nat.le_refl _) s n)
  | .fp => rfl

/-- what is assumed besides the criteria of the pass: scalars accessed without subscripts, no 128 bit types, right shifts as in
`ShiftOk`, no truncation from 64 bits to Bool, the destination of a truncation of an UInt64 at most 32 bits wide, and UInt8 emitted as an
unsigned type -/
structure Limits (l : Lang) (cs : Bool) (F : String → List Int → Int) (b : PBlk) (m : Mem) : Prop where
  scalar : b.out.sub = [] ∧ ∀ e ∈ b.ins, e.sub = []
  no128 : b.out.own.prim.bitWidth ≤ 64 ∧ b.out.base.prim.bitWidth ≤ 64 ∧ ∀ e ∈ b.ins, e.base.prim.bitWidth ≤ 64
  shift : ShiftOk F b m
  toBool : b.code = .assign → b.out.base.prim = .bool → ∀ e ∈ b.ins, e.base.prim.bitWidth ≤ 32
  trunc : b.code = .assign → b.out.base.prim = .uint32 → (∃ e ∈ b.ins, e.base.prim = .uint64) → b.out.own.prim.bitWidth ≤ 32
  char8 : ∀ e ∈ b.ins, e.base.prim = .uint8 → l = .cpp ∨ cs = false

theorem getAll_one {F : String → List Int → Int} {m : Mem} {i : InE} {vs : List Int} (h : getAll F m [i] = some vs) :
    ∃ a, i.get F m = some a ∧ vs = [a] := by
  simp only [getAll, Option.bind_eq_some_iff, Option.map_eq_some_iff] at h
  obtain ⟨a, ha, _, h2, h3⟩ := h
  cases h2
  exact ⟨a, ha, h3.symm⟩

theorem getAll_two {F : String → List Int → Int} {m : Mem} {i j : InE} {vs : List Int} (h : getAll F m [i, j] = some vs) :
    ∃ a c, i.get F m = some a ∧ j.get F m = some c ∧ vs = [a, c] := by
  simp only [getAll, Option.bind_eq_some_iff, Option.map_eq_some_iff] at h
  obtain ⟨a, ha, vs1, ⟨c, hc, _, h2, h3⟩, h4⟩ := h
  cases h2
  exact ⟨a, c, ha, hc, by rw [← h4, ← h3]⟩

theorem inTy_uint {p : Prim} (h : p.isUnsigned = true) {n : Int} (hn : InTy p n) : 0 ≤ n ∧ n < 2 ^ p.bitWidth := by
  cases p <;> simp [Prim.isUnsigned] at h <;> simpa [InTy, InR, Prim.isSigned, Prim.bitWidth] using hn

theorem inr_pos {w : Nat} {s : Bool} {n : Int} (h0 : 0 ≤ n) (h : n < 2 ^ (w - 1)) (hw : 0 < w) : InR w s n := by
  have := two_pow_pred hw
  have : (0:Int) < 2 ^ (w - 1) := Int.pow_pos (by decide)
  cases s <;> simp only [InR, Bool.false_eq_true, if_false, if_true] <;> omega

theorem uns_int {p : Prim} (h : p.isUnsigned = true) : intTy p = true := by
  cases p <;> simp [Prim.isUnsigned] at h <;> rfl

theorem width_pos' {p : Prim} (h : p.isUnsigned = true) : 0 < p.bitWidth := by
  cases p <;> simp [Prim.isUnsigned] at h <;> decide

theorem width_half {p : Prim} (h : p.isInteger = true) {k : Nat} (hk : k ≤ 64) (hlt : p.bitWidth < k) : p.bitWidth ≤ 32 := by
  cases p <;> simp [Prim.isInteger] at h <;> simp only [Prim.bitWidth] at hlt ⊢ <;> omega

theorem bmod_dvd_iff (a : Int) : a.bmod (2 ^ 32) = 0 ↔ a % 2 ^ 32 = 0 := by
  rw [Int.bmod_def]; push_cast; split <;> omega

/-- an assignment -/
theorem assign_value (l : Lang) (cs : Bool) (F : String → List Int → Int) (b : PBlk) (m : Mem) (hcan : b.canApply = true) (hw : WellTyped F b m)
    (hl : Limits l cs F b m) (hc : b.code = .assign) (i : InE) (hin : b.ins = [i]) (a : Int) (ha : i.get F m = some a) (r : Rhs)
    (hr : b.rhs = some r) : ∃ n, r.value F m = some n ∧ conv (cty l cs b.out.own.prim) n =
      conv (cty l cs b.out.own.prim) (conv (cty l cs b.out.base.prim) (conv (cty l cs i.base.prim) a)) := by
  have hi := hl.scalar.2 i (by rw [hin]; simp)
  have ea := opd_eval hi ha
  have hty := hw.vals i (by rw [hin]; simp) a ha
  have h64 := hl.no128.2.2 i (by rw [hin]; simp)
  unfold PBlk.rhs at hr
  rw [hin, hc] at hr
  simp only at hr
  have vz : Rhs.value F m (.e (.fn "zext_i64" [i.opd.sym])) = some (a % 2 ^ 32) := by
    simp [Rhs.value, Expr.eval, Expr.evalL, ea, finArgs, applyFn, fin?]
  have vt : Rhs.value F m (.e (.fn "trunc_i32" [i.opd.sym])) = some (a.bmod (2 ^ 32)) := by
    simp [Rhs.value, Expr.eval, Expr.evalL, ea, finArgs, applyFn, fin?]
  have vx : Rhs.value F m (.e i.opd.sym) = some a := by
    simp [Rhs.value, ea, fin?]
  unfold PBlk.canApply at hcan
  rw [hin, hc] at hcan
  simp only [Bool.and_eq_true, Bool.or_eq_true, decide_eq_true_eq, BEq.rfl, true_and, List.all_cons, List.all_nil, and_true] at hcan
  obtain ⟨-, ((hs | ⟨⟨ht, hi64⟩, ho32⟩) | ⟨⟨hz, hi32⟩, ho64⟩) | ⟨⟨hio, hoo⟩, -⟩⟩ := hcan
  · -- constants
    unfold safeConst at hs
    cases ho : i.opd with
    | var x => rw [ho] at hs; simp at hs
    | cst v =>
      rw [ho] at hs
      simp only [Bool.and_eq_true, decide_eq_true_eq, BEq.rfl, true_and] at hs
      obtain ⟨⟨⟨hs1, hs2⟩, hs3⟩, ⟨⟨⟨⟨⟨⟨⟨hs4, hs5⟩, hs6⟩, hs7⟩, hs8⟩, hs9⟩, hs10⟩, hs11⟩⟩ := hs
      obtain rfl : v = a := by rw [InE.get, ho] at ha; simpa using ha
      have hcst := hw.csts i (by rw [hin]; simp) (by rw [ho]; rfl)
      rw [hcst] at hty
      obtain ⟨hv0, hv1⟩ := inTy_uint hs3 hty
      have hv64 : v < 2 ^ 64 := Int.lt_of_lt_of_le hv1 (pow_mono h64)
      rw [Int.emod_eq_of_lt hv0 hv64] at hs11
      have hwo : 0 < b.out.base.prim.bitWidth := width_pos' hs6
      have hsi : cSigned l cs i.base.prim = false := by
        have := hl.char8 i (by rw [hin]; simp)
        cases hp : i.base.prim <;> rw [hp] at hs3 this <;> simp [Prim.isUnsigned] at hs3 <;> simp [cSigned, Prim.isSigned]
        rcases this rfl with h | h <;> simp [h]
      have hci : conv (cty l cs i.base.prim) v = v := by
        rw [cty_int l cs _ (uns_int hs3), hsi]
        exact Int.emod_eq_of_lt hv0 hv1
      have hco : conv (cty l cs b.out.base.prim) v = v := by
        rw [cty_int l cs _ (uns_int hs6)]
        exact conv_in hwo (inr_pos hv0 (by omega) hwo)
      rw [hci, hco]
      split at hr
      · rename_i hz
        cases hr
        refine ⟨_, vz, ?_⟩
        have : i.base.prim.bitWidth ≤ 32 := by
          simp only [isZext, Bool.and_eq_true, decide_eq_true_eq] at hz
          exact width_half hs2 hs10 hz.2
        have : v < 2 ^ 32 := Int.lt_of_lt_of_le hv1 (pow_mono this)
        rw [Int.emod_eq_of_lt hv0 this]
      · split at hr
        · rename_i hz
          cases hr
          refine ⟨_, vt, ?_⟩
          have : b.out.base.prim.bitWidth ≤ 32 := by
            simp only [isTrunc, Bool.and_eq_true, decide_eq_true_eq] at hz
            exact width_half hs5 h64 hz.2
          have : v < 2 ^ 31 := Int.lt_of_lt_of_le (show v < 2 ^ (b.out.base.prim.bitWidth - 1) by omega) (pow_mono (by omega))
          have : v.bmod (2 ^ 32) = v := by rw [Int.bmod_def]; push_cast; split <;> omega
          rw [this]
        · cases hr; exact ⟨_, vx, rfl⟩
  · -- truncation of an UInt64
    have : isZext .assign i.base.prim b.out.base.prim = false := by rw [hi64, ho32]; decide
    rw [this, ht] at hr
    cases hr
    refine ⟨_, vt, ?_⟩
    have h32 := hl.trunc hc ho32 ⟨i, by rw [hin]; simp, hi64⟩
    rw [ho32, hi64]
    have e1 : conv (cty l cs .uint32) (conv (cty l cs .uint64) a) = a % 2 ^ 32 := by
      simp only [cty, conv]; omega
    rw [e1]
    by_cases hb : b.out.own.prim = .bool
    · rw [hb]
      simp only [cty, conv, bmod_dvd_iff]
    · have hoi : intTy b.out.own.prim = true := by rw [intTy, hw.ints.1]; simpa using hb
      rw [cty_int l cs _ hoi]
      apply conv_congr
      have k1 := ofInt_conv h32 true a
      have k2 := ofInt_conv h32 false a
      simp only [conv] at k1 k2
      rw [k1, k2]
  · -- zero extension
    rw [hz] at hr
    cases hr
    refine ⟨_, vz, ?_⟩
    rw [ho64, hi32]
    have e1 : conv (cty l cs .uint64) (conv (cty l cs .uint32) a) = a % 2 ^ 32 := by
      simp only [cty, conv]; omega
    rw [e1]
  · -- signed types
    simp only [InE.ok, OutE.ok, Bool.and_eq_true, decide_eq_true_eq, Bool.not_eq_true'] at hio hoo
    obtain ⟨⟨⟨⟨-, hi1⟩, hi2⟩, hi3⟩, -⟩ := hio
    obtain ⟨⟨⟨⟨-, ho1⟩, ho2⟩, ho3⟩, -⟩ := hoo
    have hz : isZext .assign i.base.prim b.out.base.prim = false := by simp [isZext, hi2]
    rw [hz] at hr
    rw [hi3] at hty
    have hsv := conn_sv (F := Unit) l cs (by simp [sgnTy, hi1, hi2]) hty
    have hca : conv (cty l cs i.base.prim) a = a := by
      obtain ⟨t, ht⟩ := sv_i hsv
      simp only [CV.i.injEq] at ht
      exact ht.2
    rw [hca, ho3, conv_idem]
    simp only [Bool.false_eq_true, if_false] at hr
    split at hr
    · rename_i htr
      cases hr
      refine ⟨_, vt, ?_⟩
      simp only [isTrunc, Bool.and_eq_true, decide_eq_true_eq] at htr
      have hlt := htr.2
      by_cases hb : b.out.base.prim = .bool
      · have h32 := hl.toBool hc hb i (by rw [hin]; simp)
        rcases cty_sgn l cs (p := i.base.prim) (by simp [sgnTy, hi1, hi2]) with ⟨h1, h2⟩ | ⟨h1, h2, h3, h4⟩
        · rw [h1, hb] at hlt; simp [Prim.bitWidth] at hlt
        · rw [InTy, if_neg h1, h4] at hty
          have := conv_in (show 0 < 32 by decide) (inr_mono h32 hty)
          simp only [conv] at this
          rw [this]
      · rcases cty_sgn l cs (p := b.out.base.prim) (by simp [sgnTy, ho1, ho2]) with ⟨h1, h2⟩ | ⟨h1, h2, h3, h4⟩
        · exact absurd h1 hb
        · rw [h2]
          have h32 := width_half ho1 h64 hlt
          apply conv_congr
          exact ofInt_conv h32 true a
    · cases hr; exact ⟨_, vx, rfl⟩

theorem declTy_not {code : Code} (h : code.isUnsigned = false) (p : Prim) : declTy code p = p := by
  rw [declTy, h]; rfl

/-- the emitted tasklet and the symbolic assignment store the same value -/
theorem exec_assign (K : Fmt) (l : Lang) (cs : Bool) (F : String → List Int → Int) (b : PBlk) (m m' : Mem) (hcan : b.canApply = true)
    (hw : WellTyped F b m) (hl : Limits l cs F b m) (r : Rhs) (hr : b.rhs = some r) (he : b.exec K l cs F m = some m') :
    b.assign l cs F r m = some m' := by
  have hcan' := hcan
  unfold PBlk.canApply at hcan'
  simp only [Bool.and_eq_true, decide_eq_true_eq, Bool.not_eq_true'] at hcan'
  obtain ⟨⟨⟨⟨-, -⟩, -⟩, hun⟩, hor⟩ := hcan'
  have hd := fun p => declTy_not hun p
  unfold PBlk.exec at he
  simp only [hl.scalar.1, Mem.idx, Option.map_some, hd] at he
  rw [Option.bind_eq_some_iff] at he
  obtain ⟨vs, hvs, he⟩ := he
  rw [Option.bind_eq_some_iff] at he
  obtain ⟨z, hz, he⟩ := he
  cases z with
  | f x => cases he
  | i t n =>
    simp only [Option.some.injEq] at he
    subst he
    rw [PBlk.assign]
    suffices h : ∃ k, r.value F m = some k ∧ conv (cty l cs b.out.own.prim) k =
        conv (cty l cs b.out.own.prim) (conv (cty l cs b.out.base.prim) n) by
      obtain ⟨k, hk1, hk2⟩ := h
      rw [hk1, Option.map_some, hk2]
    by_cases hc : b.code = .assign
    · have har := hw.arity
      rw [hc] at har
      obtain ⟨i, hin⟩ := List.length_eq_one_iff.1 har
      rw [hin] at hvs
      obtain ⟨a, ha, rfl⟩ := getAll_one hvs
      obtain ⟨k, hk1, hk2⟩ := assign_value l cs F b m hcan hw hl hc i hin a ha r hr
      refine ⟨k, hk1, ?_⟩
      rw [hc, hin] at hz
      simp only [Code.ast, CE.eval, connEnv, List.getElem?_cons_zero, Option.some.injEq, CV.i.injEq] at hz
      rw [hk2, ← hz.2]; rfl
    · have hgen : b.ins.all InE.ok = true ∧ b.out.ok = true ∧ b.known = true := by
        rw [Bool.or_eq_true] at hor
        rcases hor with h | h
        · split at h
          · simp only [Bool.and_eq_true, beq_iff_eq] at h
            exact absurd h.1 hc
          · cases h
        · simpa [Bool.and_eq_true, and_assoc] using h
      obtain ⟨hins, hout, hkn⟩ := hgen
      rw [List.all_eq_true] at hins
      have hinp : ∀ e ∈ b.ins, ∀ v, e.get F m = some v → sgnTy e.base.prim = true ∧ InTy e.base.prim v := by
        intro e he v hv
        have h1 := hins e he
        simp only [InE.ok, Bool.and_eq_true, decide_eq_true_eq, Bool.not_eq_true'] at h1
        obtain ⟨⟨⟨⟨-, h2⟩, h3⟩, h4⟩, -⟩ := h1
        exact ⟨by simp [sgnTy, h2, h3], by have := hw.vals e he v hv; rwa [h4] at this⟩
      have ho : b.out.own = b.out.base := by
        simp only [OutE.ok, Bool.and_eq_true, decide_eq_true_eq, Bool.not_eq_true'] at hout
        exact hout.1.2
      refine ⟨n, ?_, by rw [ho, conv_idem]⟩
      by_cases hab : b.code = .int_abs
      · have har := hw.arity
        rw [hab] at har
        obtain ⟨i, hin⟩ := List.length_eq_one_iff.1 har
        rw [hin] at hvs
        obtain ⟨a, ha, rfl⟩ := getAll_one hvs
        obtain ⟨h1, h2⟩ := hinp i (by rw [hin]; simp) a ha
        have h0 : SV (connEnv K l cs b.code b.ins [a] 0) a := by
          rw [hin]
          simp only [connEnv, List.getElem?_cons_zero, hd]
          exact conn_sv l cs h1 h2
        rw [hab] at hz h0
        have := abs_sv K h0 hz
        have hn : (a.natAbs : Int) = n := by
          obtain ⟨t', ht'⟩ := sv_i this
          simp only [CV.i.injEq] at ht'
          exact ht'.2.symm
        unfold PBlk.rhs at hr
        rw [hin, hab] at hr
        cases hr
        have ea := opd_eval (hl.scalar.2 i (by rw [hin]; simp)) ha
        simp [Rhs.value, Expr.eval, Expr.evalL, ea, finArgs, applyFn, fin?, hn]
      · have har : b.code.arity = 2 := by
          revert hkn
          cases hcode : b.code <;> simp [PBlk.known, hcode, Code.arity] <;> first | exact absurd hcode hc | exact absurd hcode hab
        have hlen := hw.arity
        rw [har] at hlen
        obtain ⟨i, j, hin⟩ := List.length_eq_two.1 hlen
        rw [hin] at hvs
        obtain ⟨a, c, ha, hcv, rfl⟩ := getAll_two hvs
        obtain ⟨h1, h2⟩ := hinp i (by rw [hin]; simp) a ha
        obtain ⟨h3, h4⟩ := hinp j (by rw [hin]; simp) c hcv
        have h0 : SV (connEnv K l cs b.code b.ins [a, c] 0) a := by
          rw [hin]
          simp only [connEnv, List.getElem?_cons_zero, hd]
          exact conn_sv l cs h1 h2
        have h01 : SV (connEnv K l cs b.code b.ins [a, c] 1) c := by
          rw [hin]
          simp only [connEnv, List.getElem?_cons_zero, List.getElem?_cons_succ, hd]
          exact conn_sv l cs h3 h4
        refine two_value K F b m i j hin (hl.scalar.2 i (by rw [hin]; simp)) (hl.scalar.2 j (by rw [hin]; simp)) hkn a c ha hcv _ h0 h01
          hl.shift t n hz r hr ?_ har
        intro hall
        rw [PBlk.allBool, hin] at hall
        simp only [List.all_cons, List.all_nil, Bool.and_eq_true, decide_eq_true_eq] at hall
        rw [hall.1.1, InTy, if_pos rfl] at h2
        rw [hall.1.2.1, InTy, if_pos rfl] at h4
        exact ⟨h2, h4⟩

/-- the nodes of the graph that run before the tasklet do not touch its containers: they leave the operands alone and neither read nor
write the destination -/
structure Apart (b : PBlk) (pre : Mem → Option Mem) : Prop where
  keeps : ∀ m m', pre m = some m' → ∀ e ∈ b.ins, ∀ x, e.opd = .var x → m' x [] = m x []
  comm : ∀ m n, pre (m.set b.out.dst [] n) = (pre m).map (·.set b.out.dst [] n)

theorem get_congr {F : String → List Int → Int} {m m' : Mem} {e : InE} (hs : e.sub = []) (h : ∀ x, e.opd = .var x → m' x [] = m x []) :
    e.get F m' = e.get F m := by
  unfold InE.get
  cases ho : e.opd with
  | cst n => rfl
  | var x => simp only [hs, Mem.idx, Option.map_some, h x ho]

theorem getAll_congr {F : String → List Int → Int} {m m' : Mem} {q : List InE} (hs : ∀ e ∈ q, e.sub = [])
    (h : ∀ e ∈ q, ∀ x, e.opd = .var x → m' x [] = m x []) : getAll F m' q = getAll F m q := by
  induction q with
  | nil => rfl
  | cons e r ih =>
    rw [getAll, getAll, get_congr (hs e (by simp)) (h e (by simp)),
      ih (fun e he => hs e (List.mem_cons_of_mem _ he)) (fun e he => h e (List.mem_cons_of_mem _ he))]

theorem exec_congr {K : Fmt} {l : Lang} {cs : Bool} {F : String → List Int → Int} {b : PBlk} {m m1 m2 : Mem} (hs : b.out.sub = [] ∧ ∀ e ∈ b.ins, e.sub = [])
    (h : ∀ e ∈ b.ins, ∀ x, e.opd = .var x → m1 x [] = m x []) (he : b.exec K l cs F m1 = some m2) :
    ∃ v, m2 = m1.set b.out.dst [] v ∧ b.exec K l cs F m = some (m.set b.out.dst [] v) := by
  unfold PBlk.exec at he ⊢
  rw [getAll_congr hs.2 h] at he
  simp only [hs.1, Mem.idx, Option.map_some] at he ⊢
  rw [Option.bind_eq_some_iff] at he
  obtain ⟨vs, hvs, he⟩ := he
  rw [Option.bind_eq_some_iff] at he
  obtain ⟨z, hz, he⟩ := he
  cases z with
  | f x => cases he
  | i t n =>
    simp only [Option.some.injEq] at he
    refine ⟨_, he.symm, ?_⟩
    rw [hvs, Option.bind_some, hz, Option.bind_some]

/-- C62 (part): whenever the pass accepts a block and the emitted code of the tasklet is defined, the assignment on the new transition,
followed by the rest of the block, ends in the same state as the block did.  What is missing: the cases outside `Limits`, and nodes before
the tasklet that touch its containers, for which it fails (`ashr_violated`, `int128_violated`, `toBool_violated`, `array_violated`,
`pre_violated`), and constants on which the pass itself fails (`xor_crash`). -/
theorem promote_partial (K : Fmt) (l : Lang) (cs : Bool) (F : String → List Int → Int) (b : PBlk) (pre post : Mem → Option Mem) (m m' : Mem)
    (hcan : b.canApply = true) (hw : WellTyped F b m) (hl : Limits l cs F b m) (hap : Apart b pre) (r : Rhs) (hr : b.rhs = some r)
    (h : b.before K l cs F pre post m = some m') : b.after l cs F r pre post m = some m' := by
  unfold PBlk.before at h
  rw [Option.bind_eq_some_iff] at h
  obtain ⟨m1, h1, h⟩ := h
  rw [Option.bind_eq_some_iff] at h
  obtain ⟨m2, h2, h⟩ := h
  obtain ⟨v, rfl, h3⟩ := exec_congr hl.scalar (hap.keeps m m1 h1) h2
  have h4 := exec_assign K l cs F b m _ hcan hw hl r hr h3
  rw [PBlk.after, h4, Option.bind_some, hap.comm, h1, Option.map_some, Option.bind_some, h]

theorem sdiv_total {l r : Expr} (h : (∃ x, l = .sym x) ∨ (∃ x, r = .sym x)) : ∃ q, sdiv l r = .ok q := by
  unfold sdiv
  split
  · exact ⟨_, rfl⟩
  · split
    · exact ⟨_, rfl⟩
    · split
      · exact ⟨_, rfl⟩
      · rcases h with ⟨x, rfl⟩ | ⟨x, rfl⟩
        · exact ⟨_, rfl⟩
        · cases l <;> exact ⟨_, rfl⟩

theorem sym_of {o : Opd} (h : o.isCst = false) : ∃ x, o.sym = .sym x := by
  cases o with
  | cst n => cases h
  | var x => exact ⟨x, rfl⟩

/-- C62 (part): the pass produces an assignment for every accepted block with an operand that is not a constant -/
theorem promote_total (b : PBlk) (F : String → List Int → Int) (m : Mem) (hcan : b.canApply = true) (hw : WellTyped F b m)
    (hv : ∃ e ∈ b.ins, e.opd.isCst = false) : ∃ r, b.rhs = some r := by
  obtain ⟨e, he, hec⟩ := hv
  have har := hw.arity
  match hin : b.ins with
  | [] => rw [hin] at he; cases he
  | i :: q =>
    rw [hin] at he har
    have hkn : b.code = .assign ∨ b.known = true := by
      unfold PBlk.canApply at hcan
      simp only [Bool.and_eq_true, Bool.or_eq_true] at hcan
      rcases hcan.2 with h | h
      · rw [hin] at h
        simp only [Bool.and_eq_true, beq_iff_eq] at h
        exact Or.inl h.1
      · exact Or.inr h.2
    have hone : b.code ≠ .assign → b.known = true := fun h => hkn.resolve_left h
    have htwo : b.code.arity = 2 → ∃ j, q = [j] := by
      intro h2
      rw [h2] at har
      exact List.length_eq_one_iff.1 (by simpa using har)
    have hsym : ∀ j, q = [j] → (∃ x, i.opd.sym = .sym x) ∨ (∃ x, j.opd.sym = .sym x) := by
      intro j hj
      subst hj
      rcases List.mem_cons.1 he with rfl | he
      · exact Or.inl (sym_of hec)
      · rw [List.mem_singleton] at he; subst he; exact Or.inr (sym_of hec)
    unfold PBlk.rhs
    rw [hin]
    cases hcode : b.code
    case assign => simp only []; split; exact ⟨_, rfl⟩; split <;> exact ⟨_, rfl⟩
    case int_sdiv =>
      obtain ⟨j, hj⟩ := htwo (by rw [hcode]; rfl)
      obtain ⟨d, hd⟩ := sdiv_total (hsym j hj)
      subst hj
      simp only [hd]
      exact ⟨_, rfl⟩
    case int_srem =>
      obtain ⟨j, hj⟩ := htwo (by rw [hcode]; rfl)
      obtain ⟨d, hd⟩ := sdiv_total (hsym j hj)
      subst hj
      simp only [smod, hd, Res.bind]
      exact ⟨_, rfl⟩
    case int_ashr =>
      obtain ⟨j, hj⟩ := htwo (by rw [hcode]; rfl)
      subst hj
      have := hone (by rw [hcode]; decide)
      simp only [PBlk.known, hcode, hin, List.getElem?_cons_succ, List.getElem?_cons_zero] at this
      have hi : i.opd.isCst = false := by
        rcases List.mem_cons.1 he with rfl | he
        · exact hec
        · rw [List.mem_singleton] at he; subst he; rw [this] at hec; cases hec
      obtain ⟨d, hd⟩ := sdiv_total (l := i.opd.sym) (r := spow2 j.opd.sym) (Or.inl (sym_of hi))
      simp only [hd]
      exact ⟨_, rfl⟩
    case int_and =>
      obtain ⟨j, hj⟩ := htwo (by rw [hcode]; rfl)
      subst hj; exact ⟨_, rfl⟩
    case int_or =>
      obtain ⟨j, hj⟩ := htwo (by rw [hcode]; rfl)
      subst hj; exact ⟨_, rfl⟩
    case int_xor =>
      obtain ⟨j, hj⟩ := htwo (by rw [hcode]; rfl)
      subst hj
      simp only []
      split
      · exact ⟨_, rfl⟩
      · split
        · exact ⟨_, rfl⟩
        · rename_i hnone
          rw [List.find?_eq_none] at hnone
          exact absurd (hnone e (List.mem_reverse.2 he)) (by simp [hec])
    all_goals first
      | exact ⟨_, rfl⟩
      | (exfalso; have := hone (by rw [hcode]; decide); simp [PBlk.known, hcode] at this)

/-! ### where it fails -/

/-- the memory of the witnesses: `x` holds `n`, `A` has the address 1000 and holds 7 at index 5 -/
def exMem (n : Int) : Mem := fun y ix => if y = "x" then n else if y = "A" then (if ix = [] then 1000 else if ix = [5] then 7 else 0) else 0

/-- no opaque functions -/
def exF : String → List Int → Int := fun _ _ => 0

/-- a block `y = code(x, ...)` on scalars without casts -/
def exBlk (code : Code) (p q : Prim) (more : List InE) : PBlk :=
  { comp := true, ntask := 1, code := code, ins := ⟨.var "x", ⟨p, 0⟩, ⟨p, 0⟩, [], 0⟩ :: more, out := ⟨"y", ⟨q, 0⟩, ⟨q, 0⟩, [], 0⟩ }

/-- an Int32 constant -/
def exCst (n : Int) : InE := ⟨.cst n, ⟨.int32, 0⟩, ⟨.int32, 0⟩, [], 0⟩

/-- the value of `y` afterwards -/
def yOf (m : Option Mem) : Option Int := m.map fun m => m "y" []

/-- C62 fails: an arithmetic right shift becomes a division that truncates towards zero: for `x = -1`, `y = x >> 1` is -1 before the pass
and 0 after it -/
theorem ashr_violated : ∃ r, (exBlk .int_ashr .int32 .int32 [exCst 1]).canApply = true ∧ (exBlk .int_ashr .int32 .int32 [exCst 1]).rhs = some r ∧
    yOf ((exBlk .int_ashr .int32 .int32 [exCst 1]).exec exFmt .c true exF (exMem (-1))) = some (-1) ∧
    yOf ((exBlk .int_ashr .int32 .int32 [exCst 1]).assign .c true exF r (exMem (-1))) = some 0 :=
  ⟨.e (.fn "idiv" [.sym "x", .int 2]), by decide, rfl, by decide, by decide⟩

/-- C62 fails: every narrowing between types of the same signedness is promoted to `trunc_i32`, also Int128 to Int64: `2^40` becomes 0 -/
theorem int128_violated : ∃ r, (exBlk .assign .int128 .int64 []).canApply = true ∧ (exBlk .assign .int128 .int64 []).rhs = some r ∧
    yOf ((exBlk .assign .int128 .int64 []).exec exFmt .c true exF (exMem (2 ^ 40))) = some (2 ^ 40) ∧
    yOf ((exBlk .assign .int128 .int64 []).assign .c true exF r (exMem (2 ^ 40))) = some 0 :=
  ⟨.e (.fn "trunc_i32" [.sym "x"]), by decide, rfl, by decide, by decide⟩

/-- C62 fails: Int64 to Bool counts as a narrowing too: `2^32` is true before the pass and false after it -/
theorem toBool_violated : ∃ r, (exBlk .assign .int64 .bool []).canApply = true ∧ (exBlk .assign .int64 .bool []).rhs = some r ∧
    yOf ((exBlk .assign .int64 .bool []).exec exFmt .c true exF (exMem (2 ^ 32))) = some 1 ∧
    yOf ((exBlk .assign .int64 .bool []).assign .c true exF r (exMem (2 ^ 32))) = some 0 :=
  ⟨.e (.fn "trunc_i32" [.sym "x"]), by decide, rfl, by decide, by decide⟩

/-- the block `y = (UInt64) A[5]` of an UInt32 array -/
def exArr : PBlk :=
  { comp := true, ntask := 1, code := .assign, ins := [⟨.var "A", ⟨.uint32, 1⟩, ⟨.uint32, 1⟩, [.int 5], 0⟩],
    out := ⟨"y", ⟨.uint64, 0⟩, ⟨.uint64, 0⟩, [], 0⟩ }

/-- C62 fails: the zero extension and truncation cases do not look at the subset: `y = A[5]` becomes `y = zext_i64(A)`, the address -/
theorem array_violated : ∃ r, exArr.canApply = true ∧ exArr.rhs = some r ∧
    yOf (exArr.exec exFmt .c true exF (exMem 0)) = some 7 ∧ yOf (exArr.assign .c true exF r (exMem 0)) = some 1000 :=
  ⟨.e (.fn "zext_i64" [.sym "A"]), by decide, rfl, by decide, by decide⟩

/-- the block `y = (UInt64) x` whose input is written by another node of the graph -/
def exPre : PBlk :=
  { comp := true, ntask := 1, code := .assign, ins := [⟨.var "x", ⟨.uint32, 0⟩, ⟨.uint32, 0⟩, [], 1⟩],
    out := ⟨"y", ⟨.uint64, 0⟩, ⟨.uint64, 0⟩, [], 0⟩ }

/-- C62 fails: nor do they check that the input is not written in the block (by a library node, say): the assignment reads the old value -/
theorem pre_violated : ∃ r, exPre.canApply = true ∧ exPre.rhs = some r ∧
    yOf (exPre.before exFmt .c true exF (fun m => some (m.set "x" [] 42)) some (exMem 3)) = some 42 ∧
    yOf (exPre.after .c true exF r (fun m => some (m.set "x" [] 42)) some (exMem 3)) = some 3 :=
  ⟨.e (.fn "zext_i64" [.sym "x"]), by decide, rfl, by decide, by decide⟩

/-- C62 fails: an exclusive or of two constants, one of them -1, is accepted but has no expression -/
theorem xor_crash : ({ exBlk .int_xor .int32 .int32 [] with ins := [exCst 5, exCst (-1)] }).canApply = true ∧
    ({ exBlk .int_xor .int32 .int32 [] with ins := [exCst 5, exCst (-1)] }).rhs = none := by
  constructor <;> decide

/-- the symbolic value of the assignment is not always the value of the container: for a truncation to 16 bits the symbol is
`trunc_i32(x)`, for `x = 40000` the number 40000, but the container holds -25536 -/
theorem symbolic_value_violated : ∃ r, (exBlk .assign .int64 .int16 []).canApply = true ∧ (exBlk .assign .int64 .int16 []).rhs = some r ∧
    r.value exF (exMem 40000) = some 40000 ∧
    yOf ((exBlk .assign .int64 .int16 []).exec exFmt .c true exF (exMem 40000)) = some (-25536) :=
  ⟨.e (.fn "trunc_i32" [.sym "x"]), by decide, rfl, by decide, by decide⟩

/-! ### the hypotheses are met -/

example : ∃ r, (exBlk .int_srem .int32 .int32 [exCst 4]).rhs = some r ∧
    yOf ((exBlk .int_srem .int32 .int32 [exCst 4]).after .c true exF r (fun m => some (m.set "z" [] 1)) some (exMem (-7))) = some (-3) := by
  refine ⟨_, rfl, ?_⟩
  rw [promote_partial exFmt .c true exF (exBlk .int_srem .int32 .int32 [exCst 4]) (fun m => some (m.set "z" [] 1)) some (exMem (-7))
    (((exMem (-7)).set "z" [] 1).set "y" [] (-3)) (by decide) ?_ ?_ ?_ _ rfl rfl]
  · decide
  · refine ⟨rfl, ?_, ?_, ?_⟩
    · intro e he n hn
      rcases List.mem_cons.1 he with rfl | he
      · simp only [InE.get, Mem.idx, exMem, Option.map_some, if_true, Option.some.injEq] at hn
        subst hn; simp [InTy, InR, Prim.isSigned, Prim.bitWidth, exCst]
      · simp only [List.mem_singleton] at he
        subst he
        simp only [InE.get, exCst, Option.some.injEq] at hn
        subst hn; simp [InTy, InR, Prim.isSigned, Prim.bitWidth, exCst]
    · intro e he _
      simp only [exBlk, List.mem_cons, List.not_mem_nil, or_false] at he
      rcases he with rfl | rfl <;> rfl
    · refine ⟨rfl, ?_⟩
      intro e he
      simp only [exBlk, List.mem_cons, List.not_mem_nil, or_false] at he
      rcases he with rfl | rfl <;> rfl
  · refine ⟨⟨rfl, by decide⟩, ⟨by decide, by decide, by decide⟩, fun h => (by cases h), fun h => (by cases h), fun h => (by cases h), by decide⟩
  · refine ⟨?_, ?_⟩
    · intro m m' h e he x hx
      simp only [Option.some.injEq] at h
      subst h
      simp only [exBlk, List.mem_cons, List.not_mem_nil, or_false] at he
      rcases he with rfl | rfl
      · simp only [Opd.var.injEq] at hx
        subst hx; simp [Mem.set]
      · cases hx
    · intro m n
      simp only [Option.map_some, Option.some.injEq]
      funext y ix
      simp only [Mem.set, exBlk]
      by_cases h1 : y = "z" <;> by_cases h2 : y = "y" <;> simp_all

end Docc.Codegen
