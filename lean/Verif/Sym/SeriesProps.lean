import Verif.Sym.Series
import Verif.Sym.PolyProps
import Verif.Sym.ExtremeProps

/-
C03: loop update classification.
-/
namespace Docc.Sym

/-- canonicalisation keeps finite values -/
def PolyEngine.NormSound (E : PolyEngine) : Prop := ∀ ρ e n, e.eval ρ = .fin n → (E.norm e).eval ρ = .fin n

theorem intSumL_eval (ρ : Val) (l : List Expr) (n : Int) (ih : ∀ e ∈ l, ∀ n, e.intSum = some n → e.eval ρ = .fin n)
    (h : Expr.intSumL l = some n) : (Expr.add l).eval ρ = .fin n := by
  induction l generalizing n with
  | nil => simp only [Expr.intSumL, Option.some.injEq] at h; subst h; rfl
  | cons e r ihr =>
    simp only [Expr.intSumL] at h
    split at h
    · rename_i a b ha hb
      simp only [Option.some.injEq] at h
      subst h
      have h1 := ih e (by simp) a ha
      have h2 := ihr b (fun e he => ih e (List.mem_cons_of_mem _ he)) hb
      simp only [Expr.eval, Expr.evalL, List.foldr_cons] at h2 ⊢
      rw [h1, h2]; rfl
    · simp at h

theorem intSum_eval (ρ : Val) (e : Expr) (n : Int) (h : e.intSum = some n) : e.eval ρ = .fin n := by
  induction e using Expr.induct generalizing n with
  | hint m => simp only [Expr.intSum, Option.some.injEq] at h; subst h; rfl
  | hadd l ih => exact intSumL_eval ρ l n ih (by simpa only [Expr.intSum] using h)
  | _ => simp [Expr.intSum] at h

/-- The minimum of a sum of integers is its value. -/
theorem minimum_intSum (P : List String) (A : Assums) (ρ : Val) (d : Nat) : ∀ (e m : Expr) (n : Int), e.intSum = some n →
    minimum P A d e = .ok m → m.eval ρ = .fin n := by
  induction d with
  | zero => intro e m n _ h; simp [minimum] at h
  | succ d ih =>
    intro e m n hn h
    cases e with
    | int k =>
      simp only [minimum, Res.ok.injEq] at h; subst h; exact intSum_eval ρ _ n hn
    | add l =>
      simp only [minimum] at h
      obtain ⟨bs, hbs, hacc⟩ := bind_ok h
      simp only [Expr.intSum] at hn
      have hmap := Res.mapM_ok _ _ _ hbs
      cases l with
      | nil =>
        cases hmap
        simp [accumulate] at hacc
      | cons a r =>
        cases hmap with
        | cons ha hr =>
          rename_i b bs
          simp only [accumulate, Res.ok.injEq] at hacc
          subst hacc
          simp only [Expr.intSumL] at hn
          split at hn
          · rename_i x y hx hy
            simp only [Option.some.injEq] at hn
            subst hn
            have hb := ih a b x hx ha
            clear h hbs ha hx
            induction hr generalizing b x y with
            | nil => simp only [Expr.intSumL, Option.some.injEq] at hy; subst hy; simpa using hb
            | @cons c c' rs rs' hc _ ihr =>
              simp only [Expr.intSumL] at hy
              split at hy
              · rename_i u v hu hv
                simp only [Option.some.injEq] at hy
                subst hy
                rw [List.foldl_cons]
                have := ihr (b := Expr.add [b, c']) (x := x + u) (y := v) (hy := hv) (hb := eval_add2 hb (ih _ _ _ hu hc))
                rw [this]; congr 1; omega
              · simp at hy
          · simp at hn
    | _ => simp [Expr.intSum] at hn

/-- With integer coefficients, `affine_int_coeffs` describes the expression exactly. -/
theorem affineIntCoeffs_exact (E : PolyEngine) (ρ : Val) (hE : E.Sound ρ) (hN : E.NormSound) (A : Assums) (e : Expr)
    (x : String) (hx : x ≠ constName) (hlen : ∀ D, E.poly e [x] = some D → ∀ t ∈ D, t.1.length = 1)
    (hint : ∀ D c, E.poly e [x] = some D → affineCoefficients D [x] = some c →
      (∃ n, (c.at' x).intSum = some n) ∧ ∃ n, (c.at' constName).intSum = some n)
    (m k : Int) (h : affineIntCoeffs E A e x = some (m, k)) (v : Int) (hv : e.eval ρ = .fin v) :
    v = m * ρ.sym x + k := by
  unfold affineIntCoeffs at h
  split at h
  · simp at h
  · rename_i D hD
    split at h
    · simp at h
    · rename_i c hc
      obtain ⟨⟨a, ha⟩, b, hb⟩ := hint D c hD hc
      obtain ⟨cv, hcv, hval⟩ := affine_coefficients_partial E ρ hE e [x] (by simp) (by simpa using Ne.symm hx) D hD
        (by simpa using hlen D hD) c hc v hv
      split at h
      · rename_i mm kk hm hk
        split at h
        · rename_i m' k' hm' hk'
          simp only [Option.some.injEq, Prod.mk.injEq] at h
          obtain ⟨rfl, rfl⟩ := h
          have e1 := hN ρ _ _ (minimum_intSum [] A ρ _ _ _ _ ha hm)
          have e2 := hN ρ _ _ (minimum_intSum [] A ρ _ _ _ _ hb hk)
          unfold PolyEngine.asInteger at hm' hk'
          split at hm'
          · rename_i n hn
            split at hk'
            · rename_i n' hn'
              simp only [Option.some.injEq] at hm' hk'
              rw [hn] at e1; rw [hn'] at e2
              simp only [Expr.eval, V.fin.injEq] at e1 e2
              have e3 := hcv x
              rw [intSum_eval ρ _ _ ha, V.fin.injEq] at e3
              have e4 := hcv constName
              rw [intSum_eval ρ _ _ hb, V.fin.injEq] at e4
              simp only [List.map_cons, List.map_nil, List.sum_cons, List.sum_nil] at hval
              subst hm' hk'
              rw [e1, e2, e3, e4]; omega
            · simp at hk'
          · simp at hm'
        · simp at h
      · simp at h

/-- **C03 (partial, contiguous).** If the coefficients of the update are integers, an update declared contiguous adds exactly one
to the loop variable, in every valuation.  Missing: symbolic coefficients, for which only their minimum is compared
with one (`is_contiguous_violated`). -/
theorem is_contiguous_partial (E : PolyEngine) (ρ : Val) (hE : E.Sound ρ) (hN : E.NormSound) (A : Assums) (e : Expr)
    (x : String) (hx : x ≠ constName) (hlen : ∀ D, E.poly e [x] = some D → ∀ t ∈ D, t.1.length = 1)
    (hint : ∀ D c, E.poly e [x] = some D → affineCoefficients D [x] = some c →
      (∃ n, (c.at' x).intSum = some n) ∧ ∃ n, (c.at' constName).intSum = some n)
    (h : isContiguous E A e x = true) (v : Int) (hv : e.eval ρ = .fin v) : v = ρ.sym x + 1 := by
  unfold isContiguous isContiguousAffine at h
  split at h
  · rename_i m k hmk
    simp only [Bool.and_eq_true, decide_eq_true_eq] at h
    obtain ⟨⟨_, h1⟩, h2⟩ := h
    subst h1 h2
    rw [affineIntCoeffs_exact E ρ hE hN A e x hx hlen hint 1 1 hmk v hv]; omega
  · simp at h

/-- **C03 (partial, monotonic).** If the coefficients of the update are integers and the loop variable is not negative, an update
declared monotonic by its affine form moves the variable strictly upwards (so it stays non-negative and the claim
applies again).  Missing: negative loop variables (`is_monotonic_negative_violated`), symbolic coefficients, and powers
(`is_monotonic_pow_violated`, `is_monotonic_pow_stuck`). -/
theorem is_monotonic_partial (E : PolyEngine) (ρ : Val) (hE : E.Sound ρ) (hN : E.NormSound) (A : Assums) (e : Expr)
    (x : String) (hx : x ≠ constName) (hlen : ∀ D, E.poly e [x] = some D → ∀ t ∈ D, t.1.length = 1)
    (hint : ∀ D c, E.poly e [x] = some D → affineCoefficients D [x] = some c →
      (∃ n, (c.at' x).intSum = some n) ∧ ∃ n, (c.at' constName).intSum = some n)
    (h : isMonotonicAffine E A e x = true) (hpos : 0 ≤ ρ.sym x) (v : Int) (hv : e.eval ρ = .fin v) : ρ.sym x < v := by
  unfold isMonotonicAffine at h
  split at h
  · rename_i m k hmk
    simp only [Bool.and_eq_true, decide_eq_true_eq] at h
    obtain ⟨⟨_, h1⟩, h2⟩ := h
    rw [affineIntCoeffs_exact E ρ hE hN A e x hx hlen hint m k hmk v hv]
    have : 1 * ρ.sym x ≤ m * ρ.sym x := Int.mul_le_mul_of_nonneg_right (by omega) hpos
    omega
  · simp at h

/-- **C03 (partial, powers).** For a power of the loop variable itself, declared monotonic under assumptions that hold, the
update never moves the variable downwards.  Missing: the update may stay (`is_monotonic_pow_stuck`), and the base need not
be the loop variable (`is_monotonic_pow_violated`). -/
theorem is_monotonic_pow_partial (E : PolyEngine) (ρ : Val) (hN : E.NormSound) (A : Assums) (hA : A.Hold ρ)
    (hAf : AssumsFnOk (minimum [] A) (maximum [] A) ρ A) (x : String) (n : Int)
    (hfin : ∀ m, symMinimum [] A (.sym x) = .ok m → ∃ k, m.eval ρ = .fin k)
    (h : isMonotonicPow E A (.pow (.sym x) (.int n)) = true) (v : Int)
    (hv : (Expr.pow (.sym x) (.int n)).eval ρ = .fin v) : ρ.sym x ≤ v := by
  simp only [isMonotonicPow] at h
  split at h
  · simp at h
  · rename_i hn
    split at h
    · rename_i m hm
      split at h
      · rename_i k hk
        obtain ⟨j, hj⟩ := hfin m hm
        have hle := (extreme_values_sound_partial [] A ρ hA hAf (.sym x) m m (by intro f args hfa; simp [Expr.fns] at hfa) (by simp [Expr.eval])).1 hm
          (by rw [hj]; simp)
        have hk0 : (0 : Int) ≤ k := by simpa using h
        have hjk : j = k := by
          have := hN ρ m j hj
          simp only [PolyEngine.asInteger] at hk
          split at hk
          · rename_i q hq; simp only [Option.some.injEq] at hk; subst hk
            rw [hq] at this; simpa [Expr.eval] using this.symm
          · simp at hk
        have h0 : 0 ≤ ρ.sym x := by
          rw [hj] at hle
          have : j ≤ ρ.sym x := by simpa [Expr.eval, V.le_def, V.le] using hle
          omega
        obtain ⟨p, rfl⟩ : ∃ p : Nat, n = p + 1 := ⟨(n - 1).toNat, by omega⟩
        have hpow : v = ρ.sym x ^ (p + 1) := by
          exact (V.fin.inj hv).symm
        rw [hpow, Int.pow_succ]
        by_cases hz : ρ.sym x = 0
        · simp [hz]
        · have : 0 < ρ.sym x ^ p := Int.pow_pos (by omega)
          calc ρ.sym x = 1 * ρ.sym x := by omega
            _ ≤ ρ.sym x ^ p * ρ.sym x := Int.mul_le_mul_of_nonneg_right (by omega) h0
      · simp at h
    · simp at h

/-! ### violations -/

/-- SymEngine on the updates of the examples: `i + N`, `2*i + 1`, `i + 1`; canonicalisation adds up integers. -/
def exSeries : PolyEngine := ⟨fun e g => if g ≠ ["i"] then none
  else if e = .add [.sym "i", .sym "N"] then some [([1], .int 1), ([0], .sym "N")]
  else if e = .add [.mul [.int 2, .sym "i"], .int 1] then some [([1], .int 2), ([0], .int 1)]
  else if e = .add [.sym "i", .int 1] then some [([1], .int 1), ([0], .int 1)] else none,
  id, fun e => match e.intSum with | some n => .int n | none => e⟩

theorem exSeries_norm : exSeries.NormSound := by
  intro ρ e n h
  simp only [exSeries]
  split
  · rename_i k hk; rw [← h, intSum_eval ρ e k hk]; rfl
  · exact h

theorem exSeries_sound (ρ : Val) : exSeries.Sound ρ := by
  constructor
  · intro e n h; exact h
  · intro e gens D n h hv
    simp only [exSeries] at h
    split at h
    · simp at h
    · rename_i hg
      have hg : gens = ["i"] := by simpa using hg
      subst hg
      repeat' split at h
      all_goals first
        | (rename_i he; subst he; simp only [Option.some.injEq] at h; subst h
           simp [Expr.eval, Expr.evalL, V.add, V.mul] at hv
           simp [polyVal, Expr.eval, monoVal, hv])
        | simp at h

/-- `N` is at least one -/
def exSeriesA : Assums := fun x => if x = "N" then some { lower := .int 1 } else if x = "i" then some { lower := .int 0 } else none

/-- **C03 is false for symbolic strides**: `i + N` with `N >= 1` is declared contiguous, and with `N = 5` it moves by 5. -/
theorem is_contiguous_violated : isContiguous exSeries exSeriesA (.add [.sym "i", .sym "N"]) "i" = true ∧
    ∃ (ρ : Val) (v : Int), exSeriesA.Hold ρ ∧ (Expr.add [.sym "i", .sym "N"]).eval ρ = .fin v ∧ v ≠ ρ.sym "i" + 1 := by
  refine ⟨by decide, ⟨fun x => if x = "N" then 5 else 0, fun _ _ => 0⟩, 5, ?_, by decide, by decide⟩
  intro x a ha
  simp only [exSeriesA] at ha
  split at ha
  · rename_i hx; subst hx
    simp only [Option.some.injEq] at ha; subst ha
    simp [Expr.eval, V.le_def, V.le]
  · split at ha
    · rename_i hx; subst hx
      simp only [Option.some.injEq] at ha; subst ha
      simp [Expr.eval, V.le_def, V.le]
    · simp at ha

/-- **C03 is false for negative loop variables**: `2*i + 1` is declared monotonic, and at `i = -3` it gives `-5`. -/
theorem is_monotonic_negative_violated : isMonotonic exSeries (fun _ => none) (.add [.mul [.int 2, .sym "i"], .int 1]) "i" = true ∧
    ∃ (ρ : Val) (v : Int), (Expr.add [.mul [.int 2, .sym "i"], .int 1]).eval ρ = .fin v ∧ v < ρ.sym "i" :=
  ⟨by decide, ⟨fun _ => -3, fun _ _ => 0⟩, -5, by decide, by decide⟩

/-- **C03 is false for powers of other symbols**: `N^2` is declared monotonic in `i`. -/
theorem is_monotonic_pow_violated : isMonotonic exSeries exSeriesA (.pow (.sym "N") (.int 2)) "i" = true ∧
    ∃ (ρ : Val) (v : Int), (Expr.pow (.sym "N") (.int 2)).eval ρ = .fin v ∧ v < ρ.sym "i" :=
  ⟨by decide, ⟨fun x => if x = "N" then 1 else 5, fun _ _ => 0⟩, 1, by decide, by decide⟩

/-- **C03 is false at 0 and 1**: `i^2` is declared monotonic for `i >= 0`, and stays at `0`. -/
theorem is_monotonic_pow_stuck : isMonotonic exSeries exSeriesA (.pow (.sym "i") (.int 2)) "i" = true ∧
    ∃ (ρ : Val) (v : Int), (Expr.pow (.sym "i") (.int 2)).eval ρ = .fin v ∧ v = ρ.sym "i" :=
  ⟨by decide, ⟨fun _ => 0, fun _ _ => 0⟩, 0, by decide, by decide⟩

/-- the theorem on powers applies to `i^2` with `i >= 0` -/
example : isMonotonicPow exSeries exSeriesA (.pow (.sym "i") (.int 2)) = true ∧ exSeries.NormSound ∧
    symMinimum [] exSeriesA (.sym "i") = .ok (.int 0) := ⟨by decide, exSeries_norm, by decide⟩

/-- the partial theorems apply to `i + 1` -/
example (ρ : Val) : isContiguous exSeries (fun _ => none) (.add [.sym "i", .int 1]) "i" = true ∧
    isMonotonicAffine exSeries (fun _ => none) (.add [.sym "i", .int 1]) "i" = true ∧ exSeries.Sound ρ ∧ exSeries.NormSound ∧
    (∀ D c, exSeries.poly (.add [.sym "i", .int 1]) ["i"] = some D → affineCoefficients D ["i"] = some c →
      (∃ n, (c.at' "i").intSum = some n) ∧ ∃ n, (c.at' constName).intSum = some n) := by
  refine ⟨by decide, by decide, exSeries_sound ρ, exSeries_norm, ?_⟩
  intro D c hD hc
  have : D = [([1], .int 1), ([0], .int 1)] := by simp [exSeries] at hD; exact hD.symm
  subst this
  have := (Option.some.inj hc).symm
  subst this
  exact ⟨⟨1, rfl⟩, 1, rfl⟩

end Docc.Sym
