import Verif.Sym.Poly
import Verif.Sym.SimplifyProps
import Verif.Sym.ExprProps

/-
C06 (polynomial_div) and C10 (affine coefficients, inverse).
-/
namespace Docc.Sym

/-- SymEngine contract at a valuation: `expand` keeps finite values, the dictionary of a polynomial evaluates to the value of
the expression. -/
structure PolyEngine.Sound (E : PolyEngine) (ρ : Val) : Prop where
  expand_val : ∀ e n, e.eval ρ = .fin n → (E.expand e).eval ρ = .fin n
  poly_val : ∀ e gens D n, E.poly e gens = some D → e.eval ρ = .fin n → polyVal ρ gens D = some n

theorem eval_add2 {ρ : Val} {a b : Expr} {x y : Int} (hx : a.eval ρ = .fin x) (hy : b.eval ρ = .fin y) :
    (Expr.add [a, b]).eval ρ = .fin (x + y) := by
  simp [Expr.eval, Expr.evalL, hx, hy, V.add]

theorem eval_mul2 {ρ : Val} {a b : Expr} {x y : Int} (hx : a.eval ρ = .fin x) (hy : b.eval ρ = .fin y) :
    (Expr.mul [a, b]).eval ρ = .fin (x * y) := by
  simp [Expr.eval, Expr.evalL, hx, hy, V.mul]

theorem polyVal_mem {ρ : Val} {gens : List String} {D : Poly} {n : Int} (h : polyVal ρ gens D = some n) :
    ∀ t ∈ D, ∃ m, t.2.eval ρ = .fin m := by
  induction D generalizing n with
  | nil => simp
  | cons t r ih =>
    obtain ⟨es, c⟩ := t
    simp only [polyVal] at h
    split at h
    · rename_i m k hc hr
      intro u hu
      rcases List.mem_cons.1 hu with rfl | hu
      · exact ⟨m, hc⟩
      · exact ih hr u hu
    · simp at h

theorem leadingTerm_mem (D : Poly) (h : D ≠ []) : leadingTerm D ∈ D := by
  cases D with
  | nil => exact absurd rfl h
  | cons t r =>
    show r.foldl _ t ∈ t :: r
    clear h
    induction r generalizing t with
    | nil => simp
    | cons u r ih =>
      simp only [List.foldl_cons]
      split
      · exact List.mem_cons_of_mem _ (ih u)
      · have := ih t
        simp only [List.mem_cons] at this ⊢
        rcases this with h | h
        · exact Or.inl h
        · exact Or.inr (Or.inr h)

theorem buildTerm_val {ρ : Val} (ss : List String) (es : List Nat) (c : Expr) (n : Int) (hc : c.eval ρ = .fin n) :
    (buildTerm ss es c).eval ρ = .fin (n * monoVal ρ ss es) := by
  induction ss generalizing es c n with
  | nil => simp [buildTerm, monoVal, hc]
  | cons s ss ih =>
    cases es with
    | nil => simp [buildTerm, monoVal, hc]
    | cons e es =>
      simp only [buildTerm, monoVal]
      by_cases he : e > 0
      · rw [if_pos he]
        have h1 : (Expr.mul [c, .pow (.sym s) (.int e)]).eval ρ = .fin (n * ρ.sym s ^ e) := by
          refine eval_mul2 hc ?_
          simp only [Expr.eval]
          rfl
        rw [ih es _ _ h1, Int.mul_assoc]
      · rw [if_neg he, ih es c n hc]
        have : e = 0 := by omega
        subst this
        simp

/-- the loop invariant: quotient, remainder and dividend have values and add up to the offset -/
def DivInv (ρ : Val) (v w : Int) (s : DivSt) : Prop :=
  ∃ a b c, s.q.eval ρ = .fin a ∧ s.r.eval ρ = .fin b ∧ s.d.eval ρ = .fin c ∧ a * w + b + c = v

theorem divStep_inv (E : PolyEngine) (ρ : Val) (hE : E.Sound ρ) (symbols : List String) (stride : Expr) (w : Int)
    (hw : stride.eval ρ = .fin w) (ps : Poly) (k : Int) (hk : (leadingTerm ps).2.eval ρ = .fin k) (hk0 : k ≠ 0) (v : Int)
    (s s' : DivSt) (hs : DivInv ρ v w s) (h : divStep E symbols stride ps s = some (.ok s')) : DivInv ρ v w s' := by
  obtain ⟨a, b, c, ha, hb, hc, hv⟩ := hs
  simp only [divStep] at h
  split at h
  · simp at h
  · rename_i pd hpd
    split at h
    · simp at h
    · rename_i hne
      have hpv := hE.poly_val _ _ _ _ hpd hc
      have hcd : ∃ m, (leadingTerm pd).2.eval ρ = .fin m := by
        by_cases hp : pd = []
        · subst hp; exact absurd ⟨rfl, rfl⟩ hne
        · exact polyVal_mem hpv _ (leadingTerm_mem pd hp)
      obtain ⟨m, hm⟩ := hcd
      have hrem : DivInv ρ v w ⟨s.q, .add [s.r, buildTerm symbols (leadingTerm pd).1 (leadingTerm pd).2],
          E.expand (ssub s.d (buildTerm symbols (leadingTerm pd).1 (leadingTerm pd).2))⟩ := by
        have ht := buildTerm_val symbols (leadingTerm pd).1 _ m hm
        refine ⟨a, _, _, ha, eval_add2 hb ht, hE.expand_val _ _ (eval_ssub hc ht), ?_⟩
        omega
      split at h
      · simp at h
      · simp only [Option.some.injEq, Res.ok.injEq] at h
        subst h; exact hrem
      · rename_i diff _
        split at h
        · simp at h
        · simp at h
        · rename_i cq hcq
          have hq := div_value ρ _ _ _ _ _ hm hk hk0 hcq
          split at h
          · simp only [Option.some.injEq, Res.ok.injEq] at h
            subst h; exact hrem
          · simp only [Option.some.injEq, Res.ok.injEq] at h
            subst h
            have ht := buildTerm_val symbols diff _ _ hq
            refine ⟨_, b, _, eval_add2 ha ht, hb, hE.expand_val _ _ (eval_ssub hc (eval_mul2 ht hw)), ?_⟩
            rw [Int.add_mul]; omega

theorem divLoop_inv (E : PolyEngine) (ρ : Val) (hE : E.Sound ρ) (symbols : List String) (stride : Expr) (w : Int)
    (hw : stride.eval ρ = .fin w) (ps : Poly) (k : Int) (hk : (leadingTerm ps).2.eval ρ = .fin k) (hk0 : k ≠ 0) (v : Int)
    (n : Nat) (s s' : DivSt) (hs : DivInv ρ v w s) (h : divLoop E symbols stride ps n s = .ok s') : DivInv ρ v w s' := by
  induction n generalizing s with
  | zero => simp only [divLoop, Res.ok.injEq] at h; subst h; exact hs
  | succ n ih =>
    simp only [divLoop] at h
    split at h
    · simp only [Res.ok.injEq] at h; subst h; exact hs
    · split at h
      · simp only [Res.ok.injEq] at h; subst h; exact hs
      · rename_i r hr
        obtain ⟨s1, hs1, h1⟩ := Res.bind_ok h
        subst hs1
        exact ih s1 (divStep_inv E ρ hE symbols stride w hw ps k hk hk0 v s s1 hs hr) h1

/-- **C06.** Whenever `polynomial_div` returns `(q, r)`, in every valuation in which dividend and divisor have values
`v` and `w` (and the leading coefficient of the divisor is not zero), quotient and remainder have values with
`v = q * w + r`: for every dividend, divisor, number of terms, order of the symbols, and also when the iteration budget of 100
runs out.  In the fallback (divisor not a polynomial) the quotient must have a value. -/
theorem polynomial_div_identity (E : PolyEngine) (ρ : Val) (hE : E.Sound ρ) (symbols : List String)
    (pick : Expr → Expr → Expr) (offset stride q r : Expr) (v w : Int) (hv : offset.eval ρ = .fin v)
    (hw : stride.eval ρ = .fin w) (h : polynomialDiv E symbols pick offset stride = .ok (q, r))
    (hlead : ∀ ps, E.poly stride symbols = some ps → ∃ k, (leadingTerm ps).2.eval ρ = .fin k ∧ k ≠ 0)
    (hfall : E.poly stride symbols = none → ∃ n, (pick offset stride).eval ρ = .fin n) :
    ∃ a b, q.eval ρ = .fin a ∧ r.eval ρ = .fin b ∧ v = a * w + b := by
  simp only [polynomialDiv] at h
  split at h
  · rename_i h0
    simp only [Res.ok.injEq, Prod.mk.injEq] at h
    obtain ⟨rfl, rfl⟩ := h
    subst h0
    simp only [Expr.eval, V.fin.injEq] at hv
    exact ⟨0, 0, rfl, rfl, by omega⟩
  · split at h
    · rename_i hn
      simp only [Res.ok.injEq, divFallback, Prod.mk.injEq] at h
      obtain ⟨rfl, rfl⟩ := h
      obtain ⟨n, hn⟩ := hfall hn
      exact ⟨n, _, hn, hE.expand_val _ _ (eval_ssub hv (eval_mul2 hn hw)), by omega⟩
    · rename_i ps hps
      obtain ⟨k, hk, hk0⟩ := hlead ps hps
      obtain ⟨s, hs, h1⟩ := Res.bind_ok h
      simp only [Res.ok.injEq, Prod.mk.injEq] at h1
      obtain ⟨rfl, rfl⟩ := h1
      have h0 : DivInv ρ v w ⟨.int 0, .int 0, offset⟩ := ⟨0, 0, v, rfl, rfl, hv, by omega⟩
      obtain ⟨a, b, c, ha, hb, hc, he⟩ := divLoop_inv E ρ hE symbols stride w hw ps k hk hk0 v 100 _ _ h0 hs
      exact ⟨a, _, ha, hE.expand_val _ _ (eval_add2 hb hc), by omega⟩

/-! ### affine coefficients -/

/-- value of an affine form: `Σ coeff_s * s + constant` -/
def affineVal (ρ : Val) (symbols : List String) (f : String → Int) : Int :=
  (symbols.map fun s => f s * ρ.sym s).sum + f constName

theorem pickSymbol_zero (ss : List String) (es : List Nat) (cur : String) (h : es.sum = 0) : pickSymbol ss es cur = cur := by
  induction ss generalizing es cur with
  | nil => rfl
  | cons s ss ih =>
    cases es with
    | nil => rfl
    | cons e es =>
      simp only [List.sum_cons] at h
      simp only [pickSymbol]
      rw [if_neg (by omega), ih es cur (by omega)]

theorem monoVal_zero (ρ : Val) (ss : List String) (es : List Nat) (h : es.sum = 0) : monoVal ρ ss es = 1 := by
  induction ss generalizing es with
  | nil => rfl
  | cons s ss ih =>
    cases es with
    | nil => rfl
    | cons e es =>
      simp only [List.sum_cons] at h
      have : e = 0 := by omega
      subst this
      simp only [monoVal]
      rw [ih es (by omega)]; simp

/-- A vector of total degree one selects the symbol whose value is the monomial. -/
theorem pickSymbol_one (ρ : Val) (ss : List String) (es : List Nat) (cur : String) (hlen : es.length = ss.length)
    (h : es.sum = 1) : pickSymbol ss es cur ∈ ss ∧ monoVal ρ ss es = ρ.sym (pickSymbol ss es cur) := by
  induction ss generalizing es cur with
  | nil => simp at hlen; subst hlen; simp at h
  | cons s ss ih =>
    cases es with
    | nil => simp at hlen
    | cons e es =>
      simp only [List.sum_cons] at h
      simp only [List.length_cons, Nat.add_right_cancel_iff] at hlen
      simp only [pickSymbol, monoVal]
      by_cases he : e > 0
      · have h1 : e = 1 := by omega
        subst h1
        rw [if_pos he, pickSymbol_zero ss es s (by omega), monoVal_zero ρ ss es (by omega)]
        simp
      · have h0 : e = 0 := by omega
        subst h0
        obtain ⟨h1, h2⟩ := ih es cur hlen (by omega)
        simp only [Nat.lt_irrefl, gt_iff_lt, if_false, Int.pow_zero, Int.one_mul]
        exact ⟨List.mem_cons_of_mem _ h1, h2⟩

theorem affineVal_bump (ρ : Val) (symbols : List String) (hnd : symbols.Nodup) (hc : constName ∉ symbols) (f : String → Int)
    (s : String) (n : Int) :
    affineVal ρ symbols (fun x => if x = s then f s + n else f x) =
      affineVal ρ symbols f + (if s ∈ symbols then n * ρ.sym s else 0) + (if s = constName then n else 0) := by
  have hsum : (symbols.map fun x => (if x = s then f s + n else f x) * ρ.sym x).sum =
      (symbols.map fun x => f x * ρ.sym x).sum + (if s ∈ symbols then n * ρ.sym s else 0) := by
    clear hc
    induction symbols with
    | nil => simp
    | cons y r ih =>
      simp only [List.nodup_cons] at hnd
      simp only [List.map_cons, List.sum_cons, ih hnd.2, List.mem_cons]
      by_cases hy : y = s
      · subst hy
        simp [hnd.1, Int.add_mul]; omega
      · have : ¬ s = y := fun h => hy h.symm
        simp only [hy, this, if_false, false_or]; omega
  unfold affineVal
  rw [hsum]
  by_cases h : s = constName
  · subst h; simp [hc]; omega
  · have : ¬ constName = s := fun e => h e.symm
    simp [h, this]; omega

theorem affine_go_val (ρ : Val) (symbols : List String) (hnd : symbols.Nodup) (hc : constName ∉ symbols) (D : Poly)
    (hlen : ∀ t ∈ D, t.1.length = symbols.length) (f g : String → Expr) (fv : String → Int)
    (hf : ∀ x, (f x).eval ρ = .fin (fv x)) (n : Int) (hD : polyVal ρ symbols D = some n)
    (h : affineCoefficients.go symbols D f = some g) :
    ∃ gv : String → Int, (∀ x, (g x).eval ρ = .fin (gv x)) ∧ affineVal ρ symbols gv = affineVal ρ symbols fv + n := by
  induction D generalizing f fv n with
  | nil =>
    simp only [affineCoefficients.go, Option.some.injEq] at h
    simp only [polyVal, Option.some.injEq] at hD
    subst h; subst hD
    exact ⟨fv, hf, by simp⟩
  | cons t r ih =>
    obtain ⟨es, c⟩ := t
    simp only [affineCoefficients.go] at h
    split at h
    · simp at h
    · rename_i hdeg
      simp only [polyVal] at hD
      split at hD
      · rename_i m k hcv hr
        simp only [Option.some.injEq] at hD
        subst hD
        obtain ⟨gv, h1, h2⟩ := ih (fun t ht => hlen t (List.mem_cons_of_mem _ ht)) _
          (fun x => if x = pickSymbol symbols es constName then fv (pickSymbol symbols es constName) + m else fv x)
          (fun x => by
            split
            · exact eval_add2 (hf _) hcv
            · exact hf x) k hr h
        refine ⟨gv, h1, ?_⟩
        rw [h2, affineVal_bump ρ symbols hnd hc]
        have hcase : es.sum = 0 ∨ es.sum = 1 := by omega
        rcases hcase with h0 | h1
        · rw [pickSymbol_zero symbols es _ h0, monoVal_zero ρ symbols es h0]
          simp [hc]; omega
        · obtain ⟨hm, hv⟩ := pickSymbol_one ρ symbols es constName (hlen (es, c) (by simp)) h1
          have hne : pickSymbol symbols es constName ≠ constName := fun e => hc (e ▸ hm)
          rw [hv]; simp [hm, hne]; omega
      · simp at hD

/-- **C10 (partial).** When the symbols are given in the order of the polynomial's generators (always so for a single
symbol), the returned coefficients reconstruct the value: `e = Σ coeff_s * s + coeff_const`, in every valuation in
which `e` has a value.  Missing: other orders of two or more symbols, for which the claim is false
(`affine_coefficients_order_violated`). -/
theorem affine_coefficients_partial (E : PolyEngine) (ρ : Val) (hE : E.Sound ρ) (e : Expr) (symbols : List String)
    (hnd : symbols.Nodup) (hc : constName ∉ symbols) (D : Poly) (hp : E.poly e symbols = some D)
    (hlen : ∀ t ∈ D, t.1.length = symbols.length) (A : Affine) (h : affineCoefficients D symbols = some A) (v : Int)
    (hv : e.eval ρ = .fin v) :
    ∃ cv : String → Int, (∀ x, (A.at' x).eval ρ = .fin (cv x)) ∧
      v = (symbols.map fun s => cv s * ρ.sym s).sum + cv constName := by
  have hD := hE.poly_val _ _ _ _ hp hv
  unfold affineCoefficients at h
  split at h
  · rename_i g hg
    simp only [Option.some.injEq] at h
    subst h
    obtain ⟨gv, h1, h2⟩ := affine_go_val ρ symbols hnd hc D hlen _ g (fun _ => 0) (fun _ => rfl) v hD hg
    refine ⟨gv, h1, ?_⟩
    have h0 : affineVal ρ symbols (fun _ => 0) = 0 := by
      simp [affineVal]
    rw [h0] at h2
    unfold affineVal at h2
    omega
  · simp at h

/-- **C10 (rejection).** A monomial of degree two or more is rejected, and only that is. -/
theorem affine_coefficients_none_iff (D : Poly) (symbols : List String) :
    affineCoefficients D symbols = none ↔ ∃ t ∈ D, t.1.sum > 1 := by
  have go : ∀ (D : Poly) f, affineCoefficients.go symbols D f = none ↔ ∃ t ∈ D, t.1.sum > 1 := by
    intro D
    induction D with
    | nil => simp [affineCoefficients.go]
    | cons t r ih =>
      intro f
      obtain ⟨es, c⟩ := t
      simp only [affineCoefficients.go]
      split
      · rename_i h; simp only [true_iff]; exact ⟨(es, c), by simp, h⟩
      · rename_i h
        rw [ih]
        constructor
        · rintro ⟨t, ht, h1⟩; exact ⟨t, List.mem_cons_of_mem _ ht, h1⟩
        · rintro ⟨t, ht, h1⟩
          rcases List.mem_cons.1 ht with rfl | ht
          · exact absurd h1 h
          · exact ⟨t, ht, h1⟩
  unfold affineCoefficients
  split
  · rename_i g hg
    simp only [false_iff, reduceCtorEq]
    rw [← go D (fun _ => .int 0), hg]; simp
  · rename_i hg
    simp only [true_iff]
    exact (go D _).1 hg

/-- **C10 is false for other symbol orders**: generators are sorted, `symbols` is not.  For `2*i + 3*j` with generators
`i, j` and symbols `j, i` the coefficients of `i` and `j` are exchanged. -/
theorem affine_coefficients_order_violated : ∃ (ρ : Val) (D : Poly) (A : Affine) (v : Int),
    polyVal ρ ["i", "j"] D = some v ∧ affineCoefficients D ["j", "i"] = some A ∧
    (∃ ci cj cc : Int, (A.at' "i").eval ρ = .fin ci ∧ (A.at' "j").eval ρ = .fin cj ∧ (A.at' constName).eval ρ = .fin cc ∧
      ci * ρ.sym "i" + cj * ρ.sym "j" + cc ≠ v) := by
  refine ⟨⟨fun x => if x = "i" then 1 else 0, fun _ _ => 0⟩, [([1, 0], .int 2), ([0, 1], .int 3)], _, 2, rfl, rfl, 3, 2, 0, ?_⟩
  decide

theorem inverse_of_affine (ρ : Val) (x : String) (hx : x ≠ constName) (D : Poly) (A : Affine)
    (hA : affineCoefficients D [x] = some A) (inv : Expr) (h : affineInverse A x = .ok inv) (a b k : Int)
    (ha : (A.at' x).eval ρ = .fin a) (hb : (A.at' constName).eval ρ = .fin b) (ha0 : a ≠ 0)
    (hy : ρ.sym x = a * k + b) : inv.eval ρ = .fin k := by
  have hkeys : A.keys = [x, constName] := by
    unfold affineCoefficients at hA
    split at hA
    · simp only [Option.some.injEq] at hA; subst hA; rfl
    · simp at hA
  simp only [affineInverse] at h
  split at h
  · simp at h
  · have hf : (A.keys.filter (· ≠ x)) = [constName] := by
      rw [hkeys]; simp [List.filter, Ne.symm hx]
    rw [hf] at h
    simp only [List.foldl_cons, List.foldl_nil] at h
    have h1 : (Expr.add [.sym x, .mul [.int (-1), A.at' constName]]).eval ρ = .fin (a * k) := by
      have := eval_ssub (ρ := ρ) (a := .sym x) (b := A.at' constName) (x := ρ.sym x) (y := b) rfl hb
      unfold ssub at this
      rw [this, hy]; congr 1; omega
    rw [div_value ρ _ _ _ _ _ h1 ha ha0 h, Int.mul_tdiv_cancel_left _ ha0]

/-- **C10 (inverse).** If `inverse(e, x)` returns an expression then evaluating it at `x := y` gives back `k` whenever
`e` evaluated at `x := k` is `y`; for all other symbols' values, all `k`, when the coefficient of `x` is not zero.
(`hfree`: SymEngine coefficients do not contain the generator.) -/
theorem inverse_correct (E : PolyEngine) (ρ : Val) (e : Expr) (x : String) (hx : x ≠ constName) (inv : Expr)
    (h : symInverse E e x = .ok inv) (k y : Int) (hE : E.Sound (ρ.set x k)) (hy : e.eval (ρ.set x k) = .fin y)
    (hlen : ∀ D, E.poly e [x] = some D → ∀ t ∈ D, t.1.length = 1)
    (hfree : ∀ D A, E.poly e [x] = some D → affineCoefficients D [x] = some A →
      (A.at' x).uses x = false ∧ (A.at' constName).uses x = false ∧ (A.at' x).eval (ρ.set x k) ≠ .fin 0) :
    inv.eval (ρ.set x y) = .fin k := by
  unfold symInverse at h
  split at h
  · simp at h
  · rename_i D hD
    split at h
    · simp at h
    · rename_i A hA
      obtain ⟨cv, hcv, hval⟩ := affine_coefficients_partial E (ρ.set x k) hE e [x] (by simp)
        (by simpa using Ne.symm hx) D hD (by simpa using hlen D hD) A hA y hy
      obtain ⟨f1, f2, f3⟩ := hfree D A hD hA
      have g : ∀ e' : Expr, e'.uses x = false → e'.eval (ρ.set x y) = e'.eval (ρ.set x k) := by
        intro e' he'; rw [eval_of_not_uses e' x he', eval_of_not_uses e' x he']
      refine inverse_of_affine (ρ.set x y) x hx D A hA inv h (cv x) (cv constName) k ?_ ?_ ?_ ?_
      · rw [g _ f1, hcv]
      · rw [g _ f2, hcv]
      · intro h0; exact f3 (by rw [hcv, h0])
      · simp [Val.set] at hval ⊢; omega

/-- **C10 (inverse of several symbols is wrong)**: the other coefficients are not multiplied with their symbols:
for `i + j`, "inverse in i" is `i - 1`, not `i - j`. -/
theorem affine_inverse_multi_violated : ∃ (ρ : Val) (A : Affine) (inv : Expr),
    affineCoefficients [([1, 0], .int 1), ([0, 1], .int 1)] ["i", "j"] = some A ∧ affineInverse A "i" = .ok inv ∧
    ρ.sym "i" = 2 + ρ.sym "j" ∧ inv.eval ρ ≠ .fin 2 := by
  refine ⟨⟨fun x => if x = "i" then 7 else 5, fun _ _ => 0⟩, _, _, rfl, rfl, by decide, by decide⟩

/-! ### hypotheses are met -/

/-- an engine that knows the polynomials `2*i+1` and `2` over the generator `i` and keeps everything else raw -/
def exPoly : PolyEngine := ⟨fun e g => if g ≠ ["i"] then none
  else if e = .add [.mul [.int 2, .sym "i"], .int 1] then some [([1], .int 2), ([0], .int 1)]
  else if e = .int 2 then some [([0], .int 2)] else none, id, id⟩

theorem exPoly_sound (ρ : Val) : exPoly.Sound ρ := by
  constructor
  · intro e n h; exact h
  · intro e gens D n h hv
    simp only [exPoly] at h
    split at h
    · simp at h
    · rename_i hg
      have hg : gens = ["i"] := by simpa using hg
      subst hg
      split at h
      · rename_i he
        subst he
        simp only [Option.some.injEq] at h
        subst h
        simp [Expr.eval, Expr.evalL, V.add, V.mul] at hv
        simp [polyVal, Expr.eval, monoVal, hv]
      · split at h
        · rename_i he
          subst he
          simp only [Option.some.injEq] at h
          subst h
          simp [Expr.eval] at hv
          simp [polyVal, Expr.eval, monoVal, hv]
        · simp at h

/-- `(2*i+1) / 2`: the theorem applies for every value of `i`. -/
example (ρ : Val) : ∃ q r a b, polynomialDiv exPoly ["i"] (fun a _ => a) (.add [.mul [.int 2, .sym "i"], .int 1]) (.int 2) = .ok (q, r) ∧
    q.eval ρ = .fin a ∧ r.eval ρ = .fin b ∧ 2 * ρ.sym "i" + 1 = a * 2 + b := by
  obtain ⟨q, r, h⟩ : ∃ q r, polynomialDiv exPoly ["i"] (fun a _ => a) (.add [.mul [.int 2, .sym "i"], .int 1]) (.int 2) = .ok (q, r) :=
    ⟨_, _, rfl⟩
  obtain ⟨a, b, h1, h2, h3⟩ := polynomial_div_identity exPoly ρ (exPoly_sound ρ) ["i"] (fun a _ => a) _ (.int 2) q r
    (2 * ρ.sym "i" + 1) 2 (by simp [Expr.eval, Expr.evalL, V.add, V.mul]) rfl h
    (fun ps hps => by
      simp [exPoly] at hps; subst hps; exact ⟨2, rfl, by decide⟩)
    (fun hn => by simp [exPoly] at hn)
  exact ⟨q, r, a, b, h, h1, h2, h3⟩

/-- the inverse of `2*i+1` exists and the theorem gives its value -/
example (ρ : Val) (k : Int) : ∃ inv, symInverse exPoly (.add [.mul [.int 2, .sym "i"], .int 1]) "i" = .ok inv ∧
    inv.eval (ρ.set "i" (2 * k + 1)) = .fin k := by
  obtain ⟨inv, h⟩ : ∃ inv, symInverse exPoly (.add [.mul [.int 2, .sym "i"], .int 1]) "i" = .ok inv := ⟨_, rfl⟩
  refine ⟨inv, h, inverse_correct exPoly ρ _ "i" (by decide) inv h k (2 * k + 1) (exPoly_sound _) ?_ ?_ ?_⟩
  · simp [Expr.eval, Expr.evalL, V.add, V.mul, Val.set]
  · intro D hD; simp [exPoly] at hD; subst hD; simp
  · intro D A hD hA
    simp [exPoly] at hD; subst hD
    have : A = _ := (Option.some.inj hA).symm
    subst this
    exact ⟨rfl, rfl, by simp [pickSymbol, constName, Expr.eval, Expr.evalL, V.add]⟩

end Docc.Sym
