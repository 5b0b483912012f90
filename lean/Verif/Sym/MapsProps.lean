import Verif.Sym.Maps
import Verif.Sym.DelinProps

/-
C04: `maps::intersects` never hides a collision.
-/
namespace Docc.Sym

/-! ### specification -/

/-- Two subscripts address the same element: all dimensions have equal integer values. -/
def Collide (e1 e2 : List Expr) (ρ ρ' : Val) : Prop :=
  List.Forall₂ (fun a b => ∃ v, a.eval ρ = .fin v ∧ b.eval ρ' = .fin v) e1 e2

/-- the meaning of `floord` -/
def Val.IslFn (ρ : Val) : Prop := ∀ a b, b ≠ 0 → ρ.fn "floord" [a, b] = Int.fdiv a b

/-- The pairs of points in the composition of the three ISL maps. -/
structure Query.Alias (q : Query) (ρ ρ' : Val) : Prop where
  params : ∀ x ∈ q.params, ρ.sym x = ρ'.sym x
  cons1 : ∀ c ∈ q.cons1, c.1.isl.eval ρ ≤ c.2.isl.eval ρ
  cons2 : ∀ c ∈ q.cons2, c.1.isl.eval ρ' ≤ c.2.isl.eval ρ'
  steps1 : ∀ s ∈ q.steps1, ∃ k, ρ.sym s.1 = s.2.1 + k * s.2.2
  steps2 : ∀ s ∈ q.steps2, ∃ k, ρ'.sym s.1 = s.2.1 + k * s.2.2
  same : Collide (q.e1.map Expr.isl) (q.e2.map Expr.isl) ρ ρ'
  differ : ∀ x, q.differ = some x → ρ.sym x ≠ ρ'.sym x

/-- What is assumed of ISL: if it says that the map is empty, it has no points. -/
def IslSound (isl : Query → Option Bool) : Prop :=
  ∀ q, isl q = some true → ∀ ρ ρ' : Val, ρ.IslFn → ρ'.IslFn → ¬ q.Alias ρ ρ'

/-! ### lemmas -/

theorem Expr.islL_eq (l : List Expr) : Expr.islL l = l.map Expr.isl := by
  induction l with
  | nil => rfl
  | cons a r ih => simp [Expr.islL, ih]

theorem fnsL_nil {l : List Expr} (h : Expr.fnsL l = []) : ∀ e ∈ l, e.fns = [] := by
  intro e he
  cases hf : e.fns with
  | nil => rfl
  | cons p r =>
    have := Expr.fns_sub he p (by rw [hf]; exact List.mem_cons_self ..)
    rw [h] at this; simp at this

/-- without functions the printed expression is the expression -/
theorem Expr.isl_eq (e : Expr) (h : e.fns = []) : e.isl = e := by
  have key : ∀ l : List Expr, (∀ e ∈ l, e.fns = [] → e.isl = e) → Expr.fnsL l = [] → Expr.islL l = l := by
    intro l ih h
    rw [Expr.islL_eq]
    conv => rhs; rw [← List.map_id l]
    exact List.map_congr_left fun e he => ih e he (fnsL_nil h e he)
  induction e using Expr.induct with
  | hint | hsym | hinf | hnan => simp [Expr.isl]
  | hadd l ih | hmul l ih | hmax l ih | hmin l ih =>
    rw [Expr.isl, key l ih (by simpa [Expr.fns] using h)]
  | hpow b e ihb ihe =>
    simp only [Expr.fns, List.append_eq_nil_iff] at h
    rw [Expr.isl, ihb h.1, ihe h.2]
  | hfn f l ih => simp [Expr.fns] at h

/-- without functions the interpretation of the functions does not matter -/
theorem eval_fn_irrel (e : Expr) (h : e.fns = []) (ρ ρ' : Val) (hs : ρ.sym = ρ'.sym) : e.eval ρ = e.eval ρ' := by
  have key : ∀ l : List Expr, (∀ e ∈ l, e.fns = [] → e.eval ρ = e.eval ρ') → Expr.fnsL l = [] → Expr.evalL ρ l = Expr.evalL ρ' l := by
    intro l ih h
    rw [Expr.evalL_eq_map, Expr.evalL_eq_map]
    exact List.map_congr_left fun e he => ih e he (fnsL_nil h e he)
  induction e using Expr.induct with
  | hint | hinf | hnan => simp [Expr.eval]
  | hsym x => simp [Expr.eval, hs]
  | hadd l ih | hmul l ih | hmax l ih | hmin l ih =>
    rw [Expr.eval, Expr.eval, key l ih (by simpa [Expr.fns] using h)]
  | hpow b e ihb ihe =>
    simp only [Expr.fns, List.append_eq_nil_iff] at h
    rw [Expr.eval, Expr.eval, ihb h.1, ihe h.2]
  | hfn f l ih => simp [Expr.fns] at h

/-- the bounds of a symbol hold as constraints -/
theorem boundCons_hold {A : Assums} {ρ : Val} (hA : A.Hold ρ) {x : String} {a : Assum} (ha : A x = some a) :
    ∀ c ∈ boundCons x a, c.1.eval ρ ≤ c.2.eval ρ := by
  obtain ⟨⟨hl, hu⟩, _⟩ := hA x a ha
  intro c hc
  unfold boundCons at hc
  rw [List.mem_filter] at hc
  rcases List.mem_append.1 hc.1 with h | h
  · split at h
    · simp at h
    · rename_i l he
      obtain ⟨e, he', rfl⟩ := List.mem_map.1 h
      rw [he, Expr.eval, Expr.evalL_eq_map] at hu
      simp only [Expr.eval]
      cases l with
      | nil => simp at he'
      | cons b r =>
        simp only [List.map_cons] at hu
        have hn := (V.ne_nan_of_le hu).2
        have := foldl_min_le (r.map (Expr.eval ρ)) (b.eval ρ) hn
        rcases List.mem_cons.1 he' with rfl | h
        · exact V.le_trans hu this.1
        · exact V.le_trans hu (this.2 _ (List.mem_map_of_mem h))
    · simp only [List.mem_singleton] at h; subst h; simpa [Expr.eval] using hu
  · split at h
    · simp at h
    · rename_i l he
      obtain ⟨e, he', rfl⟩ := List.mem_map.1 h
      rw [he, Expr.eval, Expr.evalL_eq_map] at hl
      simp only [Expr.eval]
      cases l with
      | nil => simp at he'
      | cons b r =>
        simp only [List.map_cons] at hl
        have hn := (V.ne_nan_of_le hl).1
        have := le_foldl_max (r.map (Expr.eval ρ)) (b.eval ρ) hn
        rcases List.mem_cons.1 he' with rfl | h
        · exact V.le_trans this.1 hl
        · exact V.le_trans (this.2 _ (List.mem_map_of_mem h)) hl
    · simp only [List.mem_singleton] at h; subst h; simpa [Expr.eval] using hl

/-- the two sides of a constraint: the symbol and a part of its bound -/
theorem boundCons_parts {x : String} {a : Assum} {c : Expr × Expr} (h : c ∈ boundCons x a) :
    (∀ y ∈ c.1.atoms ++ c.2.atoms, y = x ∨ y ∈ a.lower.atoms ++ a.upper.atoms) ∧
    (a.lower.fns = [] → a.upper.fns = [] → c.1.fns = [] ∧ c.2.fns = []) := by
  unfold boundCons at h
  rw [List.mem_filter] at h
  rcases List.mem_append.1 h.1 with h | h
  · split at h
    · simp at h
    · rename_i l he
      obtain ⟨e, he', rfl⟩ := List.mem_map.1 h
      refine ⟨fun y hy => ?_, fun _ hf => ⟨by simp [Expr.fns], fnsL_nil (by rw [he] at hf; simpa [Expr.fns] using hf) e he'⟩⟩
      rcases List.mem_append.1 hy with hy | hy
      · simp [Expr.atoms] at hy; exact .inl hy
      · exact .inr (List.mem_append_right _ (by rw [he, Expr.atoms]; exact (Expr.mem_atomsL y l).2 ⟨e, he', hy⟩))
    · simp only [List.mem_singleton] at h; subst h
      refine ⟨fun y hy => ?_, fun _ hf => ⟨by simp [Expr.fns], hf⟩⟩
      rcases List.mem_append.1 hy with hy | hy
      · simp [Expr.atoms] at hy; exact .inl hy
      · exact .inr (List.mem_append_right _ hy)
  · split at h
    · simp at h
    · rename_i l he
      obtain ⟨e, he', rfl⟩ := List.mem_map.1 h
      refine ⟨fun y hy => ?_, fun hf _ => ⟨fnsL_nil (by rw [he] at hf; simpa [Expr.fns] using hf) e he', by simp [Expr.fns]⟩⟩
      rcases List.mem_append.1 hy with hy | hy
      · exact .inr (List.mem_append_left _ (by rw [he, Expr.atoms]; exact (Expr.mem_atomsL y l).2 ⟨e, he', hy⟩))
      · simp [Expr.atoms] at hy; exact .inl hy
    · simp only [List.mem_singleton] at h; subst h
      refine ⟨fun y hy => ?_, fun hf _ => ⟨hf, by simp [Expr.fns]⟩⟩
      rcases List.mem_append.1 hy with hy | hy
      · exact .inr (List.mem_append_left _ hy)
      · simp [Expr.atoms] at hy; exact .inl hy

/-- every generated constraint is a bound of a symbol: one of the given ones or one that occurs in a bound -/
theorem genCons_mem (A : Assums) (Q : String → Prop) (hQ : ∀ x a, A x = some a → ∀ y ∈ a.lower.atoms ++ a.upper.atoms, Q y)
    (fuel : Nat) (l seen : List String) (hl : ∀ x ∈ l, Q x) :
    ∀ c ∈ genCons A fuel l seen, ∃ x a, A x = some a ∧ c ∈ boundCons x a ∧ Q x := by
  induction fuel generalizing l seen with
  | zero => simp [genCons]
  | succ n ih =>
    cases l with
    | nil => simp [genCons]
    | cons x r =>
      intro c hc
      have hr : ∀ x ∈ r, Q x := fun y hy => hl y (List.mem_cons_of_mem _ hy)
      rw [genCons] at hc
      split at hc
      · exact ih _ _ hr c hc
      · rename_i a ha
        split at hc
        · exact ih _ _ hr c hc
        · rcases List.mem_append.1 hc with h | h
          · exact ⟨x, a, ha, h, hl x (List.mem_cons_self ..)⟩
          · refine ih _ _ ?_ c h
            intro y hy
            rcases List.mem_append.1 hy with hy | hy
            · obtain ⟨d, hd, hy⟩ := List.mem_flatMap.1 hy
              rcases (boundCons_parts hd).1 y hy with rfl | hy
              · exact hl _ (List.mem_cons_self ..)
              · exact hQ x a ha y hy
            · exact hr y hy

/-! ### what the tests of `intersects` leave open -/

/-- a dimension with the map function `x + c` and an integer start takes only values `start + k * c` -/
def StepsHold (A : Assums) (ρ : Val) : Prop := ∀ x a c b, A x = some a →
  a.map = some (.add [.sym x, .int c]) ∨ a.map = some (.add [.int c, .sym x]) → a.lower = .int b → ∃ k, ρ.sym x = b + k * c

/-- The two sets of assumptions fit together: bounds contain only constants and no functions, and the two accesses agree on the
lower bounds. -/
structure MapsOk (i : String) (A1 A2 : Assums) : Prop where
  const : ∀ x a, A1 x = some a ∨ A2 x = some a → ∀ y ∈ a.lower.atoms ++ a.upper.atoms, y ≠ i ∧ isConst A1 y = true ∧ isConst A2 y = true
  fns : ∀ x a, A1 x = some a ∨ A2 x = some a → a.lower.fns = [] ∧ a.upper.fns = []
  start : ∀ x a1 a2, A1 x = some a1 → A2 x = some a2 → a1.lower = a2.lower

theorem stepOf_hold {A A2 : Assums} {ρ : Val} (h : StepsHold A ρ) (hst : ∀ x a1 a2, A x = some a1 → A2 x = some a2 → a1.lower = a2.lower)
    {x : String} {s : String × Int × Int} (hs : stepOf A A2 x = some s) : ∃ k, ρ.sym s.1 = s.2.1 + k * s.2.2 := by
  unfold stepOf at hs
  split at hs
  · rename_i a a2 ha ha2
    simp only at hs
    split at hs
    · rename_i c b hc hb
      split at hs
      · simp at hs
      · simp only [Option.some.injEq] at hs; subst hs
        have hl : a.lower = .int b := by rw [hst x a a2 ha ha2, hb]
        refine h x a c b ha ?_ hl
        split at hc
        · rename_i y d hm
          split at hc
          · rename_i hy; subst hy
            simp only [Option.some.injEq] at hc; subst hc; exact .inl hm
          · simp at hc
        · rename_i y d hm
          split at hc
          · rename_i hy; subst hy
            simp only [Option.some.injEq] at hc; subst hc; exact .inr hm
          · simp at hc
        · simp at hc
    · simp at hs
  · simp at hs

theorem collide_map {ρ ρ' σ σ' : Val} {d1 d2 : List Expr} (hv : ∀ e : Expr, e.fns = [] → ∀ τ υ : Val,
      τ = σ ∧ υ = ρ ∨ τ = σ' ∧ υ = ρ' → e.isl.eval τ = e.eval υ)
    (hf1 : ∀ e ∈ d1, e.fns = []) (hf2 : ∀ e ∈ d2, e.fns = []) (h : Collide d1 d2 ρ ρ') :
    Collide (d1.map Expr.isl) (d2.map Expr.isl) σ σ' := by
  unfold Collide at h ⊢
  induction h with
  | nil => exact .nil
  | cons hab _ ih =>
    refine .cons ?_ (ih (fun e he => hf1 e (List.mem_cons_of_mem _ he)) fun e he => hf2 e (List.mem_cons_of_mem _ he))
    rw [hv _ (hf1 _ (List.mem_cons_self ..)) σ ρ (.inl ⟨rfl, rfl⟩), hv _ (hf2 _ (List.mem_cons_self ..)) σ' ρ' (.inr ⟨rfl, rfl⟩)]
    exact hab

/-- The ISL question covers every pair of accesses in different iterations. -/
theorem mkQuery_sound {isl : Query → Option Bool} (hI : IslSound isl) {fuel : Nat} {d1 d2 : List Expr} {i : String} {A1 A2 : Assums}
    {q : Query} (hq : mkQuery fuel d1 d2 i A1 A2 = .ok q) (he : isl q = some true) (hM : MapsOk i A1 A2)
    (hf1 : ∀ e ∈ d1, e.fns = []) (hf2 : ∀ e ∈ d2, e.fns = []) (ρ ρ' : Val) (hA1 : A1.Hold ρ) (hA2 : A2.Hold ρ')
    (hS1 : StepsHold A1 ρ) (hS2 : StepsHold A2 ρ') (hc : ∀ x, x ≠ i → isConst A1 x = true → isConst A2 x = true → ρ.sym x = ρ'.sym x)
    (hi : ρ.sym i ≠ ρ'.sym i) : ¬ Collide d1 d2 ρ ρ' := by
  intro hcol
  -- valuations in which `floord` is floor division
  let fn : String → List Int → Int := fun _ l => match l with
    | [a, b] => Int.fdiv a b
    | _ => 0
  have hv : ∀ e : Expr, e.fns = [] → ∀ σ : Val, e.isl.eval ⟨σ.sym, fn⟩ = e.eval σ := fun e h σ => by
    rw [Expr.isl_eq e h]; exact eval_fn_irrel e h _ _ rfl
  refine hI q he ⟨ρ.sym, fn⟩ ⟨ρ'.sym, fn⟩ (fun a b _ => rfl) (fun a b _ => rfl) ?_
  unfold mkQuery at hq
  simp only at hq
  split at hq
  · simp at hq
  simp only [Res.ok.injEq] at hq
  subst hq
  have hcons : ∀ (A : Assums) (σ : Val), A.Hold σ → (∀ x a, A x = some a → A1 x = some a ∨ A2 x = some a) → ∀ l,
      ∀ c ∈ genCons A fuel l [], c.1.isl.eval ⟨σ.sym, fn⟩ ≤ c.2.isl.eval ⟨σ.sym, fn⟩ := by
    intro A σ hA hsub l c hc
    obtain ⟨x, a, ha, hb, _⟩ := genCons_mem A (fun _ => True) (fun _ _ _ _ _ => trivial) fuel l [] (fun _ _ => trivial) c hc
    obtain ⟨f1, f2⟩ := hM.fns x a (hsub x a ha)
    obtain ⟨g1, g2⟩ := (boundCons_parts hb).2 f1 f2
    rw [hv _ g1, hv _ g2]
    exact boundCons_hold hA ha c hb
  constructor
  · intro x hx
    simp only at hx
    rw [List.mem_filter, List.mem_eraseDups, List.mem_append] at hx
    obtain ⟨hx, hnd⟩ := hx
    simp only [decide_eq_true_eq, List.mem_filter, List.mem_eraseDups, not_and] at hnd
    have hgood : ∀ y, y ∈ ((d1 ++ d2).flatMap Expr.atoms).eraseDups ∨ (y ≠ i ∧ isConst A1 y = true ∧ isConst A2 y = true) →
        y = x → ρ.sym x = ρ'.sym x := by
      intro y hy hyx
      subst hyx
      rcases hy with hy | ⟨h1, h2, h3⟩
      · have := hnd (List.mem_eraseDups.1 hy)
        simp only [Bool.not_eq_true', not_or] at this
        exact hc y this.1 (by simpa using this.2.1) (by simpa using this.2.2)
      · exact hc y h1 h2 h3
    rcases hx with hx | hx
    · exact hgood x (.inl (List.mem_eraseDups.2 (by simpa using hx))) rfl
    · obtain ⟨c, hcm, hx⟩ := List.mem_flatMap.1 hx
      have key : ∀ A : Assums, (∀ x a, A x = some a → A1 x = some a ∨ A2 x = some a) →
          c ∈ genCons A fuel ((d1 ++ d2).flatMap Expr.atoms).eraseDups [] → ρ.sym x = ρ'.sym x := by
        intro A hsub hc
        obtain ⟨y, a, ha, hb, hQ⟩ := genCons_mem A (fun y => y ∈ ((d1 ++ d2).flatMap Expr.atoms).eraseDups ∨
          (y ≠ i ∧ isConst A1 y = true ∧ isConst A2 y = true)) (fun x a ha y hy => .inr (hM.const x a (hsub x a ha) y hy)) fuel _ []
          (fun x hx => .inl hx) c hc
        rcases (boundCons_parts hb).1 x hx with h | h
        · exact hgood y hQ h.symm
        · exact hgood x (.inr (hM.const y a (hsub y a ha) x h)) rfl
      rcases List.mem_append.1 hcm with h | h
      · exact key A1 (fun _ _ h => .inl h) h
      · exact key A2 (fun _ _ h => .inr h) h
  · exact hcons A1 ρ hA1 (fun _ _ h => .inl h) _
  · exact hcons A2 ρ' hA2 (fun _ _ h => .inr h) _
  · intro s hs
    obtain ⟨x, _, hx⟩ := List.mem_filterMap.1 hs
    exact stepOf_hold hS1 hM.start hx
  · intro s hs
    obtain ⟨x, _, hx⟩ := List.mem_filterMap.1 hs
    exact stepOf_hold hS2 (fun x a1 a2 h1 h2 => by rw [h1] at h2; simp only [Option.some.injEq] at h2; rw [h2]) hx
  · refine collide_map (ρ := ρ) (ρ' := ρ') (fun e he τ υ h => ?_) hf1 hf2 hcol
    rcases h with ⟨rfl, rfl⟩ | ⟨rfl, rfl⟩ <;> exact hv e he _
  · intro x hx
    simp only at hx
    split at hx
    · simp only [Option.some.injEq] at hx; subst hx; exact hi
    · simp at hx

/-- What the monotonicity test of one dimension leaves open: the bounds it computes have integer values, and a power is a power of
the loop variable. -/
structure MonoOk (D : DEngine) (A : Assums) (i : String) (ρ : Val) (e : Expr) : Prop where
  coeff : ∀ p c, D.P.poly e [i] = some p → affineCoefficients p [i] = some c →
    FnOk (minimum [] A) (maximum [] A) ρ (c.at' i) ∧ ∀ m, symMinimum [] A (c.at' i) = .ok m → ∃ k, m.eval ρ = .fin k
  pow : ∀ y n, e = .pow (.sym y) (.int n) → y = i ∧ ∀ m, symMinimum [] A (.sym i) = .ok m → m.eval ρ ≠ .nan

theorem mapMonotonicAffine_inj (D : DEngine) (hD : D.Sound) (A : Assums) (e : Expr) (i : String) (hi : i ≠ constName)
    (h : mapMonotonicAffine D A e i = true) (ρ ρ' : Val) (hA : A.Hold ρ) (hAf : AssumsFnOk (minimum [] A) (maximum [] A) ρ A)
    (hok : MonoOk D A i ρ e) (hag : ∀ x ∈ e.atoms, x ≠ i → ρ.sym x = ρ'.sym x) (hfn : ρ.fn = ρ'.fn)
    (v : Int) (hv : e.eval ρ = .fin v) (hv' : e.eval ρ' = .fin v) : ρ.sym i = ρ'.sym i := by
  unfold mapMonotonicAffine at h
  split at h
  · simp at h
  rename_i p hp
  split at h
  · simp at h
  rename_i c hc
  split at h
  · rename_i m hm
    split at h
    · rename_i k hk
      simp only [Bool.and_eq_true, decide_eq_true_eq] at h
      obtain ⟨hfo, hfin⟩ := hok.coeff p c hp hc
      obtain ⟨k', hk'⟩ := hfin m hm
      have hkk : k' = k := by
        unfold PolyEngine.asInteger at hk
        split at hk
        · rename_i n hn
          simp only [Option.some.injEq] at hk; subst hk
          have := hD.norm ρ m k' hk'
          rw [hn] at this
          simpa [Expr.eval] using this.symm
        · simp at hk
      obtain ⟨cv, hcv, hval⟩ := affine_coefficients_partial D.P ρ (hD.poly ρ) e [i] (by simp) (by simpa using Ne.symm hi) p hp
        (by simpa using hD.len _ _ _ hp) c hc v hv
      obtain ⟨cv', hcv', hval'⟩ := affine_coefficients_partial D.P ρ' (hD.poly ρ') e [i] (by simp) (by simpa using Ne.symm hi) p hp
        (by simpa using hD.len _ _ _ hp) c hc v hv'
      have hsame : ∀ s, cv s = cv' s := by
        intro s
        have : (c.at' s).eval ρ = (c.at' s).eval ρ' := by
          refine eval_congr_atoms _ _ _ hfn fun x hx => ?_
          obtain ⟨h1, h2⟩ := affineCoefficients_free hc (fun x => x ∈ D.syms e ∧ x ∉ [i]) (hD.free _ _ _ hp) s x hx
          exact hag x (hD.syms _ _ h1) (by simpa using h2)
        rw [hcv, hcv'] at this
        simpa using this
      have hpos : 0 < cv i := by
        have h1 := (extreme_values_sound_partial [] A ρ hA hAf _ m m hfo (by rw [hcv]; simp)).1 hm (by rw [hk']; simp)
        rw [hk', hcv, V.fin_le] at h1
        omega
      simp only [List.map_cons, List.map_nil, List.sum_cons, List.sum_nil] at hval hval'
      rw [← hsame i, ← hsame constName] at hval'
      have : cv i * ρ.sym i = cv i * ρ'.sym i := by omega
      exact Int.eq_of_mul_eq_mul_left (by omega) this
    · simp at h
  · simp at h

theorem mapMonotonicPow_inj (D : DEngine) (hD : D.Sound) (A : Assums) (e : Expr) (i : String)
    (h : mapMonotonicPow D A e = true) (ρ ρ' : Val) (hA : A.Hold ρ) (hA' : A.Hold ρ')
    (hAf : AssumsFnOk (minimum [] A) (maximum [] A) ρ A) (hAf' : AssumsFnOk (minimum [] A) (maximum [] A) ρ' A)
    (hok : MonoOk D A i ρ e) (hok' : MonoOk D A i ρ' e)
    (v : Int) (hv : e.eval ρ = .fin v) (hv' : e.eval ρ' = .fin v) : ρ.sym i = ρ'.sym i := by
  unfold mapMonotonicPow at h
  split at h
  · rename_i y n
    obtain ⟨rfl, hm1⟩ := hok.pow y n rfl
    obtain ⟨_, hm2⟩ := hok'.pow y n rfl
    split at h
    · simp at h
    rename_i hn
    split at h
    · rename_i m hm
      have key : ∀ σ : Val, A.Hold σ → AssumsFnOk (minimum [] A) (maximum [] A) σ A → m.eval σ ≠ .nan → 0 ≤ σ.sym y := by
        intro σ hA hAf hne
        have h1 := (extreme_values_sound_partial [] A σ hA hAf (.sym y) m m (by simp [FnOk, Expr.fns]) (by simp [Expr.eval])).1 hm hne
        have h2 := hD.ge _ _ σ h hne (by simp [Expr.eval])
        have := V.le_trans h2 h1
        simpa [Expr.eval, V.fin_le] using this
      have p1 := key ρ hA hAf (hm1 m hm)
      have p2 := key ρ' hA' hAf' (hm2 m hm)
      obtain ⟨k, rfl⟩ : ∃ k : Nat, n = Int.ofNat (k + 1) := ⟨n.toNat - 1, by simp only [Int.ofNat_eq_natCast]; omega⟩
      have hp : ∀ σ : Val, (Expr.pow (.sym y) (.int (Int.ofNat (k + 1)))).eval σ = .fin (σ.sym y ^ (k + 1)) := by
        intro σ; rfl
      rw [hp] at hv hv'
      have he : ρ.sym y ^ (k + 1) = ρ'.sym y ^ (k + 1) := by
        rw [V.fin.injEq] at hv hv'; rw [hv, hv']
      exact (pow_left_inj₀ p1 p2 (by omega)).1 he
    · simp at h
  · simp at h

/-- an equal dimension that is monotonic separates the iterations -/
theorem isDisjointMonotonic_sound (D : DEngine) (hD : D.Sound) (i : String) (hi : i ≠ constName) (A : Assums) (e1 e2 : List Expr)
    (h : isDisjointMonotonic D i A e1 e2 = .ok true) (ρ ρ' : Val) (hA : A.Hold ρ) (hA' : A.Hold ρ')
    (hAf : AssumsFnOk (minimum [] A) (maximum [] A) ρ A) (hAf' : AssumsFnOk (minimum [] A) (maximum [] A) ρ' A)
    (hok : ∀ e ∈ e1, MonoOk D A i ρ e ∧ MonoOk D A i ρ' e) (hc : ∀ x, x ≠ i → isConst A x = true → ρ.sym x = ρ'.sym x)
    (hfn : ρ.fn = ρ'.fn) (hne : ρ.sym i ≠ ρ'.sym i) : ¬ Collide e1 e2 ρ ρ' := by
  induction e1 generalizing e2 with
  | nil => simp [isDisjointMonotonic] at h
  | cons a r ih =>
    cases e2 with
    | nil => intro hcol; cases hcol
    | cons b s =>
      intro hcol
      obtain ⟨⟨v, hv, hv'⟩, hrest⟩ : (∃ v, a.eval ρ = .fin v ∧ b.eval ρ' = .fin v) ∧ Collide r s ρ ρ' := by
        cases hcol with | cons h1 h2 => exact ⟨h1, h2⟩
      rw [isDisjointMonotonic] at h
      split at h
      · exact ih s h (fun e he => hok e (List.mem_cons_of_mem _ he)) hrest
      · rename_i hab
        have hab : a = b := by simpa using hab
        subst hab
        split at h
        · simp at h
        · split at h
          · rename_i hm
            simp only [Bool.and_eq_true, List.all_eq_true, decide_eq_true_eq] at hm
            obtain ⟨hall, hmono⟩ := hm
            obtain ⟨o1, o2⟩ := hok a (List.mem_cons_self ..)
            unfold mapMonotonic at hmono
            rcases Bool.or_eq_true_iff.1 hmono with hm | hm
            · refine hne (mapMonotonicAffine_inj D hD A a i hi hm ρ ρ' hA hAf o1 (fun x hx hxi => ?_) hfn v hv hv')
              rcases hall x hx with h | h
              · exact hc x hxi (by simpa using h)
              · exact absurd h hxi
            · exact hne (mapMonotonicPow_inj D hD A a i hm ρ ρ' hA hA' hAf hAf' o1 o2 v hv hv')
          · exact ih s h (fun e he => hok e (List.mem_cons_of_mem _ he)) hrest

theorem anyDimDisjoint_sound {isl : Query → Option Bool} (hI : IslSound isl) {fuel : Nat} {d1 d2 : List Expr} {i : String} {A1 A2 : Assums}
    (h : anyDimDisjoint isl fuel i A1 A2 d1 d2 = .ok true) (hM : MapsOk i A1 A2)
    (hf1 : ∀ e ∈ d1, e.fns = []) (hf2 : ∀ e ∈ d2, e.fns = []) (ρ ρ' : Val) (hA1 : A1.Hold ρ) (hA2 : A2.Hold ρ')
    (hS1 : StepsHold A1 ρ) (hS2 : StepsHold A2 ρ') (hc : ∀ x, x ≠ i → isConst A1 x = true → isConst A2 x = true → ρ.sym x = ρ'.sym x)
    (hi : ρ.sym i ≠ ρ'.sym i) : ¬ Collide d1 d2 ρ ρ' := by
  induction d1 generalizing d2 with
  | nil => cases d2 <;> simp [anyDimDisjoint] at h
  | cons a r ih =>
    cases d2 with
    | nil => simp [anyDimDisjoint] at h
    | cons b s =>
      intro hcol
      obtain ⟨hab, hrest⟩ : (∃ v, a.eval ρ = .fin v ∧ b.eval ρ' = .fin v) ∧ Collide r s ρ ρ' := by
        cases hcol with | cons h1 h2 => exact ⟨h1, h2⟩
      rw [anyDimDisjoint] at h
      obtain ⟨q, hq, h⟩ := Res.bind_ok h
      split at h
      · rename_i hq'
        exact mkQuery_sound hI hq hq' hM (by simpa using hf1 a (List.mem_cons_self ..)) (by simpa using hf2 b (List.mem_cons_self ..))
          ρ ρ' hA1 hA2 hS1 hS2 hc hi (.cons hab .nil)
      · exact ih h (fun e he => hf1 e (List.mem_cons_of_mem _ he)) (fun e he => hf2 e (List.mem_cons_of_mem _ he)) hrest

/-- **C04** (partial): if `intersects` answers false, the two subscripts address different elements in every two iterations with
different values of the loop variable, for all states that satisfy the assumptions and agree on the constants.  Missing, and not
implied by the tests of `intersects`: a power must be a power of the loop variable (`intersects_pow_violated`), the delinearized
dimensions must be equal when the addresses are (`hdel`; `intersects_stride_violated`), bounds may contain only constants
(`MapsOk.const`; `intersects_tile_violated`), both accesses must start at the same lower bound (`MapsOk.start`;
`intersects_start_violated`), and no functions (`intersects_iabs_violated`). -/
theorem intersects_sound_partial (D : DEngine) (hD : D.Sound) (isl : Query → Option Bool) (hI : IslSound isl) (fuel : Nat)
    (e1 e2 : List Expr) (i : String) (hi : i ≠ constName) (A1 A2 : Assums) (h : intersects D isl fuel e1 e2 i A1 A2 = .ok false)
    (ρ ρ' : Val) (hA1 : A1.Hold ρ) (hA1' : A1.Hold ρ') (hA2 : A2.Hold ρ') (hfn : ρ.fn = ρ'.fn)
    (hAf : AssumsFnOk (minimum [] A1) (maximum [] A1) ρ A1) (hAf' : AssumsFnOk (minimum [] A1) (maximum [] A1) ρ' A1)
    (hc : ∀ x, x ≠ i → isConst A1 x = true → ρ.sym x = ρ'.sym x) (hne : ρ.sym i ≠ ρ'.sym i)
    (hmono : ∀ e ∈ e1, MonoOk D A1 i ρ e ∧ MonoOk D A1 i ρ' e) (hM : MapsOk i A1 A2) (hS1 : StepsHold A1 ρ) (hS2 : StepsHold A2 ρ')
    (hdel : ∀ d1 d2, delinearize D A1 e1 = .ok d1 → delinearize D A2 e2 = .ok d2 → d1.length = d2.length →
      (∀ e ∈ d1 ++ d2, e.fns = []) ∧ (Collide e1 e2 ρ ρ' → Collide d1 d2 ρ ρ')) :
    ¬ Collide e1 e2 ρ ρ' := by
  unfold intersects at h
  obtain ⟨m, hm, h⟩ := Res.bind_ok h
  split at h
  · rename_i hmt
    rw [hmt] at hm
    exact isDisjointMonotonic_sound D hD i hi A1 e1 e2 hm ρ ρ' hA1 hA1' hAf hAf' hmono hc hfn hne
  · obtain ⟨d, hd, h⟩ := Res.bind_ok h
    have hd' : d = true := by simpa using h
    subst hd'
    unfold isDisjointIsl at hd
    split at hd
    · simp at hd
    split at hd
    · simp at hd
    obtain ⟨d1, hd1, hd⟩ := Res.bind_ok hd
    obtain ⟨d2, hd2, hd⟩ := Res.bind_ok hd
    split at hd
    · simp at hd
    rename_i hlen
    have hlen : d1.length = d2.length := by simpa using hlen
    obtain ⟨b, hb, hd⟩ := Res.bind_ok hd
    intro hcol
    obtain ⟨hf, hsep⟩ := hdel d1 d2 hd1 hd2 hlen
    have hf1 : ∀ e ∈ d1, e.fns = [] := fun e he => hf e (List.mem_append_left _ he)
    have hf2 : ∀ e ∈ d2, e.fns = [] := fun e he => hf e (List.mem_append_right _ he)
    have hc' : ∀ x, x ≠ i → isConst A1 x = true → isConst A2 x = true → ρ.sym x = ρ'.sym x := fun x h1 h2 _ => hc x h1 h2
    split at hd
    · rename_i hbt
      rw [hbt] at hb
      exact anyDimDisjoint_sound hI hb hM hf1 hf2 ρ ρ' hA1 hA2 hS1 hS2 hc' hne (hsep hcol)
    · split at hd
      · simp at hd
      · obtain ⟨q, hq, hd⟩ := Res.bind_ok hd
        have hq' : isl q = some true := by simpa using hd
        exact mkQuery_sound hI hq hq' hM hf1 hf2 ρ ρ' hA1 hA2 hS1 hS2 hc' hne (hsep hcol)

/-! ### violations -/

/-- ISL, asked one question that it answers with "empty" -/
def exIsl (Q : Res Query) : Query → Option Bool := fun q => if Q = .ok q then some true else none

theorem exIsl_sound {Q : Res Query} (h : ∀ q, Q = .ok q → ∀ ρ ρ' : Val, ¬ q.Alias ρ ρ') : IslSound (exIsl Q) := by
  intro q hq ρ ρ' _ _
  unfold exIsl at hq
  split at hq
  · rename_i he; exact h q he ρ ρ'
  · simp at hq

/-- **C04 is false for powers of constants**: `A[N^2]` is said to be accessed at a different element in every iteration. -/
theorem intersects_pow_violated : exDelin.Sound ∧
    intersects exDelin (fun _ => none) 9 [.pow (.sym "N") (.int 2)] [.pow (.sym "N") (.int 2)] "i" (exDelinA 9) (exDelinA 9) = .ok false ∧
    ∃ ρ ρ' : Val, (exDelinA 9).Hold ρ ∧ (exDelinA 9).Hold ρ' ∧ ρ.sym "i" ≠ ρ'.sym "i" ∧ ρ.sym "N" = ρ'.sym "N" ∧
      Collide [.pow (.sym "N") (.int 2)] [.pow (.sym "N") (.int 2)] ρ ρ' :=
  ⟨exDelin_sound, by decide, exDelinV 0 0 1, exDelinV 1 0 1, exDelinA_hold _ _ _ _ (by decide) (by decide) (by decide) (by decide),
    exDelinA_hold _ _ _ _ (by decide) (by decide) (by decide) (by decide), by decide, by decide, .cons ⟨1, by decide, by decide⟩ .nil⟩

/-- the question ISL is asked about the first dimension of `10*i + j` and `20*i + j` -/
def exStrideQ : Res Query := mkQuery 9 [.add [.sym "i", .int 0]] [.add [.sym "i", .int 0]] "i" (exDelinA 9) (exDelinA 9)

theorem exStrideQ_empty : ∀ q, exStrideQ = .ok q → ∀ ρ ρ' : Val, ¬ q.Alias ρ ρ' := by
  intro q hq ρ ρ' h
  have h1 : q.e1 = [.add [.sym "i", .int 0]] := by
    have : q = (match exStrideQ with | .ok q => q | _ => q) := by rw [hq]
    rw [this]; rfl
  have h2 : q.e2 = [.add [.sym "i", .int 0]] := by
    have : q = (match exStrideQ with | .ok q => q | _ => q) := by rw [hq]
    rw [this]; rfl
  have h3 : q.differ = some "i" := by
    have : q = (match exStrideQ with | .ok q => q | _ => q) := by rw [hq]
    rw [this]; rfl
  have hs := h.same
  rw [h1, h2] at hs
  obtain ⟨v, hv, hv'⟩ : ∃ v, (Expr.add [.sym "i", .int 0]).isl.eval ρ = .fin v ∧ (Expr.add [.sym "i", .int 0]).isl.eval ρ' = .fin v := by
    cases hs with | cons h _ => exact h
  simp [Expr.isl, Expr.islL, Expr.eval, Expr.evalL, V.add] at hv hv'
  exact h.differ "i" h3 (by omega)

theorem exDelinA_maps : MapsOk "i" (exDelinA 9) (exDelinA 9) := by
  have key : ∀ x a, exDelinA 9 x = some a → a.lower.atoms ++ a.upper.atoms = [] ∧ a.lower.fns = [] ∧ a.upper.fns = [] := by
    intro x a ha
    simp only [exDelinA] at ha
    repeat' split at ha
    all_goals first
      | simp at ha; done
      | (simp only [Option.some.injEq] at ha; subst ha; decide)
  refine ⟨fun x a ha y hy => ?_, fun x a ha => ?_, fun x a1 a2 h1 h2 => ?_⟩
  · rw [(key x a (ha.elim id id)).1] at hy; simp at hy
  · exact (key x a (ha.elim id id)).2
  · rw [h1] at h2; simp only [Option.some.injEq] at h2; rw [h2]

/-- **C04 is false for different strides**: `A[10*i + j]` and `A[20*i + j]` with `0 <= j <= 9` are said to be disjoint, but `i = 2` in
the first and `i = 1` in the second collide. -/
theorem intersects_stride_violated : exDelin.Sound ∧ IslSound (exIsl exStrideQ) ∧ MapsOk "i" (exDelinA 9) (exDelinA 9) ∧
    intersects exDelin (exIsl exStrideQ) 9 [exLin (.int 10)] [exLin (.int 20)] "i" (exDelinA 9) (exDelinA 9) = .ok false ∧
    ∃ ρ ρ' : Val, (exDelinA 9).Hold ρ ∧ (exDelinA 9).Hold ρ' ∧ ρ.sym "i" ≠ ρ'.sym "i" ∧ ρ.sym "N" = ρ'.sym "N" ∧
      Collide [exLin (.int 10)] [exLin (.int 20)] ρ ρ' :=
  ⟨exDelin_sound, exIsl_sound exStrideQ_empty, exDelinA_maps, by decide, exDelinV 2 0 1, exDelinV 1 0 1,
    exDelinA_hold _ _ _ _ (by decide) (by decide) (by decide) (by decide),
    exDelinA_hold _ _ _ _ (by decide) (by decide) (by decide) (by decide), by decide, by decide, .cons ⟨20, by decide, by decide⟩ .nil⟩
/-- `8*i <= j <= 8*i + 7`, as in a tiled loop -/
def exTileA : Assums := fun x => if x = "i" then some { lower := .int 0 }
  else if x = "j" then some { lower := .mul [.int 8, .sym "i"], upper := .add [.mul [.int 8, .sym "i"], .int 7] } else none

/-- the question ISL is asked about `A[j]` and `A[j + 8]` -/
def exTileQ : Res Query := mkQuery 9 [.sym "j"] [.add [.sym "j", .int 8]] "i" exTileA exTileA

theorem exTileQ_empty : ∀ q, exTileQ = .ok q → ∀ ρ ρ' : Val, ¬ q.Alias ρ ρ' := by
  intro q hq ρ ρ' h
  have hq' : q = (match exTileQ with | .ok q => q | _ => q) := by rw [hq]
  have h1 : q.e1 = [.sym "j"] := by rw [hq']; rfl
  have h2 : q.e2 = [.add [.sym "j", .int 8]] := by rw [hq']; rfl
  have h3 : q.params = ["i"] := by rw [hq']; rfl
  have hc1 : q.cons1 = [(.sym "j", .add [.mul [.int 8, .sym "i"], .int 7]), (.mul [.int 8, .sym "i"], .sym "j"), (.int 0, .sym "i")] := by
    rw [hq']; rfl
  have hc2 : q.cons2 = [(.sym "j", .add [.mul [.int 8, .sym "i"], .int 7]), (.mul [.int 8, .sym "i"], .sym "j"), (.int 0, .sym "i")] := by
    rw [hq']; rfl
  have h4 : ((.sym "j", .add [.mul [.int 8, .sym "i"], .int 7]) : Expr × Expr) ∈ q.cons1 := by rw [hc1]; simp
  have h5 : ((.mul [.int 8, .sym "i"], .sym "j") : Expr × Expr) ∈ q.cons2 := by rw [hc2]; simp
  have hs := h.same
  rw [h1, h2] at hs
  obtain ⟨v, hv, hv'⟩ : ∃ v, (Expr.sym "j").isl.eval ρ = .fin v ∧ (Expr.add [.sym "j", .int 8]).isl.eval ρ' = .fin v := by
    cases hs with | cons h _ => exact h
  have hp := h.params "i" (by rw [h3]; simp)
  have c1 := h.cons1 _ h4
  have c2 := h.cons2 _ h5
  simp [Expr.isl, Expr.islL, Expr.eval, Expr.evalL, V.add, V.mul, V.le_def, V.le] at hv hv' c1 c2
  omega

/-- **C04 is false when bounds contain the loop variable**: with `8*i <= j <= 8*i + 7` (a tiled loop) `A[j]` and `A[j + 8]` are said
to be disjoint across iterations of `i`, because `i` in the bounds of `j` is one parameter for both accesses.  But iteration `i = 1`
accesses `A[8]` through the first and iteration `i = 0` through the second. -/
theorem intersects_tile_violated : exDelin.Sound ∧ IslSound (exIsl exTileQ) ∧
    intersects exDelin (exIsl exTileQ) 9 [.sym "j"] [.add [.sym "j", .int 8]] "i" exTileA exTileA = .ok false ∧
    ∃ ρ ρ' : Val, exTileA.Hold ρ ∧ exTileA.Hold ρ' ∧ ρ.sym "i" ≠ ρ'.sym "i" ∧ Collide [.sym "j"] [.add [.sym "j", .int 8]] ρ ρ' := by
  have hold : ∀ i j, 0 ≤ i → 8 * i ≤ j → j ≤ 8 * i + 7 → exTileA.Hold (exDelinV i j 1) := by
    intro i j h1 h2 h3 x a ha
    simp only [exTileA] at ha
    repeat' split at ha
    all_goals first
      | simp at ha; done
      | (rename_i hx; subst hx; simp only [Option.some.injEq] at ha; subst ha
         simp [Expr.eval, Expr.evalL, V.add, V.mul, V.le_def, V.le, exDelinV, *])
  exact ⟨exDelin_sound, exIsl_sound exTileQ_empty, by decide, exDelinV 1 8 1, exDelinV 0 0 1, hold 1 8 (by decide) (by decide) (by decide),
    hold 0 0 (by decide) (by decide) (by decide), by decide, .cons ⟨8, by decide, by decide⟩ .nil⟩

/-- two inner loops over `j` in steps of two, from `b` -/
def exStartA (b : Int) : Assums := fun x => if x = "i" then some { lower := .int 0 }
  else if x = "j" then some { lower := .int b, map := some (.add [.sym "j", .int 2]) } else none

/-- the question ISL is asked about `A[j]` with `j = 0, 2, ...` and `A[j + 1]` with `j = 1, 3, ...` -/
def exStartQ : Res Query := mkQuery 9 [.sym "j"] [.add [.sym "j", .int 1]] "i" (exStartA 0) (exStartA 1)

theorem exStartQ_empty : ∀ q, exStartQ = .ok q → ∀ ρ ρ' : Val, ¬ q.Alias ρ ρ' := by
  intro q hq ρ ρ' h
  have hq' : q = (match exStartQ with | .ok q => q | _ => q) := by rw [hq]
  have h1 : q.e1 = [.sym "j"] := by rw [hq']; rfl
  have h2 : q.e2 = [.add [.sym "j", .int 1]] := by rw [hq']; rfl
  have h4 : (("j", 1, 2) : String × Int × Int) ∈ q.steps1 := by
    have : q.steps1 = [("j", 1, 2)] := by rw [hq']; rfl
    rw [this]; simp
  have h5 : (("j", 1, 2) : String × Int × Int) ∈ q.steps2 := by
    have : q.steps2 = [("j", 1, 2)] := by rw [hq']; rfl
    rw [this]; simp
  have hs := h.same
  rw [h1, h2] at hs
  obtain ⟨v, hv, hv'⟩ : ∃ v, (Expr.sym "j").isl.eval ρ = .fin v ∧ (Expr.add [.sym "j", .int 1]).isl.eval ρ' = .fin v := by
    cases hs with | cons h _ => exact h
  obtain ⟨k, hk⟩ := h.steps1 _ h4
  obtain ⟨k', hk'⟩ := h.steps2 _ h5
  simp [Expr.isl, Expr.islL, Expr.eval, Expr.evalL, V.add] at hv hv' hk hk'
  omega

/-- **C04 is false for accesses that start differently**: the step of the first access is anchored at the lower bound of the second.
`A[j]` with `j = 0, 2, ...` and `A[j + 1]` with `j = 1, 3, ...` are said to be disjoint, but both access `A[2]`. -/
theorem intersects_start_violated : exDelin.Sound ∧ IslSound (exIsl exStartQ) ∧
    intersects exDelin (exIsl exStartQ) 9 [.sym "j"] [.add [.sym "j", .int 1]] "i" (exStartA 0) (exStartA 1) = .ok false ∧
    ∃ ρ ρ' : Val, (exStartA 0).Hold ρ ∧ (exStartA 1).Hold ρ' ∧ StepsHold (exStartA 0) ρ ∧ StepsHold (exStartA 1) ρ' ∧
      ρ.sym "i" ≠ ρ'.sym "i" ∧ Collide [.sym "j"] [.add [.sym "j", .int 1]] ρ ρ' := by
  have hold : ∀ b i j, 0 ≤ i → b ≤ j → (exStartA b).Hold (exDelinV i j 1) := by
    intro b i j h1 h2 x a ha
    simp only [exStartA] at ha
    repeat' split at ha
    all_goals first
      | simp at ha; done
      | (rename_i hx; subst hx; simp only [Option.some.injEq] at ha; subst ha
         simp [Expr.eval, V.le_def, V.le, exDelinV, *])
  have steps : ∀ b i k, StepsHold (exStartA b) (exDelinV i (b + k * 2) 1) := by
    intro b i k x a c d ha hm hl
    simp only [exStartA] at ha
    repeat' split at ha
    · simp only [Option.some.injEq] at ha; subst ha; simp at hm
    · rename_i hx; subst hx
      simp only [Option.some.injEq] at ha; subst ha
      simp at hm hl
      subst hm hl
      exact ⟨k, rfl⟩
    · simp at ha
  exact ⟨exDelin_sound, exIsl_sound exStartQ_empty, by decide, exDelinV 0 2 1, exDelinV 1 1 1, hold 0 0 2 (by decide) (by decide),
    hold 1 1 1 (by decide) (by decide), steps 0 0 1, steps 1 1 0, by decide, .cons ⟨2, by decide, by decide⟩ .nil⟩

/-- the question ISL is asked about `A[iabs(i)]` -/
def exAbsQ : Res Query := mkQuery 9 [.fn "iabs" [.sym "i"]] [.fn "iabs" [.sym "i"]] "i" (fun x => if x = "i" then some {} else none)
  (fun x => if x = "i" then some {} else none)

theorem exAbsQ_empty : ∀ q, exAbsQ = .ok q → ∀ ρ ρ' : Val, ¬ q.Alias ρ ρ' := by
  intro q hq ρ ρ' h
  have hq' : q = (match exAbsQ with | .ok q => q | _ => q) := by rw [hq]
  have h1 : q.e1 = [.fn "iabs" [.sym "i"]] := by rw [hq']; rfl
  have h2 : q.e2 = [.fn "iabs" [.sym "i"]] := by rw [hq']; rfl
  have h3 : q.differ = some "i" := by rw [hq']; rfl
  have hs := h.same
  rw [h1, h2] at hs
  obtain ⟨v, hv, hv'⟩ : ∃ v, (Expr.fn "iabs" [.sym "i"]).isl.eval ρ = .fin v ∧ (Expr.fn "iabs" [.sym "i"]).isl.eval ρ' = .fin v := by
    cases hs with | cons h _ => exact h
  have e : (Expr.fn "iabs" [.sym "i"]).isl = .sym "i" := by rfl
  rw [e] at hv hv'
  simp [Expr.eval] at hv hv'
  exact h.differ "i" h3 (by omega)

/-- **C04 is false for absolute values**: ISL is given `i` for `iabs(i)`, so `A[iabs(i)]` is said to be different in every iteration;
`i = -1` and `i = 1` collide. -/
theorem intersects_iabs_violated : exDelin.Sound ∧ IslSound (exIsl exAbsQ) ∧
    intersects exDelin (exIsl exAbsQ) 9 [.fn "iabs" [.sym "i"]] [.fn "iabs" [.sym "i"]] "i" (fun x => if x = "i" then some {} else none)
      (fun x => if x = "i" then some {} else none) = .ok false ∧
    ∃ ρ ρ' : Val, ρ.sym "i" ≠ ρ'.sym "i" ∧ Collide [.fn "iabs" [.sym "i"]] [.fn "iabs" [.sym "i"]] ρ ρ' :=
  ⟨exDelin_sound, exIsl_sound exAbsQ_empty, by decide, exDelinV (-1) 0 1, exDelinV 1 0 1, by decide, .cons ⟨1, by decide, by decide⟩ .nil⟩

/-- The partial theorem applies to `A[10*i + j]` with `0 <= j <= 9`: all its hypotheses hold, and different `i` access different
elements. -/
example (i j i' j' : Int) (hi : 0 ≤ i) (hj : 0 ≤ j) (hb : j ≤ 9) (hi' : 0 ≤ i') (hj' : 0 ≤ j') (hb' : j' ≤ 9) (hne : i ≠ i') :
    ¬ Collide [exLin (.int 10)] [exLin (.int 10)] (exDelinV i j 1) (exDelinV i' j' 1) := by
  have hA := exDelinA_hold 9 i j 1 hi hj hb (by decide)
  have hA' := exDelinA_hold 9 i' j' 1 hi' hj' hb' (by decide)
  have hfn : ∀ ρ, AssumsFnOk (minimum [] (exDelinA 9)) (maximum [] (exDelinA 9)) ρ (exDelinA 9) := by
    intro ρ x a ha
    simp only [exDelinA] at ha
    repeat' split at ha
    all_goals first
      | simp at ha; done
      | (simp only [Option.some.injEq] at ha; subst ha; simp [FnOk, Expr.fns])
  have hpoly : exDelin.P.poly (exLin (.int 10)) ["i"] = none := by decide
  have hmono : ∀ ρ, MonoOk exDelin (exDelinA 9) "i" ρ (exLin (.int 10)) := fun ρ =>
    ⟨fun p c h => by rw [hpoly] at h; simp at h, fun y n h => by simp [exLin] at h⟩
  have hsteps : ∀ ρ, StepsHold (exDelinA 9) ρ := by
    intro ρ x a c b ha hm
    simp only [exDelinA] at ha
    repeat' split at ha
    all_goals first
      | simp at ha; done
      | (simp only [Option.some.injEq] at ha; subst ha; simp at hm)
  have hconst : ∀ x, isConst (exDelinA 9) x = true → x = "N" := by
    intro x hx
    simp only [isConst, exDelinA] at hx
    by_cases h1 : x = "N"
    · exact h1
    · by_cases h2 : x = "i"
      · subst h2; simp at hx
      · by_cases h3 : x = "j"
        · subst h3; simp at hx
        · simp [h1, h2, h3] at hx
  refine intersects_sound_partial exDelin exDelin_sound (exIsl exStrideQ) (exIsl_sound exStrideQ_empty) 9 _ _ "i" (by decide)
    (exDelinA 9) (exDelinA 9) (by decide) _ _ hA hA' hA' rfl (hfn _) (hfn _) ?_ (by simpa [exDelinV] using hne)
    (fun e he => by simp only [List.mem_singleton] at he; subst he; exact ⟨hmono _, hmono _⟩) exDelinA_maps (hsteps _) (hsteps _) ?_
  · intro x _ hx; rw [hconst x hx]; rfl
  · intro d1 d2 h1 h2 _
    have hd : delinearize exDelin (exDelinA 9) [exLin (.int 10)] = .ok (exPeels.map Peel.dim) := by decide
    rw [hd] at h1 h2
    simp only [Res.ok.injEq] at h1 h2
    subst h1 h2
    refine ⟨by decide, fun hcol => ?_⟩
    obtain ⟨v, hv, hv'⟩ : ∃ v, (exLin (.int 10)).eval (exDelinV i j 1) = .fin v ∧ (exLin (.int 10)).eval (exDelinV i' j' 1) = .fin v := by
      cases hcol with | cons h _ => exact h
    have hsep := (delinearize_separates_partial exDelin exDelin_sound (exDelinA 9) (exLin (.int 10)) exPeels (by decide) _ _ hA hA' (hfn _)
      (hfn _) (fun x hx => by
        by_cases h1 : x = "i"
        · subst h1; simp [varying, exDelinA] at hx
        · by_cases h2 : x = "j"
          · subst h2; simp [varying, exDelinA] at hx
          · simp [exDelinV, h1, h2]) rfl (exPeels_ok i j hj hb) (exPeels_ok i' j' hj' hb') v hv hv').2
    have e1 := hsep (.add [.sym "i", .int 0]) (by decide)
    have e2 := hsep (.add [.sym "j", .int 0]) (by decide)
    refine .cons ⟨i, ?_, ?_⟩ (.cons ⟨j, ?_, ?_⟩ .nil)
    · simp [Peel.dim, Expr.eval, Expr.evalL, V.add, exDelinV]
    · simpa [Peel.dim, Expr.eval, Expr.evalL, V.add, exDelinV] using e1.symm
    · simp [Peel.dim, Expr.eval, Expr.evalL, V.add, exDelinV]
    · simpa [Peel.dim, Expr.eval, Expr.evalL, V.add, exDelinV] using e2.symm

end Docc.Sym
