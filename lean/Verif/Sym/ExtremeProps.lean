import Verif.Sym.ExtremeLemmas

/-
C02: `minimum`/`maximum` and `minimum_new`/`maximum_new` are sound bounds.
-/
namespace Docc.Sym

/-- Specification: the valuation satisfies every bound declared in the assumptions. -/
def Assums.Hold (A : Assums) (ρ : Val) : Prop :=
  ∀ x a, A x = some a →
    (a.lower.eval ρ ≤ .fin (ρ.sym x) ∧ .fin (ρ.sym x) ≤ a.upper.eval ρ) ∧
    (∀ b ∈ a.lowers, b.eval ρ ≤ .fin (ρ.sym x)) ∧ (∀ b ∈ a.uppers, .fin (ρ.sym x) ≤ b.eval ρ) ∧
    (∀ b, a.tightLower = some b → b.eval ρ ≤ .fin (ρ.sym x)) ∧
    (∀ b, a.tightUpper = some b → .fin (ρ.sym x) ≤ b.eval ρ)

mutual
/-- all function applications inside an expression -/
def Expr.fns : Expr → List (String × List Expr)
  | .int _ => []
  | .sym _ => []
  | .inf _ => []
  | .nan => []
  | .add l => Expr.fnsL l
  | .mul l => Expr.fnsL l
  | .max l => Expr.fnsL l
  | .min l => Expr.fnsL l
  | .pow b e => Expr.fns b ++ Expr.fns e
  | .fn f l => (f, l) :: Expr.fnsL l
/-- function applications of an argument list -/
def Expr.fnsL : List Expr → List (String × List Expr)
  | [] => []
  | e :: r => Expr.fns e ++ Expr.fnsL r
end

theorem Expr.fns_sub {l : List Expr} {e : Expr} (h : e ∈ l) : ∀ p ∈ e.fns, p ∈ Expr.fnsL l := by
  induction l with
  | nil => simp at h
  | cons a r ih =>
    intro p hp
    rcases List.mem_cons.1 h with rfl | h
    · simp [Expr.fnsL, hp]
    · simp [Expr.fnsL, ih h p hp]

/-- Every function application is a zero extension whose argument, and whose computed argument bounds, lie in
`[0, 2^32)`, where `zext_i64` is the identity. -/
def FnOk (mn mx : Nat → Expr → Res Expr) (ρ : Val) (e : Expr) : Prop :=
  ∀ f args, (f, args) ∈ e.fns → ∃ a, f = "zext_i64" ∧ args = [a] ∧
    (∀ v, a.eval ρ = .fin v → 0 ≤ v ∧ v < 2 ^ 32) ∧
    (∀ d m k, mn d a = .ok m → m.eval ρ = .fin k → 0 ≤ k) ∧
    (∀ d m k, mx d a = .ok m → m.eval ρ = .fin k → k < 2 ^ 32)

/-- every bound in the assumptions is unproblematic as well -/
def AssumsFnOk (mn mx : Nat → Expr → Res Expr) (ρ : Val) (A : Assums) : Prop :=
  ∀ x a, A x = some a → FnOk mn mx ρ a.lower ∧ FnOk mn mx ρ a.upper ∧
    (∀ b ∈ a.lowers, FnOk mn mx ρ b) ∧ (∀ b ∈ a.uppers, FnOk mn mx ρ b) ∧
    (∀ b, a.tightLower = some b → FnOk mn mx ρ b) ∧ (∀ b, a.tightUpper = some b → FnOk mn mx ρ b)

theorem FnOk.sub {mn mx : Nat → Expr → Res Expr} {ρ : Val} {l : List Expr} {e : Expr} {E : Expr}
    (hE : E.fns = Expr.fnsL l ∨ ∃ f, E.fns = (f, l) :: Expr.fnsL l) (h : FnOk mn mx ρ E) (he : e ∈ l) :
    FnOk mn mx ρ e := by
  intro f args hf
  refine h f args ?_
  have := Expr.fns_sub he _ hf
  rcases hE with hE | ⟨g, hE⟩ <;> rw [hE] <;> simp [this]

theorem forall₂_left {α β : Type} {R : α → β → Prop} {l : List α} {bs : List β}
    (h : List.Forall₂ R l bs) : ∀ a ∈ l, ∃ b ∈ bs, R a b := by
  induction h with
  | nil => simp
  | cons h1 _ ih =>
    intro a ha
    rcases List.mem_cons.1 ha with rfl | ha
    · exact ⟨_, by simp, h1⟩
    · obtain ⟨b, hb, hr⟩ := ih a ha
      exact ⟨b, by simp [hb], hr⟩

/-- `m` is a lower bound of `e` when both are proper values -/
def LB (ρ : Val) (m e : Expr) : Prop := m.eval ρ ≠ .nan → e.eval ρ ≠ .nan → m.eval ρ ≤ e.eval ρ
/-- `m` is an upper bound of `e` when both are proper values -/
def UB (ρ : Val) (m e : Expr) : Prop := m.eval ρ ≠ .nan → e.eval ρ ≠ .nan → e.eval ρ ≤ m.eval ρ

theorem min_lower {ρ : Val} {l bs : List Expr} {m : Expr} (h : List.Forall₂ (fun a b => LB ρ b a) l bs)
    (hacc : accumulate (fun x y => .min [x, y]) bs = .ok m) : LB ρ m (.min l) := by
  intro hm he
  have hle := accumulate_eval_min hacc hm
  simp only [Expr.eval, Expr.evalL_eq_map] at he ⊢
  cases l with
  | nil => simp at he
  | cons a r =>
    simp only [List.map_cons] at he ⊢
    have hn := (foldl_min_ne_nan _ _).1 he
    rcases foldl_min_mem (r.map (Expr.eval ρ)) (a.eval ρ) with hx | hx
    · exact absurd hx he
    · have : ∃ c ∈ a :: r, c.eval ρ = (r.map (Expr.eval ρ)).foldl V.min (a.eval ρ) := by
        rcases List.mem_cons.1 hx with hx | hx
        · exact ⟨a, by simp, hx.symm⟩
        · obtain ⟨c, hc, hce⟩ := List.mem_map.1 hx
          exact ⟨c, by simp [hc], hce⟩
      obtain ⟨c, hc, hce⟩ := this
      rw [← hce]
      obtain ⟨b, hb, hr⟩ := forall₂_left h c hc
      exact V.le_trans (hle b hb) (hr (V.ne_nan_of_le (hle b hb)).2 (by rw [hce]; exact he))

theorem max_lower {ρ : Val} {l bs : List Expr} {m : Expr} (h : List.Forall₂ (fun a b => LB ρ b a) l bs)
    (hacc : accumulate (fun x y => .min [x, y]) bs = .ok m) : LB ρ m (.max l) := by
  intro hm he
  have hle := accumulate_eval_min hacc hm
  simp only [Expr.eval, Expr.evalL_eq_map] at he ⊢
  cases l with
  | nil => simp at he
  | cons a r =>
    simp only [List.map_cons] at he ⊢
    have hmx := le_foldl_max _ _ he
    obtain ⟨b, hb, hr⟩ := forall₂_left h a (by simp)
    have hbn := (V.ne_nan_of_le (hle b hb)).2
    exact V.le_trans (hle b hb) (V.le_trans (hr hbn (V.ne_nan_of_le hmx.1).1) hmx.1)

theorem max_upper {ρ : Val} {l bs : List Expr} {m : Expr} (h : List.Forall₂ (fun a b => UB ρ b a) l bs)
    (hacc : accumulate (fun x y => .max [x, y]) bs = .ok m) : UB ρ m (.max l) := by
  intro hm he
  have hle := accumulate_eval_max hacc hm
  simp only [Expr.eval, Expr.evalL_eq_map] at he ⊢
  cases l with
  | nil => simp at he
  | cons a r =>
    simp only [List.map_cons] at he ⊢
    rcases foldl_max_mem (r.map (Expr.eval ρ)) (a.eval ρ) with hx | hx
    · exact absurd hx he
    · have : ∃ c ∈ a :: r, c.eval ρ = (r.map (Expr.eval ρ)).foldl V.max (a.eval ρ) := by
        rcases List.mem_cons.1 hx with hx | hx
        · exact ⟨a, by simp, hx.symm⟩
        · obtain ⟨c, hc, hce⟩ := List.mem_map.1 hx
          exact ⟨c, by simp [hc], hce⟩
      obtain ⟨c, hc, hce⟩ := this
      rw [← hce]
      obtain ⟨b, hb, hr⟩ := forall₂_left h c hc
      exact V.le_trans (hr (V.ne_nan_of_le (hle b hb)).1 (by rw [hce]; exact he)) (hle b hb)

theorem min_upper {ρ : Val} {l bs : List Expr} {m : Expr} (h : List.Forall₂ (fun a b => UB ρ b a) l bs)
    (hacc : accumulate (fun x y => .max [x, y]) bs = .ok m) : UB ρ m (.min l) := by
  intro hm he
  have hle := accumulate_eval_max hacc hm
  simp only [Expr.eval, Expr.evalL_eq_map] at he ⊢
  cases l with
  | nil => simp at he
  | cons a r =>
    simp only [List.map_cons] at he ⊢
    have hmx := foldl_min_le _ _ he
    obtain ⟨b, hb, hr⟩ := forall₂_left h a (by simp)
    have hbn := (V.ne_nan_of_le (hle b hb)).1
    exact V.le_trans (V.le_trans hmx.1 (hr hbn (V.ne_nan_of_le hmx.1).2)) (hle b hb)

theorem add_bound_aux {ρ : Val} {l bs : List Expr} (up : Bool)
    (h : List.Forall₂ (fun a b => if up then UB ρ b a else LB ρ b a) l bs)
    (h1 : (bs.map (Expr.eval ρ)).foldr V.add (.fin 0) ≠ .nan)
    (h2 : (l.map (Expr.eval ρ)).foldr V.add (.fin 0) ≠ .nan) :
    if up then (l.map (Expr.eval ρ)).foldr V.add (.fin 0) ≤ (bs.map (Expr.eval ρ)).foldr V.add (.fin 0)
    else (bs.map (Expr.eval ρ)).foldr V.add (.fin 0) ≤ (l.map (Expr.eval ρ)).foldr V.add (.fin 0) := by
  induction h with
  | nil => cases up <;> exact V.le_refl (by simp)
  | cons hab _ ih =>
    simp only [List.map_cons, List.foldr_cons] at h1 h2 ⊢
    have n1 := V.add_ne_nan h1
    have n2 := V.add_ne_nan h2
    have := ih n1.2 n2.2
    cases up
    · simp only [Bool.false_eq_true, if_false] at hab this ⊢
      exact V.add_mono h1 h2 (hab n1.1 n2.1) this
    · simp only [if_true] at hab this ⊢
      exact V.add_mono h2 h1 (hab n1.1 n2.1) this

theorem add_lower {ρ : Val} {l bs : List Expr} {m : Expr} (h : List.Forall₂ (fun a b => LB ρ b a) l bs)
    (hacc : accumulate (fun x y => .add [x, y]) bs = .ok m) : LB ρ m (.add l) := by
  intro hm he
  have e := accumulate_eval_add (ρ := ρ) hacc
  rw [e] at hm ⊢
  simp only [Expr.eval, Expr.evalL_eq_map] at he ⊢
  simpa using add_bound_aux false (by simpa using h) hm he

theorem add_upper {ρ : Val} {l bs : List Expr} {m : Expr} (h : List.Forall₂ (fun a b => UB ρ b a) l bs)
    (hacc : accumulate (fun x y => .add [x, y]) bs = .ok m) : UB ρ m (.add l) := by
  intro hm he
  have e := accumulate_eval_add (ρ := ρ) hacc
  rw [e] at hm ⊢
  simp only [Expr.eval, Expr.evalL_eq_map] at he ⊢
  simpa using add_bound_aux true (by simpa using h) hm he

/-- `zext_i64` on values in `[0, 2^32)` -/
theorem eval_zext {ρ : Val} {m : Expr} (h : (Expr.fn "zext_i64" [m]).eval ρ ≠ .nan) :
    ∃ k, m.eval ρ = .fin k ∧ (Expr.fn "zext_i64" [m]).eval ρ = .fin (k % 2 ^ 32) := by
  simp only [Expr.eval, Expr.evalL] at h ⊢
  cases hm : m.eval ρ with
  | fin k => exact ⟨k, rfl, by simp [finArgs, applyFn]⟩
  | pinf => rw [hm] at h; simp [finArgs] at h
  | ninf => rw [hm] at h; simp [finArgs] at h
  | nan => rw [hm] at h; simp [finArgs] at h

theorem zext_lower {ρ : Val} {m a : Expr} (ih : LB ρ m a)
    (ha : ∀ v, a.eval ρ = .fin v → 0 ≤ v ∧ v < 2 ^ 32) (hk : ∀ k, m.eval ρ = .fin k → 0 ≤ k) :
    LB ρ (.fn "zext_i64" [m]) (.fn "zext_i64" [a]) := by
  intro h1 h2
  obtain ⟨k, hk1, hk2⟩ := eval_zext h1
  obtain ⟨v, hv1, hv2⟩ := eval_zext h2
  rw [hk2, hv2]
  have := ih (by rw [hk1]; simp) (by rw [hv1]; simp)
  rw [hk1, hv1] at this
  have hv := ha v hv1
  have hk0 := hk k hk1
  change k ≤ v at this
  change k % 2 ^ 32 ≤ v % 2 ^ 32
  omega

theorem zext_upper {ρ : Val} {m a : Expr} (ih : UB ρ m a)
    (ha : ∀ v, a.eval ρ = .fin v → 0 ≤ v ∧ v < 2 ^ 32) (hk : ∀ k, m.eval ρ = .fin k → k < 2 ^ 32) :
    UB ρ (.fn "zext_i64" [m]) (.fn "zext_i64" [a]) := by
  intro h1 h2
  obtain ⟨k, hk1, hk2⟩ := eval_zext h1
  obtain ⟨v, hv1, hv2⟩ := eval_zext h2
  rw [hk2, hv2]
  have := ih (by rw [hk1]; simp) (by rw [hv1]; simp)
  rw [hk1, hv1] at this
  have hv := ha v hv1
  have hk0 := hk k hk1
  change v ≤ k at this
  change v % 2 ^ 32 ≤ k % 2 ^ 32
  omega

theorem bind_ok {α β : Type} {r : Res α} {f : α → Res β} {b : β} (h : r.bind f = .ok b) :
    ∃ a, r = .ok a ∧ f a = .ok b := by
  cases r with
  | ub => simp [Res.bind] at h
  | null => simp [Res.bind] at h
  | ok a => exact ⟨a, rfl, h⟩

theorem forall₂_imp_mem {α β : Type} {R S : α → β → Prop} {l : List α} {bs : List β}
    (h : List.Forall₂ R l bs) (hi : ∀ a ∈ l, ∀ b, R a b → S a b) : List.Forall₂ S l bs := by
  induction h with
  | nil => exact .nil
  | cons h1 _ ih => exact .cons (hi _ (by simp) _ h1) (ih fun a ha => hi a (by simp [ha]))

theorem extremes_aux (P : List String) (A : Assums) (ρ : Val) (hA : A.Hold ρ)
    (hAf : AssumsFnOk (minimum P A) (maximum P A) ρ A) (d : Nat) :
    (∀ e m, FnOk (minimum P A) (maximum P A) ρ e → minimum P A d e = .ok m → LB ρ m e) ∧
    (∀ e m, FnOk (minimum P A) (maximum P A) ρ e → maximum P A d e = .ok m → UB ρ m e) := by
  induction d with
  | zero => constructor <;> intro e m _ h <;> simp [minimum, maximum] at h
  | succ d ih =>
    obtain ⟨ihm, ihM⟩ := ih
    have hbox : ∀ (l : List Expr) (bs : List (Expr × Expr)),
        (∀ e ∈ l, FnOk (minimum P A) (maximum P A) ρ e) →
        Res.mapM (fun a => pairBounds (minimum P A d a) (maximum P A d a)) l = .ok bs →
        List.Forall₂ (fun a (b : Expr × Expr) => LB ρ b.1 a ∧ UB ρ b.2 a) l bs := by
      intro l bs hl h
      refine forall₂_imp_mem (Res.mapM_ok _ _ _ h) ?_
      intro a ha b hb
      have := pairBounds_ok hb
      exact ⟨ihm a _ (hl a ha) this.1, ihM a _ (hl a ha) this.2⟩
    constructor
    · intro e m hf h
      cases e with
      | nan => simp [minimum] at h
      | int n => simp [minimum] at h; subst h; intro h1 _; exact V.le_refl h1
      | inf b => simp [minimum] at h; subst h; intro h1 _; exact V.le_refl h1
      | pow a b => simp [minimum] at h
      | sym x =>
        simp only [minimum] at h
        split at h
        · simp only [Res.ok.injEq] at h; subst h; intro h1 _; exact V.le_refl h1
        · cases ha : A x with
          | none => simp [ha] at h
          | some a =>
            simp only [ha] at h
            have hb := (hA x a ha).1.1
            intro h1 _
            exact V.le_trans (ihm _ _ (hAf x a ha).1 h h1 (V.ne_nan_of_le hb).1) (by simpa [Expr.eval] using hb)
      | fn f l =>
        cases l with
        | nil => simp [minimum] at h
        | cons a r =>
          simp only [minimum] at h
          obtain ⟨m', hm', hm2⟩ := bind_ok h
          simp only [Res.ok.injEq] at hm2; subst hm2
          obtain ⟨a', rfl, hargs, hv, hk, _⟩ := hf f (a :: r) (by simp [Expr.fns])
          simp only [List.cons.injEq] at hargs
          obtain ⟨rfl, rfl⟩ := hargs
          have hfa : FnOk (minimum P A) (maximum P A) ρ a :=
            FnOk.sub (l := [a]) (.inr ⟨_, rfl⟩) hf (by simp)
          exact zext_lower (ihm a m' hfa hm') hv (fun k hk' => hk d m' k hm' hk')
      | mul l =>
        simp only [minimum] at h
        obtain ⟨bs, hbs, hacc⟩ := bind_ok h
        intro h1 h2
        exact mul_lower bs l m hacc h1 h2 (hbox l bs (fun e he => FnOk.sub (.inl rfl) hf he) hbs)
      | add l =>
        simp only [minimum] at h
        obtain ⟨bs, hbs, hacc⟩ := bind_ok h
        exact add_lower (forall₂_imp_mem (Res.mapM_ok _ _ _ hbs)
          (fun a ha b hb => ihm a b (FnOk.sub (.inl rfl) hf ha) hb)) hacc
      | max l =>
        simp only [minimum] at h
        obtain ⟨bs, hbs, hacc⟩ := bind_ok h
        exact max_lower (forall₂_imp_mem (Res.mapM_ok _ _ _ hbs)
          (fun a ha b hb => ihm a b (FnOk.sub (.inl rfl) hf ha) hb)) hacc
      | min l =>
        simp only [minimum] at h
        obtain ⟨bs, hbs, hacc⟩ := bind_ok h
        exact min_lower (forall₂_imp_mem (Res.mapM_ok _ _ _ hbs)
          (fun a ha b hb => ihm a b (FnOk.sub (.inl rfl) hf ha) hb)) hacc
    · intro e m hf h
      cases e with
      | nan => simp [maximum] at h
      | int n => simp [maximum] at h; subst h; intro h1 _; exact V.le_refl h1
      | inf b => simp [maximum] at h; subst h; intro h1 _; exact V.le_refl h1
      | pow a b => simp [maximum] at h
      | sym x =>
        simp only [maximum] at h
        split at h
        · simp only [Res.ok.injEq] at h; subst h; intro h1 _; exact V.le_refl h1
        · cases ha : A x with
          | none => simp [ha] at h
          | some a =>
            simp only [ha] at h
            have hb := (hA x a ha).1.2
            intro h1 _
            exact V.le_trans (by simpa [Expr.eval] using hb) (ihM _ _ (hAf x a ha).2.1 h h1 (V.ne_nan_of_le hb).2)
      | fn f l =>
        cases l with
        | nil => simp [maximum] at h
        | cons a r =>
          simp only [maximum] at h
          obtain ⟨m', hm', hm2⟩ := bind_ok h
          simp only [Res.ok.injEq] at hm2; subst hm2
          obtain ⟨a', rfl, hargs, hv, _, hk⟩ := hf f (a :: r) (by simp [Expr.fns])
          simp only [List.cons.injEq] at hargs
          obtain ⟨rfl, rfl⟩ := hargs
          have hfa : FnOk (minimum P A) (maximum P A) ρ a :=
            FnOk.sub (l := [a]) (.inr ⟨_, rfl⟩) hf (by simp)
          exact zext_upper (ihM a m' hfa hm') hv (fun k hk' => hk d m' k hm' hk')
      | mul l =>
        simp only [maximum] at h
        obtain ⟨bs, hbs, hacc⟩ := bind_ok h
        intro h1 h2
        exact mul_upper bs l m hacc h1 h2 (hbox l bs (fun e he => FnOk.sub (.inl rfl) hf he) hbs)
      | add l =>
        simp only [maximum] at h
        obtain ⟨bs, hbs, hacc⟩ := bind_ok h
        exact add_upper (forall₂_imp_mem (Res.mapM_ok _ _ _ hbs)
          (fun a ha b hb => ihM a b (FnOk.sub (.inl rfl) hf ha) hb)) hacc
      | max l =>
        simp only [maximum] at h
        obtain ⟨bs, hbs, hacc⟩ := bind_ok h
        exact max_upper (forall₂_imp_mem (Res.mapM_ok _ _ _ hbs)
          (fun a ha b hb => ihM a b (FnOk.sub (.inl rfl) hf ha) hb)) hacc
      | min l =>
        simp only [maximum] at h
        obtain ⟨bs, hbs, hacc⟩ := bind_ok h
        exact min_upper (forall₂_imp_mem (Res.mapM_ok _ _ _ hbs)
          (fun a ha b hb => ihM a b (FnOk.sub (.inl rfl) hf ha) hb)) hacc

theorem combine_max {ρ : Val} {f : Expr → Res Expr} {X : V} {l : List Expr} {acc : Res Expr} {m : Expr}
    (h : combineBounds (fun x y => .max [x, y]) f l acc = .ok m)
    (hl : ∀ b ∈ l, ∀ m, f b = .ok m → m.eval ρ ≠ .nan → m.eval ρ ≤ X)
    (hacc : ∀ c, acc = .ok c → c.eval ρ ≠ .nan → c.eval ρ ≤ X) (hm : m.eval ρ ≠ .nan) : m.eval ρ ≤ X := by
  induction l generalizing acc with
  | nil => simp [combineBounds] at h; exact hacc m h hm
  | cons b r ih =>
    simp only [combineBounds] at h
    have hr : ∀ b ∈ r, ∀ m, f b = .ok m → m.eval ρ ≠ .nan → m.eval ρ ≤ X :=
      fun b hb => hl b (by simp [hb])
    cases hf : f b with
    | ub => simp [hf] at h
    | null => simp only [hf] at h; exact ih h hr hacc
    | ok m' =>
      simp only [hf] at h
      have hm' := hl b (by simp) m' hf
      cases acc with
      | ub => exact ih h hr (by intro c hc; simp at hc; subst hc; exact hm')
      | null => exact ih h hr (by intro c hc; simp at hc; subst hc; exact hm')
      | ok c =>
        refine ih h hr ?_
        intro c' hc' hn
        simp only [Res.ok.injEq] at hc'; subst hc'
        simp only [Expr.eval, Expr.evalL, List.foldl_cons, List.foldl_nil] at hn ⊢
        have := V.max_ne_nan.1 hn
        exact V.max_le (hacc c rfl this.1) (hm' this.2)

theorem combine_min {ρ : Val} {f : Expr → Res Expr} {X : V} {l : List Expr} {acc : Res Expr} {m : Expr}
    (h : combineBounds (fun x y => .min [x, y]) f l acc = .ok m)
    (hl : ∀ b ∈ l, ∀ m, f b = .ok m → m.eval ρ ≠ .nan → X ≤ m.eval ρ)
    (hacc : ∀ c, acc = .ok c → c.eval ρ ≠ .nan → X ≤ c.eval ρ) (hm : m.eval ρ ≠ .nan) : X ≤ m.eval ρ := by
  induction l generalizing acc with
  | nil => simp [combineBounds] at h; exact hacc m h hm
  | cons b r ih =>
    simp only [combineBounds] at h
    have hr : ∀ b ∈ r, ∀ m, f b = .ok m → m.eval ρ ≠ .nan → X ≤ m.eval ρ :=
      fun b hb => hl b (by simp [hb])
    cases hf : f b with
    | ub => simp [hf] at h
    | null => simp only [hf] at h; exact ih h hr hacc
    | ok m' =>
      simp only [hf] at h
      have hm' := hl b (by simp) m' hf
      cases acc with
      | ub => exact ih h hr (by intro c hc; simp at hc; subst hc; exact hm')
      | null => exact ih h hr (by intro c hc; simp at hc; subst hc; exact hm')
      | ok c =>
        refine ih h hr ?_
        intro c' hc' hn
        simp only [Res.ok.injEq] at hc'; subst hc'
        simp only [Expr.eval, Expr.evalL, List.foldl_cons, List.foldl_nil] at hn ⊢
        have := V.min_ne_nan.1 hn
        exact V.le_min (hacc c rfl this.1) (hm' this.2)

theorem extremes_new_aux (tight : Bool) (P : List String) (A : Assums) (ρ : Val) (hA : A.Hold ρ)
    (hAf : AssumsFnOk (minimumNew tight P A) (maximumNew tight P A) ρ A) (d : Nat) :
    (∀ e m, FnOk (minimumNew tight P A) (maximumNew tight P A) ρ e → minimumNew tight P A d e = .ok m → LB ρ m e) ∧
    (∀ e m, FnOk (minimumNew tight P A) (maximumNew tight P A) ρ e → maximumNew tight P A d e = .ok m → UB ρ m e) := by
  induction d with
  | zero => constructor <;> intro e m _ h <;> simp [minimumNew, maximumNew] at h
  | succ d ih =>
    obtain ⟨ihm, ihM⟩ := ih
    have hbox : ∀ (l : List Expr) (bs : List (Expr × Expr)),
        (∀ e ∈ l, FnOk (minimumNew tight P A) (maximumNew tight P A) ρ e) →
        Res.mapM (fun a => pairBounds (minimumNew tight P A d a) (maximumNew tight P A d a)) l = .ok bs →
        List.Forall₂ (fun a (b : Expr × Expr) => LB ρ b.1 a ∧ UB ρ b.2 a) l bs := by
      intro l bs hl h
      refine forall₂_imp_mem (Res.mapM_ok _ _ _ h) ?_
      intro a ha b hb
      have := pairBounds_ok hb
      exact ⟨ihm a _ (hl a ha) this.1, ihM a _ (hl a ha) this.2⟩
    constructor
    · intro e m hf h
      cases e with
      | nan => simp [minimumNew] at h
      | int n => simp [minimumNew] at h; subst h; intro h1 _; exact V.le_refl h1
      | inf b => simp [minimumNew] at h
      | pow a b => simp [minimumNew] at h
      | sym x =>
        simp only [minimumNew] at h
        split at h
        · simp only [Res.ok.injEq] at h; subst h; intro h1 _; exact V.le_refl h1
        · cases ha : A x with
          | none => simp [ha] at h
          | some a =>
            simp only [ha] at h
            obtain ⟨_, hlow, _, htl, _⟩ := hA x a ha
            obtain ⟨_, _, flow, _, ftl, _⟩ := hAf x a ha
            intro h1 _
            split at h
            · cases ht : a.tightLower with
              | none => simp [ht] at h
              | some b =>
                simp only [ht] at h
                have hb := htl b ht
                exact V.le_trans (ihm _ _ (ftl b ht) h h1 (V.ne_nan_of_le hb).1) (by simpa [Expr.eval] using hb)
            · refine combine_max h ?_ (by simp) h1
              intro b hb m' hm' hn
              exact V.le_trans (ihm _ _ (flow b hb) hm' hn (V.ne_nan_of_le (hlow b hb)).1)
                (by simpa [Expr.eval] using hlow b hb)
      | fn f l =>
        cases l with
        | nil => simp [minimumNew] at h
        | cons a r =>
          simp only [minimumNew] at h
          obtain ⟨m', hm', hm2⟩ := bind_ok h
          simp only [Res.ok.injEq] at hm2; subst hm2
          obtain ⟨a', rfl, hargs, hv, hk, _⟩ := hf f (a :: r) (by simp [Expr.fns])
          simp only [List.cons.injEq] at hargs
          obtain ⟨rfl, rfl⟩ := hargs
          have hfa : FnOk (minimumNew tight P A) (maximumNew tight P A) ρ a :=
            FnOk.sub (l := [a]) (.inr ⟨_, rfl⟩) hf (by simp)
          exact zext_lower (ihm a m' hfa hm') hv (fun k hk' => hk d m' k hm' hk')
      | mul l =>
        simp only [minimumNew] at h
        obtain ⟨bs, hbs, hacc⟩ := bind_ok h
        intro h1 h2
        exact mul_lower bs l m hacc h1 h2 (hbox l bs (fun e he => FnOk.sub (.inl rfl) hf he) hbs)
      | add l =>
        simp only [minimumNew] at h
        obtain ⟨bs, hbs, hacc⟩ := bind_ok h
        exact add_lower (forall₂_imp_mem (Res.mapM_ok _ _ _ hbs)
          (fun a ha b hb => ihm a b (FnOk.sub (.inl rfl) hf ha) hb)) hacc
      | max l =>
        simp only [minimumNew] at h
        obtain ⟨bs, hbs, hacc⟩ := bind_ok h
        exact max_lower (forall₂_imp_mem (Res.mapM_ok _ _ _ hbs)
          (fun a ha b hb => ihm a b (FnOk.sub (.inl rfl) hf ha) hb)) hacc
      | min l =>
        simp only [minimumNew] at h
        obtain ⟨bs, hbs, hacc⟩ := bind_ok h
        exact min_lower (forall₂_imp_mem (Res.mapM_ok _ _ _ hbs)
          (fun a ha b hb => ihm a b (FnOk.sub (.inl rfl) hf ha) hb)) hacc
    · intro e m hf h
      cases e with
      | nan => simp [maximumNew] at h
      | int n => simp [maximumNew] at h; subst h; intro h1 _; exact V.le_refl h1
      | inf b => simp [maximumNew] at h
      | pow a b => simp [maximumNew] at h
      | sym x =>
        simp only [maximumNew] at h
        split at h
        · simp only [Res.ok.injEq] at h; subst h; intro h1 _; exact V.le_refl h1
        · cases ha : A x with
          | none => simp [ha] at h
          | some a =>
            simp only [ha] at h
            obtain ⟨_, _, hup, _, htu⟩ := hA x a ha
            obtain ⟨_, _, _, fup, _, ftu⟩ := hAf x a ha
            intro h1 _
            split at h
            · cases ht : a.tightUpper with
              | none => simp [ht] at h
              | some b =>
                simp only [ht] at h
                have hb := htu b ht
                exact V.le_trans (by simpa [Expr.eval] using hb) (ihM _ _ (ftu b ht) h h1 (V.ne_nan_of_le hb).2)
            · refine combine_min h ?_ (by simp) h1
              intro b hb m' hm' hn
              exact V.le_trans (by simpa [Expr.eval] using hup b hb)
                (ihM _ _ (fup b hb) hm' hn (V.ne_nan_of_le (hup b hb)).2)
      | fn f l =>
        cases l with
        | nil => simp [maximumNew] at h
        | cons a r =>
          simp only [maximumNew] at h
          obtain ⟨m', hm', hm2⟩ := bind_ok h
          simp only [Res.ok.injEq] at hm2; subst hm2
          obtain ⟨a', rfl, hargs, hv, _, hk⟩ := hf f (a :: r) (by simp [Expr.fns])
          simp only [List.cons.injEq] at hargs
          obtain ⟨rfl, rfl⟩ := hargs
          have hfa : FnOk (minimumNew tight P A) (maximumNew tight P A) ρ a :=
            FnOk.sub (l := [a]) (.inr ⟨_, rfl⟩) hf (by simp)
          exact zext_upper (ihM a m' hfa hm') hv (fun k hk' => hk d m' k hm' hk')
      | mul l =>
        simp only [maximumNew] at h
        obtain ⟨bs, hbs, hacc⟩ := bind_ok h
        intro h1 h2
        exact mul_upper bs l m hacc h1 h2 (hbox l bs (fun e he => FnOk.sub (.inl rfl) hf he) hbs)
      | add l =>
        simp only [maximumNew] at h
        obtain ⟨bs, hbs, hacc⟩ := bind_ok h
        exact add_upper (forall₂_imp_mem (Res.mapM_ok _ _ _ hbs)
          (fun a ha b hb => ihM a b (FnOk.sub (.inl rfl) hf ha) hb)) hacc
      | max l =>
        simp only [maximumNew] at h
        obtain ⟨bs, hbs, hacc⟩ := bind_ok h
        exact max_upper (forall₂_imp_mem (Res.mapM_ok _ _ _ hbs)
          (fun a ha b hb => ihM a b (FnOk.sub (.inl rfl) hf ha) hb)) hacc
      | min l =>
        simp only [maximumNew] at h
        obtain ⟨bs, hbs, hacc⟩ := bind_ok h
        exact min_upper (forall₂_imp_mem (Res.mapM_ok _ _ _ hbs)
          (fun a ha b hb => ihM a b (FnOk.sub (.inl rfl) hf ha) hb)) hacc

/-- C02 (partial): bounds returned by `minimum`/`maximum` enclose the value of the expression, for every
expression, parameter set, assumption table and valuation that meets the assumptions, provided function
applications are zero extensions within range (`FnOk`).  Missing for the full claim: other function symbols and
out-of-range zero extensions, for which the claim is false (`minimum_idiv_unsound`, `minimum_zext_unsound`). -/
theorem extreme_values_sound_partial (P : List String) (A : Assums) (ρ : Val) (hA : A.Hold ρ)
    (hAf : AssumsFnOk (minimum P A) (maximum P A) ρ A) (e lo hi : Expr)
    (hf : FnOk (minimum P A) (maximum P A) ρ e) (he : e.eval ρ ≠ .nan) :
    (symMinimum P A e = .ok lo → lo.eval ρ ≠ .nan → lo.eval ρ ≤ e.eval ρ) ∧
    (symMaximum P A e = .ok hi → hi.eval ρ ≠ .nan → e.eval ρ ≤ hi.eval ρ) :=
  ⟨fun h h1 => (extremes_aux P A ρ hA hAf maxDepth).1 e lo hf h h1 he,
   fun h h1 => (extremes_aux P A ρ hA hAf maxDepth).2 e hi hf h h1 he⟩

/-- C02 (partial) for `minimum_new`/`maximum_new`, with and without tight bounds. -/
theorem extreme_values_new_sound_partial (tight : Bool) (P : List String) (A : Assums) (ρ : Val) (hA : A.Hold ρ)
    (hAf : AssumsFnOk (minimumNew tight P A) (maximumNew tight P A) ρ A) (e lo hi : Expr)
    (hf : FnOk (minimumNew tight P A) (maximumNew tight P A) ρ e) (he : e.eval ρ ≠ .nan) :
    (symMinimumNew tight P A e = .ok lo → lo.eval ρ ≠ .nan → lo.eval ρ ≤ e.eval ρ) ∧
    (symMaximumNew tight P A e = .ok hi → hi.eval ρ ≠ .nan → e.eval ρ ≤ hi.eval ρ) :=
  ⟨fun h h1 => (extremes_new_aux tight P A ρ hA hAf maxDepth).1 e lo hf h h1 he,
   fun h h1 => (extremes_new_aux tight P A ρ hA hAf maxDepth).2 e hi hf h h1 he⟩

/-- a two-symbol assumption table used in the examples: `i ∈ [-3, N-1]`, `N ≥ 1` -/
def exA : Assums := fun x =>
  if x = "i" then some { lower := .int (-3), upper := .add [.sym "N", .int (-1)], lowers := [.int (-3), .int (-7)],
                         uppers := [.add [.sym "N", .int (-1)]], tightLower := some (.int (-3)),
                         tightUpper := some (.add [.sym "N", .int (-1)]) }
  else if x = "N" then some { lower := .int 1, lowers := [.int 1] }
  else none

/-- `-2*i + N` -/
def exE : Expr := .add [.mul [.int (-2), .sym "i"], .sym "N"]

/-- The hypotheses of the two theorems are met with `i = 4`, `N = 9`, and both calls return bounds. -/
example : exA.Hold ⟨fun x => if x = "i" then 4 else 9, fun _ _ => 0⟩ ∧
    AssumsFnOk (minimum ["N"] exA) (maximum ["N"] exA) ⟨fun x => if x = "i" then 4 else 9, fun _ _ => 0⟩ exA ∧
    FnOk (minimum ["N"] exA) (maximum ["N"] exA) ⟨fun x => if x = "i" then 4 else 9, fun _ _ => 0⟩ exE ∧
    (∃ lo hi, symMinimum ["N"] exA exE = .ok lo ∧ symMaximum ["N"] exA exE = .ok hi ∧
      lo.eval ⟨fun x => if x = "i" then 4 else 9, fun _ _ => 0⟩ = .fin (-7) ∧
      hi.eval ⟨fun x => if x = "i" then 4 else 9, fun _ _ => 0⟩ = .fin 15) ∧
    (∃ lo hi, symMinimumNew false ["N"] exA exE = .ok lo ∧ symMaximumNew true ["N"] exA exE = .ok hi ∧
      lo.eval ⟨fun x => if x = "i" then 4 else 9, fun _ _ => 0⟩ = .fin (-7) ∧
      hi.eval ⟨fun x => if x = "i" then 4 else 9, fun _ _ => 0⟩ = .fin 15) := by
  refine ⟨?_, ?_, ?_, ⟨_, _, rfl, rfl, rfl, rfl⟩, ⟨_, _, rfl, rfl, rfl, rfl⟩⟩
  · intro x a h
    unfold exA at h
    split at h
    · subst x; simp at h; subst h
      refine ⟨⟨?_, ?_⟩, ?_, ?_, ?_, ?_⟩ <;> simp [Expr.eval, Expr.evalL, V.add, V.le_def, V.le]
    · split at h
      · subst x; simp at h; subst h
        refine ⟨⟨?_, ?_⟩, ?_, ?_, ?_, ?_⟩ <;> simp [Expr.eval, V.le_def, V.le]
      · simp at h
  · intro x a h
    unfold exA at h
    split at h
    · simp at h; subst h
      simp [FnOk, Expr.fns, Expr.fnsL]
    · split at h
      · simp at h; subst h
        simp [FnOk, Expr.fns]
      · simp at h
  · simp [FnOk, exE, Expr.fns, Expr.fnsL]

/-- an in-range zero extension also meets `FnOk` -/
example : FnOk (minimum [] exA) (maximum [] exA) ⟨fun _ => 4, fun _ _ => 0⟩ (.add [.fn "zext_i64" [.int 5], .int 1]) := by
  intro f args h
  simp [Expr.fns, Expr.fnsL] at h
  obtain ⟨rfl, rfl⟩ := h
  refine ⟨.int 5, rfl, rfl, ?_, ?_, ?_⟩
  · intro v hv; simp [Expr.eval] at hv; omega
  · intro d m k h hk
    cases d <;> simp [minimum] at h
    subst h; simp [Expr.eval] at hk; omega
  · intro d m k h hk
    cases d <;> simp [maximum] at h
    subst h; simp [Expr.eval] at hk; omega

/-- The full claim is false: with `10 ≤ x ≤ 20`, `minimum(idiv(x,2))` is `zext_i64(10)`, although the
expression is 5 at `x = 10`. -/
theorem minimum_idiv_unsound :
    ∃ (A : Assums) (ρ : Val) (e lo : Expr), A.Hold ρ ∧ symMinimum [] A e = .ok lo ∧
      e.eval ρ = .fin 5 ∧ lo.eval ρ = .fin 10 := by
  refine ⟨fun x => if x = "x" then some { lower := .int 10, upper := .int 20 } else none,
    ⟨fun _ => 10, fun _ _ => 0⟩, .fn "idiv" [.sym "x", .int 2], .fn "zext_i64" [.int 10], ?_, rfl, rfl, rfl⟩
  intro x a h
  dsimp only at h
  split at h
  · simp at h; subst h
    refine ⟨⟨?_, ?_⟩, ?_, ?_, ?_, ?_⟩ <;> simp [Expr.eval, V.le_def, V.le]
  · simp at h

/-- The full claim is false for zero extensions of possibly negative values: `x ∈ [-1, 1]`, `x = 1`:
`minimum(zext_i64(x)) = zext_i64(-1) = 2^32-1` exceeds the value 1. -/
theorem minimum_zext_unsound :
    ∃ (A : Assums) (ρ : Val) (e lo : Expr), A.Hold ρ ∧ symMinimum [] A e = .ok lo ∧
      e.eval ρ = .fin 1 ∧ lo.eval ρ = .fin 4294967295 := by
  refine ⟨fun x => if x = "x" then some { lower := .int (-1), upper := .int 1 } else none,
    ⟨fun _ => 1, fun _ _ => 0⟩, .fn "zext_i64" [.sym "x"], .fn "zext_i64" [.int (-1)], ?_, rfl, rfl, rfl⟩
  intro x a h
  dsimp only at h
  split at h
  · simp at h; subst h
    refine ⟨⟨?_, ?_⟩, ?_, ?_, ?_, ?_⟩ <;> simp [Expr.eval, V.le_def, V.le]
  · simp at h

/-- The same defect in `minimum_new`. -/
theorem minimum_new_idiv_unsound :
    ∃ (A : Assums) (ρ : Val) (e lo : Expr), A.Hold ρ ∧ symMinimumNew false [] A e = .ok lo ∧
      e.eval ρ = .fin 5 ∧ lo.eval ρ = .fin 10 := by
  refine ⟨fun x => if x = "x" then some { lowers := [.int 10], uppers := [.int 20] } else none,
    ⟨fun _ => 10, fun _ _ => 0⟩, .fn "idiv" [.sym "x", .int 2], .fn "zext_i64" [.int 10], ?_, rfl, rfl, rfl⟩
  intro x a h
  dsimp only at h
  split at h
  · simp at h; subst h
    refine ⟨⟨?_, ?_⟩, ?_, ?_, ?_, ?_⟩ <;> simp [Expr.eval, V.le_def, V.le]
  · simp at h

/-- Undefined behaviour is reachable: a size-of expression (a function symbol without arguments) makes
`minimum` read the first element of an empty argument vector. -/
theorem minimum_sizeof_undefined : symMinimum [] (fun _ => none) (.fn "sizeof" []) = .ub := rfl

end Docc.Sym
