import Verif.Sym.ExtremeClosed

/-
What the bounds of `minimum_new` / `maximum_new` look like: terms over the parameters, and numbers unless a function occurs.
-/
namespace Docc.Sym

/-- terms that are built from integers, the symbols `P`, `zext_i64` and pairwise operations -/
inductive Shape (P : List String) : Expr → Prop
  | int (n : Int) : Shape P (.int n)
  | sym {x : String} : x ∈ P → Shape P (.sym x)
  | zext {e : Expr} : Shape P e → Shape P (.fn "zext_i64" [e])
  | add {a b : Expr} : Shape P a → Shape P b → Shape P (.add [a, b])
  | mul {a b : Expr} : Shape P a → Shape P b → Shape P (.mul [a, b])
  | max {a b : Expr} : Shape P a → Shape P b → Shape P (.max [a, b])
  | min {a b : Expr} : Shape P a → Shape P b → Shape P (.min [a, b])

theorem Shape.atoms {P : List String} {e : Expr} (h : Shape P e) : ∀ x ∈ e.atoms, x ∈ P := by
  induction h with
  | int => simp [Expr.atoms]
  | sym hx => simp [Expr.atoms, hx]
  | zext _ ih => simpa [Expr.atoms, Expr.atomsL] using ih
  | add _ _ i1 i2 => simp only [Expr.atoms, Expr.atomsL, List.append_nil, List.mem_append]; rintro x (h | h); exacts [i1 x h, i2 x h]
  | mul _ _ i1 i2 => simp only [Expr.atoms, Expr.atomsL, List.append_nil, List.mem_append]; rintro x (h | h); exacts [i1 x h, i2 x h]
  | max _ _ i1 i2 => simp only [Expr.atoms, Expr.atomsL, List.append_nil, List.mem_append]; rintro x (h | h); exacts [i1 x h, i2 x h]
  | min _ _ i1 i2 => simp only [Expr.atoms, Expr.atomsL, List.append_nil, List.mem_append]; rintro x (h | h); exacts [i1 x h, i2 x h]

theorem Shape.fin {P : List String} {e : Expr} (h : Shape P e) (ρ : Val) (hf : e.fns = []) : ∃ v, e.eval ρ = .fin v := by
  induction h with
  | int n => exact ⟨n, rfl⟩
  | sym => exact ⟨_, rfl⟩
  | zext => simp [Expr.fns] at hf
  | add _ _ i1 i2 =>
    simp only [Expr.fns, Expr.fnsL, List.append_nil, List.append_eq_nil_iff] at hf
    obtain ⟨u, hu⟩ := i1 hf.1; obtain ⟨w, hw⟩ := i2 hf.2
    exact ⟨_, by simp [Expr.eval, Expr.evalL, hu, hw]; rfl⟩
  | mul _ _ i1 i2 =>
    simp only [Expr.fns, Expr.fnsL, List.append_nil, List.append_eq_nil_iff] at hf
    obtain ⟨u, hu⟩ := i1 hf.1; obtain ⟨w, hw⟩ := i2 hf.2
    exact ⟨_, by simp only [Expr.eval, Expr.evalL, hu, hw, List.foldr_cons, List.foldr_nil]; rfl⟩
  | max _ _ i1 i2 =>
    simp only [Expr.fns, Expr.fnsL, List.append_nil, List.append_eq_nil_iff] at hf
    obtain ⟨u, hu⟩ := i1 hf.1; obtain ⟨w, hw⟩ := i2 hf.2
    refine ⟨if u ≤ w then w else u, ?_⟩
    simp only [Expr.eval, Expr.evalL, hu, hw, List.foldl_cons, List.foldl_nil, V.max]
  | min _ _ i1 i2 =>
    simp only [Expr.fns, Expr.fnsL, List.append_nil, List.append_eq_nil_iff] at hf
    obtain ⟨u, hu⟩ := i1 hf.1; obtain ⟨w, hw⟩ := i2 hf.2
    refine ⟨if u ≤ w then u else w, ?_⟩
    simp only [Expr.eval, Expr.evalL, hu, hw, List.foldl_cons, List.foldl_nil, V.min]

theorem accumulate_shape {P : List String} {op : Expr → Expr → Expr} (ho : ∀ a b, Shape P a → Shape P b → Shape P (op a b))
    {bs : List Expr} {m : Expr} (h : accumulate op bs = .ok m) (hb : ∀ b ∈ bs, Shape P b) : Shape P m := by
  cases bs with
  | nil => simp [accumulate] at h
  | cons a r =>
    simp only [accumulate, Res.ok.injEq] at h
    subst h
    have : ∀ (r : List Expr) (a : Expr), Shape P a → (∀ b ∈ r, Shape P b) → Shape P (r.foldl op a) := by
      intro r
      induction r with
      | nil => intro a ha _; exact ha
      | cons b r ih => intro a ha hr; exact ih _ (ho _ _ ha (hr b (by simp))) fun c hc => hr c (by simp [hc])
    exact this r a (hb a (by simp)) fun b hb' => hb b (by simp [hb'])

theorem combine_shape {P : List String} {op : Expr → Expr → Expr} (ho : ∀ a b, Shape P a → Shape P b → Shape P (op a b))
    {f : Expr → Res Expr} (hf : ∀ b m, f b = .ok m → Shape P m) : ∀ (l : List Expr) (acc : Res Expr) (m : Expr),
    combineBounds op f l acc = .ok m → (∀ c, acc = .ok c → Shape P c) → Shape P m
  | [], acc, m, h, ha => by simp only [combineBounds] at h; exact ha m h
  | b :: r, acc, m, h, ha => by
    simp only [combineBounds] at h
    cases hb : f b with
    | ub => simp [hb] at h
    | null => simp only [hb] at h; exact combine_shape ho hf r acc m h ha
    | ok m1 =>
      simp only [hb] at h
      cases acc with
      | ok c => exact combine_shape ho hf r _ m h (by intro d hd; cases hd; exact ho _ _ (ha c rfl) (hf b m1 hb))
      | ub => exact combine_shape ho hf r _ m h (by intro d hd; cases hd; exact hf b m1 hb)
      | null => exact combine_shape ho hf r _ m h (by intro d hd; cases hd; exact hf b m1 hb)

theorem mapM_shape {α : Type} {Q : α → Prop} {f : Expr → Res α} (hf : ∀ b m, f b = .ok m → Q m) : ∀ (l : List Expr) (bs : List α),
    Res.mapM f l = .ok bs → ∀ b ∈ bs, Q b
  | [], bs, h => by simp only [Res.mapM, Res.ok.injEq] at h; subst h; simp
  | a :: r, bs, h => by
    simp only [Res.mapM] at h
    obtain ⟨b, hb, h⟩ := bind_ok h
    obtain ⟨bs', hbs, h⟩ := bind_ok h
    simp only [Res.ok.injEq] at h
    subst h
    exact List.forall_mem_cons.2 ⟨hf a b hb, mapM_shape hf r bs' hbs⟩

theorem corner_shape {P : List String} {bs : List (Expr × Expr)} (h : ∀ b ∈ bs, Shape P b.1 ∧ Shape P b.2) :
    ∀ c ∈ cornerProducts bs, Shape P c := by
  intro c hc
  simp only [cornerProducts, List.mem_map, List.mem_range] at hc
  obtain ⟨mask, _, rfl⟩ := hc
  unfold cornerProduct
  have : ∀ (l : List ((Expr × Expr) × Nat)) (e : Expr), Shape P e → (∀ b ∈ l, Shape P b.1.1 ∧ Shape P b.1.2) →
      Shape P (l.foldl (fun acc b => Expr.mul [acc, if mask.testBit b.2 then b.1.2 else b.1.1]) e) := by
    intro l
    induction l with
    | nil => intro e he _; exact he
    | cons b r ih =>
      intro e he hl
      refine ih _ (.mul he ?_) fun c hc => hl c (by simp [hc])
      split
      · exact (hl b (by simp)).2
      · exact (hl b (by simp)).1
  refine this _ _ (.int 1) fun b hb => ?_
  have := List.mem_zipIdx_iff_getElem?.1 hb
  exact h b.1 (List.mem_of_getElem? this)

theorem pair_shape {P : List String} {a b : Res Expr} {p : Expr × Expr} (h : pairBounds a b = .ok p)
    (ha : ∀ m, a = .ok m → Shape P m) (hb : ∀ m, b = .ok m → Shape P m) : Shape P p.1 ∧ Shape P p.2 := by
  cases a <;> cases b <;> simp only [pairBounds, Res.ok.injEq, reduceCtorEq] at h
  subst h
  exact ⟨ha _ rfl, hb _ rfl⟩

/-- the results of `minimum_new` and `maximum_new` -/
theorem extremes_shape (tight : Bool) (P : List String) (A : Assums) : ∀ d e m,
    (minimumNew tight P A d e = .ok m → Shape P m) ∧ (maximumNew tight P A d e = .ok m → Shape P m) := by
  intro d
  induction d with
  | zero => intro e m; constructor <;> intro h <;> simp [minimumNew, maximumNew] at h
  | succ d ih =>
    have imin := fun e m => (ih e m).1
    have imax := fun e m => (ih e m).2
    have hpair : ∀ l bs, Res.mapM (fun a => pairBounds (minimumNew tight P A d a) (maximumNew tight P A d a)) l = .ok bs →
        ∀ b ∈ bs, Shape P b.1 ∧ Shape P b.2 := fun l bs h =>
      mapM_shape (Q := fun b => Shape P b.1 ∧ Shape P b.2) (fun a p hp => pair_shape hp (imin a) (imax a)) l bs h
    intro e m
    cases e with
    | nan => constructor <;> intro h <;> simp [minimumNew, maximumNew] at h
    | inf b => constructor <;> intro h <;> simp [minimumNew, maximumNew] at h
    | pow a b => constructor <;> intro h <;> simp [minimumNew, maximumNew] at h
    | int n =>
      constructor <;> intro h <;> simp only [minimumNew, maximumNew, Res.ok.injEq] at h <;> subst h <;> exact .int n
    | fn f l =>
      cases l with
      | nil => constructor <;> intro h <;> simp [minimumNew, maximumNew] at h
      | cons a r =>
        constructor <;> intro h <;> simp only [minimumNew, maximumNew] at h <;> obtain ⟨b, hb, h⟩ := bind_ok h <;>
          simp only [Res.ok.injEq] at h <;> subst h
        · exact .zext (imin a b hb)
        · exact .zext (imax a b hb)
    | sym x =>
      constructor <;> intro h <;> simp only [minimumNew, maximumNew] at h <;> split at h
      · simp only [Res.ok.injEq] at h; subst h; exact .sym ‹_›
      · split at h
        · split at h
          · split at h
            · cases h
            · exact imin _ _ h
          · exact combine_shape (fun a b => .max) imin _ _ _ h (by intro c hc; cases hc)
        · cases h
      · simp only [Res.ok.injEq] at h; subst h; exact .sym ‹_›
      · split at h
        · split at h
          · split at h
            · cases h
            · exact imax _ _ h
          · exact combine_shape (fun a b => .min) imax _ _ _ h (by intro c hc; cases hc)
        · cases h
    | mul l =>
      constructor <;> intro h <;> simp only [minimumNew, maximumNew] at h <;> obtain ⟨bs, hbs, h⟩ := bind_ok h
      · exact accumulate_shape (fun a b => .min) h (corner_shape (hpair l bs hbs))
      · exact accumulate_shape (fun a b => .max) h (corner_shape (hpair l bs hbs))
    | add l =>
      constructor <;> intro h <;> simp only [minimumNew, maximumNew] at h <;> obtain ⟨bs, hbs, h⟩ := bind_ok h
      · exact accumulate_shape (fun a b => .add) h (mapM_shape (Q := Shape P) imin l bs hbs)
      · exact accumulate_shape (fun a b => .add) h (mapM_shape (Q := Shape P) imax l bs hbs)
    | max l =>
      constructor <;> intro h <;> simp only [minimumNew, maximumNew] at h <;> obtain ⟨bs, hbs, h⟩ := bind_ok h
      · exact accumulate_shape (fun a b => .min) h (mapM_shape (Q := Shape P) imin l bs hbs)
      · exact accumulate_shape (fun a b => .max) h (mapM_shape (Q := Shape P) imax l bs hbs)
    | min l =>
      constructor <;> intro h <;> simp only [minimumNew, maximumNew] at h <;> obtain ⟨bs, hbs, h⟩ := bind_ok h
      · exact accumulate_shape (fun a b => .min) h (mapM_shape (Q := Shape P) imin l bs hbs)
      · exact accumulate_shape (fun a b => .max) h (mapM_shape (Q := Shape P) imax l bs hbs)

theorem foldl_pick {op : V → V → V} (ho : ∀ a b : Int, ∃ c : Int, op (.fin a) (.fin b) = .fin c) : ∀ (l : List V) (v : Int), (∀ w ∈ l, ∃ u, w = .fin u) →
    ∃ u, l.foldl op (.fin v) = .fin u
  | [], v, _ => ⟨v, rfl⟩
  | w :: r, v, h => by
    obtain ⟨u, rfl⟩ := h w (by simp)
    obtain ⟨c, hc⟩ := ho v u
    rw [List.foldl_cons, hc]
    exact foldl_pick ho r c fun x hx => h x (by simp [hx])

theorem foldr_pick {op : V → V → V} (ho : ∀ a b : Int, ∃ c : Int, op (.fin a) (.fin b) = .fin c) (v : Int) : ∀ (l : List V), (∀ w ∈ l, ∃ u, w = .fin u) →
    ∃ u, l.foldr op (.fin v) = .fin u
  | [], _ => ⟨v, rfl⟩
  | w :: r, h => by
    obtain ⟨u, rfl⟩ := h w (by simp)
    obtain ⟨c, hc⟩ := foldr_pick ho v r fun x hx => h x (by simp [hx])
    rw [List.foldr_cons, hc]
    exact ho u c

theorem mapM_mem {α : Type} {f : Expr → Res α} : ∀ (l : List Expr) (bs : List α), Res.mapM f l = .ok bs →
    ∀ e ∈ l, ∃ b ∈ bs, f e = .ok b
  | [], bs, h => by simp
  | a :: r, bs, h => by
    simp only [Res.mapM] at h
    obtain ⟨b, hb, h⟩ := bind_ok h
    obtain ⟨bs', hbs, h⟩ := bind_ok h
    simp only [Res.ok.injEq] at h
    subst h
    refine List.forall_mem_cons.2 ⟨⟨b, by simp, hb⟩, fun e he => ?_⟩
    obtain ⟨c, hc, he⟩ := mapM_mem r bs' hbs e he
    exact ⟨c, by simp [hc], he⟩

theorem evalL_fin {ρ : Val} {l : List Expr} (h : ∀ e ∈ l, ∃ v, e.eval ρ = .fin v) : ∀ w ∈ Expr.evalL ρ l, ∃ u, w = .fin u := by
  intro w hw
  rw [Expr.evalL_eq_map] at hw
  obtain ⟨e, he, rfl⟩ := List.mem_map.1 hw
  exact h e he

theorem max_fin {ρ : Val} {l : List Expr} (h : ∀ e ∈ l, ∃ v, e.eval ρ = .fin v) (hl : l ≠ []) : ∃ v, (Expr.max l).eval ρ = .fin v := by
  cases l with
  | nil => exact absurd rfl hl
  | cons a r =>
    obtain ⟨v, hv⟩ := h a (by simp)
    simp only [Expr.eval, Expr.evalL, hv]
    exact foldl_pick (fun a b => ⟨_, rfl⟩) _ _ (evalL_fin fun e he => h e (by simp [he]))

theorem min_fin {ρ : Val} {l : List Expr} (h : ∀ e ∈ l, ∃ v, e.eval ρ = .fin v) (hl : l ≠ []) : ∃ v, (Expr.min l).eval ρ = .fin v := by
  cases l with
  | nil => exact absurd rfl hl
  | cons a r =>
    obtain ⟨v, hv⟩ := h a (by simp)
    simp only [Expr.eval, Expr.evalL, hv]
    exact foldl_pick (fun a b => ⟨_, rfl⟩) _ _ (evalL_fin fun e he => h e (by simp [he]))

/-- an expression for which `minimum_new` finds a bound without a function has a value -/
theorem bounded_fin (tight : Bool) (P : List String) (A : Assums) (ρ : Val) : ∀ d e m, minimumNew tight P A d e = .ok m → m.fns = [] →
    ∃ v, e.eval ρ = .fin v := by
  intro d
  induction d with
  | zero => intro e m h; simp [minimumNew] at h
  | succ d ih =>
    have hall : ∀ (op : Expr → Expr → Expr), Joins op → ∀ l bs m, Res.mapM (minimumNew tight P A d) l = .ok bs → accumulate op bs = .ok m → m.fns = [] →
        (∀ e ∈ l, ∃ v, e.eval ρ = .fin v) ∧ l ≠ [] := by
      intro op ho l bs m h1 h2 hm
      refine ⟨fun e he => ?_, ?_⟩
      · obtain ⟨b, hb, hbe⟩ := mapM_mem l bs h1 e he
        exact ih e b hbe (accumulate_fns ho h2 hm b hb)
      · rintro rfl
        simp only [Res.mapM, Res.ok.injEq] at h1
        subst h1
        simp [accumulate] at h2
    intro e m h hm
    cases e with
    | nan => simp [minimumNew] at h
    | inf b => simp [minimumNew] at h
    | pow a b => simp [minimumNew] at h
    | int n => exact ⟨n, rfl⟩
    | sym x => exact ⟨_, rfl⟩
    | fn f l =>
      cases l with
      | nil => simp [minimumNew] at h
      | cons a r =>
        simp only [minimumNew] at h
        obtain ⟨b, hb, h⟩ := bind_ok h
        simp only [Res.ok.injEq] at h
        subst h
        simp [Expr.fns] at hm
    | add l =>
      simp only [minimumNew] at h
      obtain ⟨bs, hbs, h⟩ := bind_ok h
      simp only [Expr.eval]
      exact foldr_pick (fun a b => ⟨_, rfl⟩) 0 _ (evalL_fin (hall _ joins_add l bs m hbs h hm).1)
    | max l =>
      simp only [minimumNew] at h
      obtain ⟨bs, hbs, h⟩ := bind_ok h
      have := hall _ joins_min l bs m hbs h hm
      exact max_fin this.1 this.2
    | min l =>
      simp only [minimumNew] at h
      obtain ⟨bs, hbs, h⟩ := bind_ok h
      have := hall _ joins_min l bs m hbs h hm
      exact min_fin this.1 this.2
    | mul l =>
      simp only [minimumNew] at h
      obtain ⟨bs, hbs, h⟩ := bind_ok h
      have hf := corners_fns (accumulate_fns joins_min h hm)
      simp only [Expr.eval]
      refine foldr_pick (fun a b => ?_) 1 _ (evalL_fin fun e he => ?_)
      · exact ⟨a * b, by simp [V.mul]⟩
      · obtain ⟨b, hb, hbe⟩ := mapM_mem l bs hbs e he
        cases h1 : minimumNew tight P A d e with
        | ub => cases h2 : maximumNew tight P A d e <;> simp [h1, h2, pairBounds] at hbe
        | null => cases h2 : maximumNew tight P A d e <;> simp [h1, h2, pairBounds] at hbe
        | ok a =>
          cases h2 : maximumNew tight P A d e with
          | ub => simp [h1, h2, pairBounds] at hbe
          | null => simp [h1, h2, pairBounds] at hbe
          | ok c =>
            simp only [h1, h2, pairBounds, Res.ok.injEq] at hbe
            subst hbe
            exact ih e a h1 (hf _ hb).1

end Docc.Sym
