import Verif.Sym.ExtremeProps

/-
Bounds without function applications are right whatever the expression and the assumptions contain: a function symbol met on
the way would have left a `zext_i64` in the result.
-/
namespace Docc.Sym

/-- a pairwise combination mentions the functions of both operands -/
def Joins (op : Expr → Expr → Expr) : Prop := ∀ x y, (op x y).fns = [] → x.fns = [] ∧ y.fns = []

theorem joins_add : Joins fun x y => .add [x, y] := by
  intro x y h; simpa [Expr.fns, Expr.fnsL] using h
theorem joins_max : Joins fun x y => .max [x, y] := by
  intro x y h; simpa [Expr.fns, Expr.fnsL] using h
theorem joins_min : Joins fun x y => .min [x, y] := by
  intro x y h; simpa [Expr.fns, Expr.fnsL] using h

theorem foldl_fns {op : Expr → Expr → Expr} (ho : Joins op) (l : List Expr) : ∀ e, (l.foldl op e).fns = [] →
    e.fns = [] ∧ ∀ b ∈ l, b.fns = [] := by
  induction l with
  | nil => intro e h; exact ⟨h, by simp⟩
  | cons a r ih =>
    intro e h
    rw [List.foldl_cons] at h
    obtain ⟨h1, h2⟩ := ih _ h
    obtain ⟨h3, h4⟩ := ho _ _ h1
    exact ⟨h3, List.forall_mem_cons.2 ⟨h4, h2⟩⟩

theorem accumulate_fns {op : Expr → Expr → Expr} (ho : Joins op) {bs : List Expr} {m : Expr}
    (h : accumulate op bs = .ok m) (hm : m.fns = []) : ∀ b ∈ bs, b.fns = [] := by
  cases bs with
  | nil => simp
  | cons a r =>
    simp only [accumulate, Res.ok.injEq] at h
    subst h
    obtain ⟨h1, h2⟩ := foldl_fns ho r a hm
    exact List.forall_mem_cons.2 ⟨h1, h2⟩

theorem combine_fns {op : Expr → Expr → Expr} (ho : Joins op) {f : Expr → Res Expr} {l : List Expr} {acc : Res Expr}
    {m : Expr} (h : combineBounds op f l acc = .ok m) (hm : m.fns = []) :
    (∀ c, acc = .ok c → c.fns = []) ∧ ∀ b ∈ l, ∀ m', f b = .ok m' → m'.fns = [] := by
  induction l generalizing acc with
  | nil =>
    simp only [combineBounds] at h
    refine ⟨fun c hc => ?_, by simp⟩
    rw [h] at hc; cases hc; exact hm
  | cons b r ih =>
    simp only [combineBounds] at h
    cases hf : f b with
    | ub => simp [hf] at h
    | null =>
      simp only [hf] at h
      obtain ⟨h1, h2⟩ := ih h
      refine ⟨h1, fun b' hb' m' hm' => ?_⟩
      rcases List.mem_cons.1 hb' with rfl | hb'
      · rw [hf] at hm'; cases hm'
      · exact h2 b' hb' m' hm'
    | ok m1 =>
      simp only [hf] at h
      have key : ∀ acc', combineBounds op f r acc' = .ok m → (∀ c, acc' = .ok c → c.fns = [] → m1.fns = []) →
          (∃ c, acc' = .ok c) → ∀ b' ∈ b :: r, ∀ m', f b' = .ok m' → m'.fns = [] := by
        intro acc' h' h3 ⟨c, hc⟩ b' hb' m' hm'
        obtain ⟨h1, h2⟩ := ih h'
        rcases List.mem_cons.1 hb' with rfl | hb'
        · rw [hf] at hm'; cases hm'; exact h3 c hc (h1 c hc)
        · exact h2 b' hb' m' hm'
      cases acc with
      | ub => exact ⟨(by intro c hc; cases hc), key _ h (by intro c hc h4; cases hc; exact h4) ⟨_, rfl⟩⟩
      | null => exact ⟨(by intro c hc; cases hc), key _ h (by intro c hc h4; cases hc; exact h4) ⟨_, rfl⟩⟩
      | ok c =>
        refine ⟨fun c' hc' => ?_, key _ h (by intro c' hc h4; cases hc; exact (ho _ _ h4).2) ⟨_, rfl⟩⟩
        cases hc'
        exact (ho _ _ ((ih h).1 _ rfl)).1

theorem corner_foldl (mask : Nat) : ∀ (l : List ((Expr × Expr) × Nat)) (e : Expr),
    (l.foldl (fun acc b => Expr.mul [acc, if mask.testBit b.2 then b.1.2 else b.1.1]) e).fns = [] →
    ∀ b ∈ l, (if mask.testBit b.2 then b.1.2 else b.1.1).fns = [] := by
  intro l
  induction l with
  | nil => intro e _; simp
  | cons a r ih =>
    intro e h
    rw [List.foldl_cons] at h
    refine List.forall_mem_cons.2 ⟨?_, ih _ h⟩
    have h0 : ∀ (l : List ((Expr × Expr) × Nat)) (e : Expr),
        (l.foldl (fun acc b => Expr.mul [acc, if mask.testBit b.2 then b.1.2 else b.1.1]) e).fns = [] → e.fns = [] := by
      intro l
      induction l with
      | nil => intro e h; exact h
      | cons a r ih2 =>
        intro e h
        rw [List.foldl_cons] at h
        have := ih2 _ h
        simp only [Expr.fns, Expr.fnsL, List.append_nil, List.append_eq_nil_iff] at this
        exact this.1
    have := h0 _ _ h
    simp only [Expr.fns, Expr.fnsL, List.append_nil, List.append_eq_nil_iff] at this
    exact this.2

theorem corners_fns {bs : List (Expr × Expr)} (h : ∀ c ∈ cornerProducts bs, c.fns = []) :
    ∀ b ∈ bs, b.1.fns = [] ∧ b.2.fns = [] := by
  intro b hb
  obtain ⟨i, hi, rfl⟩ := List.mem_iff_getElem.1 hb
  have hmem : (bs[i], i) ∈ bs.zipIdx := by
    rw [List.mem_zipIdx_iff_getElem?]; simp [hi]
  constructor
  · have := h (cornerProduct bs 0) (List.mem_map.2 ⟨0, by simp, rfl⟩)
    simpa using corner_foldl 0 _ _ this _ hmem
  · have h2 : 2 ^ i < 2 ^ bs.length := Nat.pow_lt_pow_right (by decide) hi
    have := h (cornerProduct bs (2 ^ i)) (List.mem_map.2 ⟨2 ^ i, by simp [h2], rfl⟩)
    simpa [Nat.testBit_two_pow_self] using corner_foldl (2 ^ i) _ _ this _ hmem

theorem mem_of_forall₂ {α β : Type} {R : α → β → Prop} {l : List α} {bs : List β} (h : List.Forall₂ R l bs) :
    List.Forall₂ (fun a b => R a b ∧ b ∈ bs) l bs := by
  induction h with
  | nil => exact .nil
  | cons h1 _ ih =>
    exact .cons ⟨h1, by simp⟩ (List.Forall₂.imp (fun a b hab => ⟨hab.1, List.mem_cons_of_mem _ hab.2⟩) ih)

theorem extremes_new_closed_aux (tight : Bool) (P : List String) (A : Assums) (ρ : Val) (hA : A.Hold ρ) (d : Nat) :
    (∀ e m, minimumNew tight P A d e = .ok m → m.fns = [] → LB ρ m e) ∧
    (∀ e m, maximumNew tight P A d e = .ok m → m.fns = [] → UB ρ m e) := by
  induction d with
  | zero => constructor <;> intro e m h <;> simp [minimumNew, maximumNew] at h
  | succ d ih =>
    obtain ⟨ihm, ihM⟩ := ih
    have hbox : ∀ (l : List Expr) (bs : List (Expr × Expr)), (∀ b ∈ bs, b.1.fns = [] ∧ b.2.fns = []) →
        Res.mapM (fun a => pairBounds (minimumNew tight P A d a) (maximumNew tight P A d a)) l = .ok bs →
        List.Forall₂ (fun a (b : Expr × Expr) => LB ρ b.1 a ∧ UB ρ b.2 a) l bs := by
      intro l bs hb h
      refine List.Forall₂.imp ?_ (mem_of_forall₂ (Res.mapM_ok _ _ _ h))
      rintro a b ⟨h1, h2⟩
      have := pairBounds_ok h1
      exact ⟨ihm a _ this.1 (hb b h2).1, ihM a _ this.2 (hb b h2).2⟩
    have hmin : ∀ (l bs : List Expr), (∀ b ∈ bs, b.fns = []) → Res.mapM (minimumNew tight P A d) l = .ok bs →
        List.Forall₂ (fun a b => LB ρ b a) l bs := by
      intro l bs hb h
      refine List.Forall₂.imp ?_ (mem_of_forall₂ (Res.mapM_ok _ _ _ h))
      rintro a b ⟨h1, h2⟩
      exact ihm a b h1 (hb b h2)
    have hmax : ∀ (l bs : List Expr), (∀ b ∈ bs, b.fns = []) → Res.mapM (maximumNew tight P A d) l = .ok bs →
        List.Forall₂ (fun a b => UB ρ b a) l bs := by
      intro l bs hb h
      refine List.Forall₂.imp ?_ (mem_of_forall₂ (Res.mapM_ok _ _ _ h))
      rintro a b ⟨h1, h2⟩
      exact ihM a b h1 (hb b h2)
    constructor
    · intro e m h hf
      cases e with
      | nan => simp [minimumNew] at h
      | int n => simp [minimumNew] at h; subst h; intro h1 _; exact V.le_refl h1
      | inf b => simp [minimumNew] at h
      | pow a b => simp [minimumNew] at h
      | sym x =>
        simp only [minimumNew] at h
        split at h
        · simp only [Res.ok.injEq] at h; subst h; intro h1 _; exact V.le_refl h1
        · cases ha : A x with
          | none => simp [ha] at h
          | some a =>
            simp only [ha] at h
            obtain ⟨_, hlow, _, htl, _⟩ := hA x a ha
            intro h1 _
            split at h
            · cases ht : a.tightLower with
              | none => simp [ht] at h
              | some b =>
                simp only [ht] at h
                have hb := htl b ht
                exact V.le_trans (ihm _ _ h hf h1 (V.ne_nan_of_le hb).1) (by simpa [Expr.eval] using hb)
            · have hq := (combine_fns joins_max h hf).2
              refine combine_max h ?_ (by simp) h1
              intro b hb m' hm' hn
              exact V.le_trans (ihm _ _ hm' (hq b hb m' hm') hn (V.ne_nan_of_le (hlow b hb)).1)
                (by simpa [Expr.eval] using hlow b hb)
      | fn f l =>
        cases l with
        | nil => simp [minimumNew] at h
        | cons a r =>
          simp only [minimumNew] at h
          obtain ⟨m', _, hm2⟩ := bind_ok h
          simp only [Res.ok.injEq] at hm2; subst hm2
          simp [Expr.fns] at hf
      | mul l =>
        simp only [minimumNew] at h
        obtain ⟨bs, hbs, hacc⟩ := bind_ok h
        intro h1 h2
        exact mul_lower bs l m hacc h1 h2 (hbox l bs (corners_fns (accumulate_fns joins_min hacc hf)) hbs)
      | add l =>
        simp only [minimumNew] at h
        obtain ⟨bs, hbs, hacc⟩ := bind_ok h
        exact add_lower (hmin l bs (accumulate_fns joins_add hacc hf) hbs) hacc
      | max l =>
        simp only [minimumNew] at h
        obtain ⟨bs, hbs, hacc⟩ := bind_ok h
        exact max_lower (hmin l bs (accumulate_fns joins_min hacc hf) hbs) hacc
      | min l =>
        simp only [minimumNew] at h
        obtain ⟨bs, hbs, hacc⟩ := bind_ok h
        exact min_lower (hmin l bs (accumulate_fns joins_min hacc hf) hbs) hacc
    · intro e m h hf
      cases e with
      | nan => simp [maximumNew] at h
      | int n => simp [maximumNew] at h; subst h; intro h1 _; exact V.le_refl h1
      | inf b => simp [maximumNew] at h
      | pow a b => simp [maximumNew] at h
      | sym x =>
        simp only [maximumNew] at h
        split at h
        · simp only [Res.ok.injEq] at h; subst h; intro h1 _; exact V.le_refl h1
        · cases ha : A x with
          | none => simp [ha] at h
          | some a =>
            simp only [ha] at h
            obtain ⟨_, _, hup, _, htu⟩ := hA x a ha
            intro h1 _
            split at h
            · cases ht : a.tightUpper with
              | none => simp [ht] at h
              | some b =>
                simp only [ht] at h
                have hb := htu b ht
                exact V.le_trans (by simpa [Expr.eval] using hb) (ihM _ _ h hf h1 (V.ne_nan_of_le hb).2)
            · have hq := (combine_fns joins_min h hf).2
              refine combine_min h ?_ (by simp) h1
              intro b hb m' hm' hn
              exact V.le_trans (by simpa [Expr.eval] using hup b hb)
                (ihM _ _ hm' (hq b hb m' hm') hn (V.ne_nan_of_le (hup b hb)).2)
      | fn f l =>
        cases l with
        | nil => simp [maximumNew] at h
        | cons a r =>
          simp only [maximumNew] at h
          obtain ⟨m', _, hm2⟩ := bind_ok h
          simp only [Res.ok.injEq] at hm2; subst hm2
          simp [Expr.fns] at hf
      | mul l =>
        simp only [maximumNew] at h
        obtain ⟨bs, hbs, hacc⟩ := bind_ok h
        intro h1 h2
        exact mul_upper bs l m hacc h1 h2 (hbox l bs (corners_fns (accumulate_fns joins_max hacc hf)) hbs)
      | add l =>
        simp only [maximumNew] at h
        obtain ⟨bs, hbs, hacc⟩ := bind_ok h
        exact add_upper (hmax l bs (accumulate_fns joins_add hacc hf) hbs) hacc
      | max l =>
        simp only [maximumNew] at h
        obtain ⟨bs, hbs, hacc⟩ := bind_ok h
        exact max_upper (hmax l bs (accumulate_fns joins_max hacc hf) hbs) hacc
      | min l =>
        simp only [maximumNew] at h
        obtain ⟨bs, hbs, hacc⟩ := bind_ok h
        exact min_upper (hmax l bs (accumulate_fns joins_max hacc hf) hbs) hacc

theorem extremes_closed_aux (P : List String) (A : Assums) (ρ : Val) (hA : A.Hold ρ) (d : Nat) :
    (∀ e m, minimum P A d e = .ok m → m.fns = [] → LB ρ m e) ∧
    (∀ e m, maximum P A d e = .ok m → m.fns = [] → UB ρ m e) := by
  induction d with
  | zero => constructor <;> intro e m h <;> simp [minimum, maximum] at h
  | succ d ih =>
    obtain ⟨ihm, ihM⟩ := ih
    have hbox : ∀ (l : List Expr) (bs : List (Expr × Expr)), (∀ b ∈ bs, b.1.fns = [] ∧ b.2.fns = []) →
        Res.mapM (fun a => pairBounds (minimum P A d a) (maximum P A d a)) l = .ok bs →
        List.Forall₂ (fun a (b : Expr × Expr) => LB ρ b.1 a ∧ UB ρ b.2 a) l bs := by
      intro l bs hb h
      refine List.Forall₂.imp ?_ (mem_of_forall₂ (Res.mapM_ok _ _ _ h))
      rintro a b ⟨h1, h2⟩
      have := pairBounds_ok h1
      exact ⟨ihm a _ this.1 (hb b h2).1, ihM a _ this.2 (hb b h2).2⟩
    have hmin : ∀ (l bs : List Expr), (∀ b ∈ bs, b.fns = []) → Res.mapM (minimum P A d) l = .ok bs →
        List.Forall₂ (fun a b => LB ρ b a) l bs := by
      intro l bs hb h
      refine List.Forall₂.imp ?_ (mem_of_forall₂ (Res.mapM_ok _ _ _ h))
      rintro a b ⟨h1, h2⟩
      exact ihm a b h1 (hb b h2)
    have hmax : ∀ (l bs : List Expr), (∀ b ∈ bs, b.fns = []) → Res.mapM (maximum P A d) l = .ok bs →
        List.Forall₂ (fun a b => UB ρ b a) l bs := by
      intro l bs hb h
      refine List.Forall₂.imp ?_ (mem_of_forall₂ (Res.mapM_ok _ _ _ h))
      rintro a b ⟨h1, h2⟩
      exact ihM a b h1 (hb b h2)
    constructor
    · intro e m h hf
      cases e with
      | nan => simp [minimum] at h
      | int n => simp [minimum] at h; subst h; intro h1 _; exact V.le_refl h1
      | inf b => simp [minimum] at h; subst h; intro h1 _; exact V.le_refl h1
      | pow a b => simp [minimum] at h
      | sym x =>
        simp only [minimum] at h
        split at h
        · simp only [Res.ok.injEq] at h; subst h; intro h1 _; exact V.le_refl h1
        · cases ha : A x with
          | none => simp [ha] at h
          | some a =>
            simp only [ha] at h
            obtain ⟨⟨hlow, _⟩, _⟩ := hA x a ha
            intro h1 _
            exact V.le_trans (ihm _ _ h hf h1 (V.ne_nan_of_le hlow).1) (by simpa [Expr.eval] using hlow)
      | fn f l =>
        cases l with
        | nil => simp [minimum] at h
        | cons a r =>
          simp only [minimum] at h
          obtain ⟨m', _, hm2⟩ := bind_ok h
          simp only [Res.ok.injEq] at hm2; subst hm2
          simp [Expr.fns] at hf
      | mul l =>
        simp only [minimum] at h
        obtain ⟨bs, hbs, hacc⟩ := bind_ok h
        intro h1 h2
        exact mul_lower bs l m hacc h1 h2 (hbox l bs (corners_fns (accumulate_fns joins_min hacc hf)) hbs)
      | add l =>
        simp only [minimum] at h
        obtain ⟨bs, hbs, hacc⟩ := bind_ok h
        exact add_lower (hmin l bs (accumulate_fns joins_add hacc hf) hbs) hacc
      | max l =>
        simp only [minimum] at h
        obtain ⟨bs, hbs, hacc⟩ := bind_ok h
        exact max_lower (hmin l bs (accumulate_fns joins_min hacc hf) hbs) hacc
      | min l =>
        simp only [minimum] at h
        obtain ⟨bs, hbs, hacc⟩ := bind_ok h
        exact min_lower (hmin l bs (accumulate_fns joins_min hacc hf) hbs) hacc
    · intro e m h hf
      cases e with
      | nan => simp [maximum] at h
      | int n => simp [maximum] at h; subst h; intro h1 _; exact V.le_refl h1
      | inf b => simp [maximum] at h; subst h; intro h1 _; exact V.le_refl h1
      | pow a b => simp [maximum] at h
      | sym x =>
        simp only [maximum] at h
        split at h
        · simp only [Res.ok.injEq] at h; subst h; intro h1 _; exact V.le_refl h1
        · cases ha : A x with
          | none => simp [ha] at h
          | some a =>
            simp only [ha] at h
            obtain ⟨⟨_, hup⟩, _⟩ := hA x a ha
            intro h1 _
            exact V.le_trans (by simpa [Expr.eval] using hup) (ihM _ _ h hf h1 (V.ne_nan_of_le hup).2)
      | fn f l =>
        cases l with
        | nil => simp [maximum] at h
        | cons a r =>
          simp only [maximum] at h
          obtain ⟨m', _, hm2⟩ := bind_ok h
          simp only [Res.ok.injEq] at hm2; subst hm2
          simp [Expr.fns] at hf
      | mul l =>
        simp only [maximum] at h
        obtain ⟨bs, hbs, hacc⟩ := bind_ok h
        intro h1 h2
        exact mul_upper bs l m hacc h1 h2 (hbox l bs (corners_fns (accumulate_fns joins_max hacc hf)) hbs)
      | add l =>
        simp only [maximum] at h
        obtain ⟨bs, hbs, hacc⟩ := bind_ok h
        exact add_upper (hmax l bs (accumulate_fns joins_add hacc hf) hbs) hacc
      | max l =>
        simp only [maximum] at h
        obtain ⟨bs, hbs, hacc⟩ := bind_ok h
        exact max_upper (hmax l bs (accumulate_fns joins_max hacc hf) hbs) hacc
      | min l =>
        simp only [maximum] at h
        obtain ⟨bs, hbs, hacc⟩ := bind_ok h
        exact min_upper (hmax l bs (accumulate_fns joins_max hacc hf) hbs) hacc

/-- **C02 (partial, results without functions).** `minimum_new`/`maximum_new`: for all expressions, assumptions, parameters and
valuations that satisfy the assumptions, a returned bound that contains no function application bounds the value of the
expression, whatever functions the expression and the assumptions contain.  Missing: results with functions, which can be
wrong (`minimum_new_idiv_unsound`). -/
theorem extreme_values_new_closed_partial (tight : Bool) (P : List String) (A : Assums) (ρ : Val) (hA : A.Hold ρ)
    (e lo hi : Expr) (he : e.eval ρ ≠ .nan) :
    (symMinimumNew tight P A e = .ok lo → lo.fns = [] → lo.eval ρ ≠ .nan → lo.eval ρ ≤ e.eval ρ) ∧
    (symMaximumNew tight P A e = .ok hi → hi.fns = [] → hi.eval ρ ≠ .nan → e.eval ρ ≤ hi.eval ρ) :=
  ⟨fun h hf h1 => (extremes_new_closed_aux tight P A ρ hA maxDepth).1 e lo h hf h1 he,
   fun h hf h1 => (extremes_new_closed_aux tight P A ρ hA maxDepth).2 e hi h hf h1 he⟩

/-- **C02 (partial, results without functions).** The same for `minimum`/`maximum`. -/
theorem extreme_values_closed_partial (P : List String) (A : Assums) (ρ : Val) (hA : A.Hold ρ)
    (e lo hi : Expr) (he : e.eval ρ ≠ .nan) :
    (symMinimum P A e = .ok lo → lo.fns = [] → lo.eval ρ ≠ .nan → lo.eval ρ ≤ e.eval ρ) ∧
    (symMaximum P A e = .ok hi → hi.fns = [] → hi.eval ρ ≠ .nan → e.eval ρ ≤ hi.eval ρ) :=
  ⟨fun h hf h1 => (extremes_closed_aux P A ρ hA maxDepth).1 e lo h hf h1 he,
   fun h hf h1 => (extremes_closed_aux P A ρ hA maxDepth).2 e hi h hf h1 he⟩

/-- `i` lies between 3 and `idiv(N, 2)` -/
def exClosed : Assums := fun x =>
  if x = "i" then some { lower := .int 3, upper := .fn "idiv" [.sym "N", .int 2], lowers := [.int 3],
                         uppers := [.fn "idiv" [.sym "N", .int 2]], tightLower := some (.int 3),
                         tightUpper := some (.fn "idiv" [.sym "N", .int 2]) }
  else none

/-- `i = 4`, `N = 9` -/
def exClosedVal : Val := ⟨fun x => if x = "i" then 4 else 9, fun _ _ => 0⟩

/-- The hypotheses are met although the assumptions contain a function: the minimum of `i + 2` is found without looking at the
upper bound. -/
example :
    exClosed.Hold exClosedVal ∧ (∃ lo, symMinimumNew true [] exClosed (.add [.sym "i", .int 2]) = .ok lo ∧ lo.fns = [] ∧ lo.eval exClosedVal = .fin 5) ∧
    (∃ hi, symMaximumNew true ["N"] exClosed (.sym "i") = .ok hi ∧ hi.fns ≠ []) ∧
    ∃ lo, symMinimum [] exClosed (.add [.sym "i", .int 2]) = .ok lo ∧ lo.fns = [] ∧ lo.eval exClosedVal = .fin 5 := by
  refine ⟨?_, ⟨_, rfl, rfl, rfl⟩, ⟨_, rfl, by simp [Expr.fns]⟩, ⟨_, rfl, rfl, rfl⟩⟩
  intro x a h
  unfold exClosed at h
  split at h
  · subst x; simp at h; subst h
    refine ⟨⟨?_, ?_⟩, ?_, ?_, ?_, ?_⟩ <;> simp [exClosedVal, Expr.eval, Expr.evalL, applyFn, finArgs, V.le_def, V.le]
  · simp at h

end Docc.Sym
