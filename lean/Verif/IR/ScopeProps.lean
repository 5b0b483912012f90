import Verif.IR.Scope

/-
The scope tree is the nesting of the control flow nodes.
-/
namespace Docc.IR.Scope

theorem sub_mk {u : Cn} {i : Nat} {k : Kd} {l : Cs} : Sub u (.mk i k l) ↔ u = .mk i k l ∨ ∃ c ∈ l.list, Sub u c := by
  constructor
  · intro h
    cases h with
    | refl => exact .inl rfl
    | kid hc hs => exact .inr ⟨_, hc, hs⟩
  · rintro (h | ⟨c, hc, hs⟩)
    · exact h ▸ .refl _
    · exact .kid hc hs

theorem parent_mk {p n i : Nat} {k : Kd} {l : Cs} :
    (Cn.mk i k l).Parent p n ↔ (p = i ∧ ∃ c ∈ l.list, c.id = n) ∨ ∃ c ∈ l.list, c.Parent p n := by
  constructor
  · rintro ⟨u, hs, hp, c, hc, hn⟩
    rcases sub_mk.1 hs with rfl | ⟨d, hd, hs'⟩
    · exact .inl ⟨hp.symm, c, hc, hn⟩
    · exact .inr ⟨d, hd, u, hs', hp, c, hc, hn⟩
  · rintro (⟨rfl, c, hc, hn⟩ | ⟨d, hd, u, hs, hp, h⟩)
    · exact ⟨_, .refl _, rfl, c, hc, hn⟩
    · exact ⟨u, .kid hd hs, hp, h⟩

theorem encloses_mk {p n i : Nat} {k : Kd} {l : Cs} :
    (Cn.mk i k l).Encloses p n ↔ (p = i ∧ ∃ c ∈ l.list, c.Has n) ∨ ∃ c ∈ l.list, c.Encloses p n := by
  constructor
  · rintro ⟨u, hs, hp, c, hc, hn⟩
    rcases sub_mk.1 hs with rfl | ⟨d, hd, hs'⟩
    · exact .inl ⟨hp.symm, c, hc, hn⟩
    · exact .inr ⟨d, hd, u, hs', hp, c, hc, hn⟩
  · rintro (⟨rfl, c, hc, hn⟩ | ⟨d, hd, u, hs, hp, h⟩)
    · exact ⟨_, .refl _, rfl, c, hc, hn⟩
    · exact ⟨u, .kid hd hs, hp, h⟩

theorem has_mk {n i : Nat} {k : Kd} {l : Cs} : (Cn.mk i k l).Has n ↔ n = i ∨ ∃ c ∈ l.list, c.Has n := by
  constructor
  · rintro ⟨u, hs, hn⟩
    rcases sub_mk.1 hs with rfl | ⟨d, hd, hs'⟩
    · exact .inl hn.symm
    · exact .inr ⟨d, hd, u, hs', hn⟩
  · rintro (rfl | ⟨d, hd, u, hs, hn⟩)
    · exact ⟨_, .refl _, rfl⟩
    · exact ⟨u, .kid hd hs, hn⟩

theorem leafy_mk {i : Nat} {k : Kd} {l : Cs} :
    (Cn.mk i k l).Leafy ↔ (k.leaf = true → l.list = []) ∧ ∀ c ∈ l.list, c.Leafy := by
  constructor
  · intro h
    exact ⟨fun hk => h _ (.refl _) hk, fun c hc u hs hk => h u (.kid hc hs) hk⟩
  · rintro ⟨h1, h2⟩ u hs hk
    rcases sub_mk.1 hs with rfl | ⟨d, hd, hs'⟩
    · exact h1 hk
    · exact h2 d hd u hs' hk

theorem Cs.list_nil {l : Cs} (h : l.list = []) : l = .nil := by
  cases l with
  | nil => rfl
  | cons n e r => simp [Cs.list] at h

mutual
theorem Cn.has_ids : ∀ (t : Cn) (n : Nat), t.Has n ↔ n ∈ t.ids
  | .mk i k l, n => by
    rw [has_mk, Cn.ids, List.mem_cons, Cs.has_ids l n]
theorem Cs.has_ids : ∀ (l : Cs) (n : Nat), (∃ c ∈ l.list, c.Has n) ↔ n ∈ l.ids
  | .nil, n => by simp [Cs.list, Cs.ids]
  | .cons t e r, n => by
    simp only [Cs.list, Cs.ids, List.mem_cons, List.mem_append, ← Cn.has_ids t n, ← Cs.has_ids r n]
    constructor
    · rintro ⟨c, rfl | hc, h⟩
      · exact .inl h
      · exact .inr ⟨c, hc, h⟩
    · rintro (h | ⟨c, hc, h⟩)
      · exact ⟨t, .inl rfl, h⟩
      · exact ⟨c, .inr hc, h⟩
end

mutual
/-- the keys of the map are the nodes -/
theorem Cn.run_keys : ∀ (t : Cn) (p : Option Nat) (m), t.Leafy → t.run p = some m → m.map Prod.fst = t.ids
  | .mk i k l, p, m, hl, h => by
    obtain ⟨h1, h2⟩ := leafy_mk.1 hl
    simp only [Cn.run] at h
    split at h
    all_goals try (obtain rfl := Option.some.inj h; rw [Cs.list_nil (h1 rfl)]; rfl)
    all_goals try cases h
    all_goals
      rw [Option.map_eq_some_iff] at h
      obtain ⟨a, ha, rfl⟩ := h
      simp only [List.map_cons, Cn.ids, Cs.run_keys l _ a h2 ha]
theorem Cs.run_keys : ∀ (l : Cs) (p : Option Nat) (m), (∀ c ∈ l.list, c.Leafy) → l.run p = some m → m.map Prod.fst = l.ids
  | .nil, p, m, _, h => by
    obtain rfl := Option.some.inj h; rfl
  | .cons t e r, p, m, hl, h => by
    simp only [Cs.run, Option.bind_eq_bind, Option.bind_eq_some_iff] at h
    obtain ⟨a, ha, b, hb, h⟩ := h
    obtain rfl := Option.some.inj h
    rw [List.map_append, Cs.ids, Cn.run_keys t p a (hl t (by simp [Cs.list])) ha,
      Cs.run_keys r p b (fun c hc => hl c (by simp [Cs.list, hc])) hb]
end

mutual
/-- the entries of the map are the root and the pairs of child and parent -/
theorem Cn.run_mem : ∀ (t : Cn) (p : Option Nat) (m), t.Leafy → t.run p = some m → ∀ n x,
    (n, x) ∈ m ↔ (n = t.id ∧ x = p) ∨ ∃ q, x = some q ∧ t.Parent q n
  | .mk i k l, p, m, hl, h, n, x => by
    obtain ⟨h1, h2⟩ := leafy_mk.1 hl
    simp only [Cn.run] at h
    split at h
    all_goals try
      (obtain rfl := Option.some.inj h
       simp only [List.mem_singleton, Prod.mk.injEq, Cn.id, parent_mk, h1 rfl, List.not_mem_nil, false_and, exists_false, and_false, or_false])
    all_goals try cases h
    all_goals
      rw [Option.map_eq_some_iff] at h
      obtain ⟨a, ha, rfl⟩ := h
      simp only [List.mem_cons, Prod.mk.injEq, Cs.run_mem l _ a h2 ha n x, Cn.id, parent_mk]
      constructor
      · rintro (h | ⟨c, hc, (⟨h, h'⟩ | ⟨q, h, h'⟩)⟩)
        · exact .inl h
        · exact .inr ⟨i, h', .inl ⟨rfl, c, hc, h.symm⟩⟩
        · exact .inr ⟨q, h, .inr ⟨c, hc, h'⟩⟩
      · rintro (h | ⟨q, h, (⟨rfl, c, hc, h'⟩ | ⟨c, hc, h'⟩)⟩)
        · exact .inl h
        · exact .inr ⟨c, hc, .inl ⟨h'.symm, h⟩⟩
        · exact .inr ⟨c, hc, .inr ⟨q, h, h'⟩⟩
theorem Cs.run_mem : ∀ (l : Cs) (p : Option Nat) (m), (∀ c ∈ l.list, c.Leafy) → l.run p = some m → ∀ n x,
    (n, x) ∈ m ↔ ∃ c ∈ l.list, (n = c.id ∧ x = p) ∨ ∃ q, x = some q ∧ c.Parent q n
  | .nil, p, m, _, h, n, x => by
    obtain rfl := Option.some.inj h; simp [Cs.list]
  | .cons t e r, p, m, hl, h, n, x => by
    simp only [Cs.run, Option.bind_eq_bind, Option.bind_eq_some_iff] at h
    obtain ⟨a, ha, b, hb, h⟩ := h
    obtain rfl := Option.some.inj h
    simp only [List.mem_append, Cn.run_mem t p a (hl t (by simp [Cs.list])) ha n x,
      Cs.run_mem r p b (fun c hc => hl c (by simp [Cs.list, hc])) hb n x, Cs.list, List.mem_cons]
    constructor
    · rintro (h | ⟨c, hc, h⟩)
      · exact ⟨t, .inl rfl, h⟩
      · exact ⟨c, .inr hc, h⟩
    · rintro ⟨c, rfl | hc, h⟩
      · exact .inl h
      · exact .inr ⟨c, hc, h⟩
end

theorem lookup_mem {m : List (Nat × Option Nat)} (hm : (m.map Prod.fst).Nodup) (n : Nat) (x : Option Nat) :
    m.lookup n = some x ↔ (n, x) ∈ m := by
  induction m with
  | nil => simp
  | cons e m ih =>
    obtain ⟨a, y⟩ := e
    simp only [List.map_cons, List.nodup_cons] at hm
    rw [List.lookup_cons]
    by_cases he : n = a
    · subst he
      simp only [beq_self_eq_true, Option.some.injEq, List.mem_cons, Prod.mk.injEq, true_and]
      constructor
      · exact fun h => .inl h.symm
      · rintro (h | h)
        · exact h.symm
        · exact absurd (List.mem_map.2 ⟨(n, x), h, rfl⟩) hm.1
    · simp only [beq_eq_false_iff_ne.2 he, ih hm.2, List.mem_cons, Prod.mk.injEq, he, false_and, false_or]

/-- what `parent_scope` reads from the map -/
theorem lookup_scope {t : Cn} {m} (hl : t.Leafy) (hd : t.ids.Nodup) (h : t.scopeTree = some m) (n : Nat) (x : Option Nat) :
    m.lookup n = some x ↔ (n = t.id ∧ x = none) ∨ ∃ q, x = some q ∧ t.Parent q n := by
  simp only [Cn.scopeTree, Option.map_eq_some_iff] at h
  obtain ⟨a, ha, rfl⟩ := h
  rw [lookup_mem (by rw [List.map_reverse, Cn.run_keys t none a hl ha]; exact List.pairwise_reverse.2 (hd.imp Ne.symm)), List.mem_reverse,
    Cn.run_mem t none a hl ha]

theorem Cn.id_has (t : Cn) : t.Has t.id := ⟨t, .refl t, rfl⟩

theorem sub_trans {a b c : Cn} (h1 : Sub a b) (h2 : Sub b c) : Sub a c := by
  induction h2 with
  | refl => exact h1
  | kid hc _ ih => exact .kid hc ih

theorem Cn.Parent.encloses {t : Cn} {p n : Nat} (h : t.Parent p n) : t.Encloses p n := by
  obtain ⟨u, hs, hp, c, hc, hn⟩ := h
  exact ⟨u, hs, hp, c, hc, c, .refl c, hn⟩

theorem Cn.Encloses.has_kid {t : Cn} {a n : Nat} (h : t.Encloses a n) : ∃ c ∈ t.kids.list, c.Has n := by
  obtain ⟨u, hs, _, c, hc, v, hv, hn⟩ := h
  cases hs with
  | refl => exact ⟨c, hc, v, hv, hn⟩
  | kid hk hs' => exact ⟨_, hk, v, sub_trans hv (sub_trans (.kid hc (.refl c)) hs'), hn⟩

theorem Cn.Encloses.has {t : Cn} {a n : Nat} (h : t.Encloses a n) : t.Has n := by
  obtain ⟨c, hc, v, hv, hn⟩ := h.has_kid
  exact ⟨v, .kid hc hv, hn⟩

theorem Cn.Encloses.has_left {t : Cn} {a n : Nat} (h : t.Encloses a n) : t.Has a := by
  obtain ⟨u, hs, ha, _⟩ := h
  exact ⟨u, hs, ha⟩

/-- the root of a tree with distinct addresses stands in nothing -/
theorem root_not_enclosed {t : Cn} (hd : t.ids.Nodup) (a : Nat) : ¬ t.Encloses a t.id := by
  intro h
  obtain ⟨i, k, l⟩ := t
  have h' : i ∈ l.ids := (Cs.has_ids l i).1 h.has_kid
  exact (List.nodup_cons.1 hd).1 h'

theorem kid_nodup {l : Cs} (hd : l.ids.Nodup) : ∀ c ∈ l.list, c.ids.Nodup := by
  match l with
  | .nil => intro c hc; simp [Cs.list] at hc
  | .cons n e r =>
    intro c hc
    simp only [Cs.ids, List.nodup_append] at hd
    simp only [Cs.list, List.mem_cons] at hc
    rcases hc with rfl | hc
    · exact hd.1
    · exact kid_nodup hd.2.1 c hc

/-- two children that have the same node are the same child -/
theorem kid_unique {l : Cs} (hd : l.ids.Nodup) {c d : Cn} (hc : c ∈ l.list) (hd' : d ∈ l.list) {n : Nat} (h1 : c.Has n) (h2 : d.Has n) : c = d := by
  match l with
  | .nil => simp [Cs.list] at hc
  | .cons a e r =>
    simp only [Cs.ids, List.nodup_append] at hd
    simp only [Cs.list, List.mem_cons] at hc hd'
    rcases hc with rfl | hc
    · rcases hd' with rfl | hd'
      · rfl
      · exact absurd rfl (hd.2.2 n ((Cn.has_ids c n).1 h1) n ((Cs.has_ids r n).1 ⟨d, hd', h2⟩))
    · rcases hd' with rfl | hd'
      · exact absurd rfl (hd.2.2 n ((Cn.has_ids d n).1 h2) n ((Cs.has_ids r n).1 ⟨c, hc, h1⟩))
      · exact kid_unique hd.2.1 hc hd' h1 h2

/-- the nodes above a node, from the inside to the root -/
inductive Up : Cn → Nat → List Nat → Prop where
  | here (t : Cn) : Up t t.id []
  | inner {t c : Cn} {n : Nat} {l : List Nat} : c ∈ t.kids.list → Up c n l → Up t n (l ++ [t.id])

theorem sub_up {u t : Cn} (h : Sub u t) : ∃ l, Up t u.id l := by
  induction h with
  | refl => exact ⟨[], .here _⟩
  | kid hc _ ih =>
    obtain ⟨l, hl⟩ := ih
    exact ⟨_, .inner hc hl⟩

theorem Up.has {t : Cn} {n : Nat} {l : List Nat} (h : Up t n l) : t.Has n := by
  induction h with
  | here t => exact t.id_has
  | inner hc _ ih =>
    obtain ⟨u, hs, hn⟩ := ih
    exact ⟨u, .kid hc hs, hn⟩

theorem encloses_below {t c : Cn} (hc : c ∈ t.kids.list) {a n : Nat} (h : c.Encloses a n) : t.Encloses a n := by
  obtain ⟨u, hs, h⟩ := h
  exact ⟨u, .kid hc hs, h⟩

theorem Up.mem_enc {t : Cn} {n : Nat} {l : List Nat} (h : Up t n l) : ∀ a ∈ l, t.Encloses a n := by
  induction h with
  | here t => intro a ha; cases ha
  | @inner t c n l hc hu ih =>
    intro a ha
    rcases List.mem_append.1 ha with ha | ha
    · exact encloses_below hc (ih a ha)
    · rw [List.mem_singleton.1 ha]
      exact ⟨t, .refl t, rfl, c, hc, hu.has⟩

theorem Up.enc_mem {t : Cn} {n : Nat} {l : List Nat} (h : Up t n l) (hd : t.ids.Nodup) : ∀ a, t.Encloses a n → a ∈ l := by
  induction h with
  | here t => intro a ha; exact absurd ha (root_not_enclosed hd a)
  | @inner t c n l hc hu ih =>
    intro a ha
    obtain ⟨i, k, ls⟩ := t
    have hd' : ls.ids.Nodup := (List.nodup_cons.1 hd).2
    rcases encloses_mk.1 ha with ⟨rfl, _⟩ | ⟨d, hdm, hda⟩
    · exact List.mem_append_right _ (List.mem_singleton.2 rfl)
    · obtain rfl := kid_unique hd' hc hdm hu.has hda.has
      exact List.mem_append_left _ (ih (kid_nodup hd' c hc) a hda)

theorem Up.order {t : Cn} {n : Nat} {l : List Nat} (h : Up t n l) : l.Pairwise fun a b => t.Encloses b a := by
  induction h with
  | here t => exact .nil
  | @inner t c n l hc hu ih =>
    rw [List.pairwise_append]
    refine ⟨ih.imp (fun h => encloses_below hc h), List.pairwise_singleton _ _, ?_⟩
    intro a ha b hb
    rw [List.mem_singleton.1 hb]
    exact ⟨t, .refl t, rfl, c, hc, (hu.mem_enc a ha).has_left⟩

/-- the loop climbs from a node to the root of a subtree -/
theorem Up.climb {m : List (Nat × Option Nat)} {t : Cn} {n : Nat} {l : List Nat} (h : Up t n l)
    (hm : ∀ p c, t.Parent p c → parentScope m c = some p) (f : Nat) (r : List Nat) (hr : ancLoop m f (parentScope m t.id) = some r) :
    ancLoop m (f + l.length) (parentScope m n) = some (l ++ r) := by
  induction h generalizing f r with
  | here t => simpa using hr
  | @inner t c n l hc hu ih =>
    have hp : parentScope m c.id = some t.id := hm _ _ ⟨t, .refl t, rfl, c, hc, rfl⟩
    have := ih (fun p d hpd => hm p d (by
      obtain ⟨u, hs, h⟩ := hpd
      exact ⟨u, .kid hc hs, h⟩)) (f + 1) (t.id :: r) (by rw [hp]; simp [ancLoop, hr])
    simp only [List.append_assoc, List.singleton_append, List.length_append, List.length_singleton]
    rw [← this]
    congr 1
    omega

theorem ancLoop_mono {m : List (Nat × Option Nat)} {f : Nat} {x : Option Nat} {r : List Nat} (h : ancLoop m f x = some r) :
    ∀ g, f ≤ g → ancLoop m g x = some r := by
  induction f generalizing x r with
  | zero =>
    intro g _
    cases x with
    | none => cases g <;> exact h
    | some a => simp [ancLoop] at h
  | succ f ih =>
    intro g hg
    cases x with
    | none => cases g <;> exact h
    | some a =>
      cases g with
      | zero => omega
      | succ g =>
        simp only [ancLoop, Option.map_eq_some_iff] at h ⊢
        obtain ⟨y, hy, rfl⟩ := h
        exact ⟨y, ih hy g (by omega), rfl⟩

end Docc.IR.Scope
