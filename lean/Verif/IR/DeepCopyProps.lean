import Verif.IR.DeepCopy

/-
Deep copies: same program, new nodes, exact mapping.
-/
namespace Docc.IR.Scope
open Docc.Sym

theorem shaped_mk {i : Nat} {k : Kd} {l : Cs} :
    (Cn.mk i k l).Shaped ↔ (k.leaf = true → l.list = []) ∧ (k.isLoop = true → l.isBody = true) ∧ ∀ c ∈ l.list, c.Shaped := by
  constructor
  · rintro ⟨h, h'⟩
    obtain ⟨h1, h2⟩ := leafy_mk.1 h
    exact ⟨h1, fun hk => h' _ (.refl _) hk, fun c hc => ⟨h2 c hc, fun u hs hk => h' u (.kid hc hs) hk⟩⟩
  · rintro ⟨h1, h2, h3⟩
    refine ⟨leafy_mk.2 ⟨h1, fun c hc => (h3 c hc).1⟩, fun u hs hk => ?_⟩
    rcases sub_mk.1 hs with rfl | ⟨d, hd, hs'⟩
    · exact h2 hk
    · exact (h3 d hd).2 u hs' hk

theorem isBody_cases {l : Cs} (h : l.isBody = true) : ∃ j b, l = .cons (.mk j .seq b) .none .nil := by
  match l with
  | .nil => simp [Cs.isBody] at h
  | .cons (.mk j k b) e r =>
    cases k <;> cases e <;> cases r <;> simp [Cs.isBody] at h
    exact ⟨j, b, rfl⟩

/-- the copy of a node, as a case distinction -/
theorem dup_cases {i : Nat} {k : Kd} {l : Cs} {c : Nat} {r : Cn × Nat × List (Nat × Nat)} (hs : (Cn.mk i k l).Shaped)
    (h : (Cn.mk i k l).dup c = some r) :
    (k.leaf = true ∧ l = .nil ∧ r = (.mk c k .nil, c + 1, [(i, c)])) ∨
    ((k = .seq ∨ k = .ifElse) ∧ ∃ x, l.dup (c + 1) = some x ∧ r = (.mk c k x.1, x.2.1, (i, c) :: x.2.2)) ∨
    (k.isLoop = true ∧ ∃ j b x, l = .cons (.mk j .seq b) .none .nil ∧ b.dup (c + 1 + 1) = some x ∧
      r = (.mk c k (.cons (.mk (c + 1) .seq x.1) .none .nil), x.2.1, (i, c) :: x.2.2)) := by
  obtain ⟨h1, h2, h3⟩ := shaped_mk.1 hs
  simp only [Cn.dup] at h
  split at h
  all_goals try (exact .inl ⟨rfl, Cs.list_nil (h1 rfl), (Option.some.inj h).symm⟩)
  all_goals try (cases h; done)
  all_goals
    rw [Option.map_eq_some_iff] at h
    obtain ⟨a, ha, rfl⟩ := h
  · exact .inr (.inl ⟨.inl rfl, a, ha, rfl⟩)
  · exact .inr (.inl ⟨.inr rfl, a, ha, rfl⟩)
  all_goals
    obtain ⟨j, b, rfl⟩ := isBody_cases (h2 rfl)
    simp only [Cs.dupBody, Cn.dupKids, Option.map_eq_some_iff] at ha
    obtain ⟨x, hx, rfl⟩ := ha
    exact .inr (.inr ⟨rfl, j, b, x, rfl, hx, rfl⟩)

theorem dup_cons {n : Cn} {e : Lab} {r : Cs} {c : Nat} {x : Cs × Nat × List (Nat × Nat)} (h : (Cs.cons n e r).dup c = some x) :
    ∃ a b, n.dup c = some a ∧ r.dup a.2.1 = some b ∧ x = (.cons a.1 e b.1, b.2.1, a.2.2 ++ b.2.2) := by
  simp only [Cs.dup, Option.bind_eq_bind, Option.bind_eq_some_iff] at h
  obtain ⟨a, ha, b, hb, h⟩ := h
  exact ⟨a, b, ha, hb, (Option.some.inj h).symm⟩

theorem shaped_body {j : Nat} {k : Kd} {b r : Cs} {e : Lab} (h : ∀ c ∈ (Cs.cons (.mk j k b) e r).list, c.Shaped) : ∀ c ∈ b.list, c.Shaped :=
  (shaped_mk.1 (h (.mk j k b) (by simp [Cs.list]))).2.2

/-- a loop over nodes and their lists by size; the children of the body of a loop count as children -/
theorem dup_ind {P : Cn → Prop} {Q : Cs → Prop}
    (hnode : ∀ i k l, Q l → (∀ j k' b e r, l = .cons (.mk j k' b) e r → Q b) → P (.mk i k l))
    (hnil : Q .nil) (hcons : ∀ n e r, P n → Q r → Q (.cons n e r)) : (∀ t, P t) ∧ ∀ l, Q l := by
  have key : (∀ t : Cn, P t ∧ Q t.kids) := by
    intro t
    exact Cn.rec (motive_1 := fun t => P t ∧ Q t.kids) (motive_2 := fun l => Q l ∧ ∀ n ∈ l.list, P n ∧ Q n.kids)
      (fun i k l ih => ⟨hnode i k l ih.1 (by
        rintro j k' b e r rfl
        exact (ih.2 (.mk j k' b) (by simp [Cs.list])).2), ih.1⟩)
      ⟨hnil, by simp [Cs.list]⟩
      (fun n e r ihn ihr => ⟨hcons n e r ihn.1 ihr.1, by
        intro x hx
        simp only [Cs.list, List.mem_cons] at hx
        rcases hx with rfl | hx
        · exact ihn
        · exact ihr.2 x hx⟩) t
  exact ⟨fun t => (key t).1, fun l => (key (.mk 0 .seq l)).2⟩

/-- the copy stands for the same program -/
theorem dup_same : (∀ t : Cn, ∀ c r, t.Shaped → t.dup c = some r → r.1.toNode = t.toNode ∧ r.1.toKids = t.toKids) ∧
    (∀ l : Cs, ∀ c r, (∀ n ∈ l.list, n.Shaped) → l.dup c = some r → r.1.toSeq = l.toSeq ∧ r.1.toBrs = l.toBrs) := by
  apply dup_ind
  · intro i k l hl hb c r hs h
    have hk := (shaped_mk.1 hs).2.2
    rcases dup_cases hs h with ⟨_, rfl, rfl⟩ | ⟨hk', x, hx, rfl⟩ | ⟨hk', j, b, x, rfl, hx, rfl⟩
    · exact ⟨by cases k <;> rfl, rfl⟩
    · obtain ⟨h1, h2⟩ := hl _ _ hk hx
      rcases hk' with rfl | rfl
      · exact ⟨by simp only [Cn.toNode, h1], by simp only [Cn.toKids, h1]⟩
      · exact ⟨by simp only [Cn.toNode, h2], by simp only [Cn.toKids, h1]⟩
    · obtain ⟨h1, h2⟩ := hb j .seq b .none .nil rfl _ _ (shaped_body hk) hx
      refine ⟨?_, by simp only [Cn.toKids, Cs.toSeq, Cn.toNode, h1]⟩
      cases k <;> simp [Kd.isLoop] at hk' <;> simp only [Cn.toNode, Cs.toBody, Cn.toKids, h1]
  · intro c r _ h
    obtain rfl := Option.some.inj h
    exact ⟨rfl, rfl⟩
  · intro n e r hn hr c x hs h
    obtain ⟨a, b, ha, hb, rfl⟩ := dup_cons h
    obtain ⟨h1, h1'⟩ := hn _ _ (hs n (by simp [Cs.list])) ha
    obtain ⟨h2, h2'⟩ := hr _ _ (fun m hm => hs m (by simp [Cs.list, hm])) hb
    cases e <;> simp only [Cs.toSeq, Cs.toBrs, h1, h2, h1', h2', and_self]

/-- the addresses of the copy are new, in increasing order -/
theorem dup_fresh : (∀ t : Cn, ∀ c r, t.Shaped → t.dup c = some r → c ≤ r.2.1 ∧ r.1.ids.Pairwise (· < ·) ∧ ∀ i ∈ r.1.ids, c ≤ i ∧ i < r.2.1) ∧
    (∀ l : Cs, ∀ c r, (∀ n ∈ l.list, n.Shaped) → l.dup c = some r → c ≤ r.2.1 ∧ r.1.ids.Pairwise (· < ·) ∧ ∀ i ∈ r.1.ids, c ≤ i ∧ i < r.2.1) := by
  apply dup_ind
  · intro i k l hl hb c r hs h
    have hk := (shaped_mk.1 hs).2.2
    rcases dup_cases hs h with ⟨_, rfl, rfl⟩ | ⟨hk', x, hx, rfl⟩ | ⟨hk', j, b, x, rfl, hx, rfl⟩
    · simp [Cn.ids, Cs.ids]
    · obtain ⟨h1, h2, h3⟩ := hl _ _ hk hx
      refine ⟨by simp only; omega, ?_, ?_⟩
      · simp only [Cn.ids, List.pairwise_cons]
        exact ⟨fun a ha => by have := h3 a ha; omega, h2⟩
      · intro a ha
        simp only [Cn.ids, List.mem_cons] at ha
        rcases ha with rfl | ha
        · simp only; omega
        · have := h3 a ha; simp only; omega
    · obtain ⟨h1, h2, h3⟩ := hb j .seq b .none .nil rfl _ _ (shaped_body hk) hx
      refine ⟨by simp only; omega, ?_, ?_⟩
      · simp only [Cn.ids, Cs.ids, List.append_nil, List.pairwise_cons, List.mem_cons]
        refine ⟨fun a ha => ?_, fun a ha => by have := h3 a ha; omega, h2⟩
        rcases ha with rfl | ha
        · omega
        · have := h3 a ha; omega
      · intro a ha
        simp only [Cn.ids, Cs.ids, List.append_nil, List.mem_cons] at ha
        rcases ha with rfl | rfl | ha
        · simp only; omega
        · simp only; omega
        · have := h3 a ha; simp only; omega
  · intro c r _ h
    obtain rfl := Option.some.inj h
    simp [Cs.ids]
  · intro n e r hn hr c x hs h
    obtain ⟨a, b, ha, hb, rfl⟩ := dup_cons h
    obtain ⟨p1, p2, p3⟩ := hn _ _ (hs n (by simp [Cs.list])) ha
    obtain ⟨q1, q2, q3⟩ := hr _ _ (fun m hm => hs m (by simp [Cs.list, hm])) hb
    refine ⟨by simp only; omega, ?_, ?_⟩
    · simp only [Cs.ids, List.pairwise_append]
      exact ⟨p2, q2, fun u hu v hv => by have := p3 u hu; have := q3 v hv; omega⟩
    · intro u hu
      simp only [Cs.ids, List.mem_append] at hu
      rcases hu with hu | hu
      · have := p3 u hu; simp only; omega
      · have := q3 u hu; simp only; omega

end Docc.IR.Scope
