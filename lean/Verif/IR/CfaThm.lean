import Verif.IR.CfaProps

/-
Dominance in the control flow graph.
-/
namespace Docc.IR
open Docc.Sym

theorem cfg_start_keep (C : Brs → Bool) (L f : V) : ∀ (s : Seq) (cur : Option V) (k : Nat), (s.cfg C L (some f) cur k).start = some f
  | .nil, _, _ => rfl
  | .cons n t r, cur, k => by
    simp only [Seq.cfg]
    split
    · rfl
    · exact cfg_start_keep C L f r _ _

theorem mem_edgeIf {a b : V} : (a, b) ∈ edgeIf (some a) (some b) := by simp [edgeIf]

theorem follows_skip {P : V → Prop} {G : List (V × V)} {f L : V} (hf : P f) : Follows P G f (some f) L (TR.emit [] id) := by
  rintro σ l o (⟨rfl, rfl⟩ | ⟨hl, rfl⟩)
  · exact ⟨fun l1 b l2 hl => (by simp at hl), fun _ _ _ => ⟨f, rfl, hf, .refl⟩, fun c _ ho hc => (by cases ho; rcases hc with hc | hc <;> cases hc)⟩
  · obtain rfl := List.prefix_nil.mp hl
    exact ⟨fun l1 b l2 hl => (by simp at hl), fun _ ho => (by cases ho), fun _ _ ho => (by cases ho)⟩

mutual
theorem Node.follows {E : Env} {C : Brs → Bool} (hC : CompleteSound E C) {P : V → Prop} (hP : ∀ k, P (.nop k)) :
    (n : Node) → n.filled C = true → ∀ (L : V) (k : Nat),
      ∃ f, (n.cfg C L k).start = some f ∧ Follows P (n.cfg C L k).edges f (n.cfg C L k).fin L (n.cvis E k)
  | .block l, _, L, k => ⟨cv k, rfl, follows_emit _⟩
  | .ret d q, _, L, k => ⟨cv k, rfl, follows_jump (by intro h; cases h) fun h => by rcases h with h | h <;> cases h⟩
  | .brk, _, L, k => ⟨cv k, rfl, follows_jump (by intro h; cases h) fun _ => by simp [Node.cfg]⟩
  | .cont, _, L, k => ⟨cv k, rfl, follows_jump (by intro h; cases h) fun _ => by simp [Node.cfg]⟩
  | .seq s, h, L, k => by
    simp only [Node.filled, Bool.and_eq_true, Bool.not_eq_true'] at h
    exact Seq.follows_begin hC hP s h.2 h.1 L (k + 1)
  | .whileL s, h, L, k => by
    refine ⟨cv k, rfl, ?_⟩
    simp only [Node.filled] at h
    have := Seq.follows_body hC hP s h (cv k) (k + 1)
    obtain ⟨e, he⟩ := this
    exact follows_forever (e := e) fun hp => (he hp).mono fun x hx => by
      simp only [Node.cfg, List.mem_append] at hx ⊢
      exact .inl hx
  | .loop m i a c u s, h, L, k => by
    refine ⟨cv k, rfl, ?_⟩
    simp only [Node.filled] at h
    have := Seq.follows_body hC hP s h (cv k) (k + 1)
    obtain ⟨e, he⟩ := this
    refine Follows.silent (follows_iter (e := e) fun hp => (he hp).mono fun x hx => ?_) _
    simp only [Node.cfg, List.mem_append] at hx ⊢
    exact .inl hx
  | .ifElse b, h, L, k => by
    refine ⟨cv k, rfl, follows_seq (follows_emit _) fun z hz hpz => ?_⟩
    cases hz
    intro σ l o hr
    simp only [Node.filled] at h
    refine Brs.follows hC hP b (C b) h L (cv k) (.nop k) (k + 1) hpz (hP k) (fun x hx => ?_) (fun hs => ?_) (fun hc => ?_) σ (fun hc => hC b hc σ) l o hr
    · simp only [Node.cfg, List.mem_append]; exact .inl hx
    · simp [Node.cfg, hs]
    · simp [Node.cfg, hc]
theorem Seq.follows_from {E : Env} {C : Brs → Bool} (hC : CompleteSound E C) {P : V → Prop} (hP : ∀ k, P (.nop k)) :
    (s : Seq) → s.filled C = true → ∀ (L : V) (st : Option V) (z : V) (k : Nat), P z →
      Follows P (s.cfg C L st (some z) k).edges z (s.cfg C L st (some z) k).fin L (s.cvis E k)
  | .nil, _, L, st, z, k, hz => follows_skip hz
  | .cons n t r, h, L, st, z, k, hz => by
    simp only [Seq.filled, Bool.and_eq_true] at h
    obtain ⟨f, h1, h2⟩ := Node.follows hC hP n h.1 L k
    cases hx : (n.cfg C L k).fin with
    | none =>
      simp only [Seq.cfg, hx, h1]
      refine follows_seq (m := none) ?_ fun _ h => by cases h
      rw [hx] at h2
      refine (h2.mono fun x hx => List.mem_append_left _ hx).after (.one hz (List.mem_append_right _ mem_edgeIf))
    | some e =>
      simp only [Seq.cfg, hx, h1]
      rw [hx] at h2
      refine follows_seq (m := some e) ((h2.mono fun x hx => ?_).after (.one hz ?_)) fun w hw hpw => ?_
      · simp only [List.mem_append]; exact .inl (.inl hx)
      · simp only [List.mem_append]; exact .inl (.inr mem_edgeIf)
      · cases hw
        refine Follows.silent ?_ _
        exact (Seq.follows_from hC hP r h.2 L (st.or (some f)) e (k + n.cn) hpw).mono fun x hx => by
          simp only [List.mem_append]; exact .inr hx
theorem Seq.follows_begin {E : Env} {C : Brs → Bool} (hC : CompleteSound E C) {P : V → Prop} (hP : ∀ k, P (.nop k)) :
    (s : Seq) → s.filled C = true → s.isNil = false → ∀ (L : V) (k : Nat),
      ∃ f, (s.cfg C L none none k).start = some f ∧ Follows P (s.cfg C L none none k).edges f (s.cfg C L none none k).fin L (s.cvis E k)
  | .nil, _, h, L, k => by cases h
  | .cons n t r, h, _, L, k => by
    simp only [Seq.filled, Bool.and_eq_true] at h
    obtain ⟨f, h1, h2⟩ := Node.follows hC hP n h.1 L k
    cases hx : (n.cfg C L k).fin with
    | none =>
      simp only [Seq.cfg, hx, h1]
      refine ⟨f, rfl, follows_seq (m := none) ?_ fun _ h => by cases h⟩
      rw [hx] at h2
      exact h2.mono fun x hx => List.mem_append_left _ hx
    | some e =>
      simp only [Seq.cfg, hx, h1]
      rw [hx] at h2
      refine ⟨f, cfg_start_keep _ _ _ _ _ _, follows_seq (m := some e) (h2.mono fun x hx => ?_) fun w hw hpw => ?_⟩
      · simp only [List.mem_append]; exact .inl (.inl hx)
      · cases hw
        refine Follows.silent ?_ _
        exact (Seq.follows_from hC hP r h.2 L (some f) e (k + n.cn) hpw).mono fun x hx => by
          simp only [List.mem_append]; exact .inr hx
theorem Seq.follows_body {E : Env} {C : Brs → Bool} (hC : CompleteSound E C) {P : V → Prop} (hP : ∀ k, P (.nop k)) :
    (s : Seq) → s.filled C = true → ∀ (h : V) (k : Nat), ∃ e, P h →
      Follows P (edgeIf (some h) (s.cfg C h none none k).start ++ (s.cfg C h none none k).edges) h e h (s.cvis E k)
  | .nil, _, h, k => ⟨some h, fun hp => follows_skip hp⟩
  | .cons n t r, hs, h, k => by
    simp only [Seq.filled, Bool.and_eq_true] at hs
    obtain ⟨f, h1, h2⟩ := Node.follows hC hP n hs.1 h k
    cases hx : (n.cfg C h k).fin with
    | none =>
      refine ⟨none, fun hp => ?_⟩
      simp only [Seq.cfg, hx, h1]
      refine follows_seq (m := none) ?_ fun _ h => by cases h
      rw [hx] at h2
      exact (h2.mono fun x hx => by simp [hx]).after (.one hp (List.mem_append_left _ mem_edgeIf))
    | some e =>
      refine ⟨(r.cfg C h (some f) (some e) (k + n.cn)).fin, fun hp => ?_⟩
      simp only [Seq.cfg, hx, h1]
      rw [hx] at h2
      refine follows_seq (m := some e) ((h2.mono fun x hx => ?_).after (.one hp ?_)) fun w hw hpw => ?_
      · simp [hx]
      · refine List.mem_append_left _ ?_
        rw [Option.none_or, cfg_start_keep]; exact mem_edgeIf
      · cases hw
        refine Follows.silent ?_ _
        exact (Seq.follows_from hC hP r hs.2 h (some f) e (k + n.cn) hpw).mono fun x hx => by
          simp only [List.mem_append]; exact .inr (.inr hx)
theorem Brs.follows {E : Env} {C : Brs → Bool} (hC : CompleteSound E C) {P : V → Prop} (hP : ∀ k, P (.nop k)) :
    (b : Brs) → ∀ (c : Bool), b.filled C c = true → ∀ (L h j : V) (k : Nat), P h → P j → ∀ {G : List (V × V)} {e : Option V},
      (∀ x ∈ (b.cfg C L h j k).edges, x ∈ G) → ((b.cfg C L h j k).fin.isSome = true → e = some j) → (c = false → (h, j) ∈ G ∧ e = some j) →
      ∀ σ, (c = true → ∃ d ∈ b.conds, σ.cond E d = true) → ∀ l o, b.cvis E k σ l o →
      (∀ l1 b l2, l = l1 ++ b :: l2 → (∀ v ∈ l1, P v) → Reach G P h b) ∧
      (∀ σ', o = some (.normal, σ') → (∀ v ∈ l, P v) → ∃ z, e = some z ∧ P z ∧ Reach G P h z) ∧
      ∀ c σ', o = some (c, σ') → c = .brk ∨ c = .cont → (∀ v ∈ l, P v) → Reach G P h L
  | .nil, c, _, L, h, j, k, hh, hj, G, e, hG, hfin, hc, σ, hcond, l, o, hr => by
    cases c with
    | true => obtain ⟨d, hd, _⟩ := hcond rfl; simp [Brs.conds] at hd
    | false =>
      obtain ⟨h1, h2⟩ := hc rfl
      obtain ⟨r1, r2, r3⟩ := follows_skip (P := P) (G := G) (L := L) hh σ l o hr
      exact ⟨r1, fun σ' ho hp => ⟨j, h2, hj, .one hh h1⟩, r3⟩
  | .cons d s r, c, hf, L, h, j, k, hh, hj, G, e, hG, hfin, hc, σ, hcond, l, o, hr => by
    simp only [Brs.filled, Bool.and_eq_true] at hf
    simp only [Brs.cfg, List.mem_append] at hG hfin
    simp only [Brs.cvis, TR.ite] at hr
    by_cases hd : σ.cond E d = true
    · rw [if_pos hd] at hr
      cases hnil : s.isNil with
      | true =>
        cases s with
        | cons n t r => cases hnil
        | nil =>
          have : c = false := by
            have := hf.1.1
            simp only [hnil] at this
            cases c <;> simp_all
          obtain ⟨h1, h2⟩ := hc this
          obtain ⟨r1, r2, r3⟩ := follows_skip (P := P) (G := G) (L := L) hh σ l o hr
          exact ⟨r1, fun σ' ho hp => ⟨j, h2, hj, .one hh h1⟩, r3⟩
      | false =>
        obtain ⟨f, h1, h2⟩ := Seq.follows_begin hC hP s hf.1.2 hnil L k
        have h3 := (h2.mono (G' := G) fun x hx => hG x (.inl (.inl (.inr hx)))).after (.one hh (hG (h, f) (.inl (.inl (.inl (by rw [h1]; exact mem_edgeIf))))))
        obtain ⟨r1, r2, r3⟩ := h3 σ l o hr
        refine ⟨r1, fun σ' ho hp => ?_, r3⟩
        obtain ⟨z, hz, hpz, hz'⟩ := r2 σ' ho hp
        refine ⟨j, hfin (by simp [hz]), hj, .step hz' hpz (hG (z, j) (.inl (.inr (by rw [hz]; exact mem_edgeIf))))⟩
    · rw [if_neg hd] at hr
      refine Brs.follows hC hP r c hf.2 L h j (k + s.cn) hh hj (fun x hx => hG x (.inr hx)) (fun hs => hfin ?_) hc σ (fun hct => ?_) l o hr
      · split
        · rfl
        · exact hs
      · obtain ⟨x, hx, hx'⟩ := hcond hct
        simp only [Brs.conds, List.mem_cons] at hx
        rcases hx with rfl | hx
        · exact absurd hx' hd
        · exact ⟨x, hx, hx'⟩
end

/-- **C100** (partial): if every path of the control flow graph from its start to `b` contains `a`, every execution visits `a` before `b`.  For programs
without empty nested sequences and empty cases of complete if-elses (`empty_case_violated`, `empty_seq_violated`). -/
theorem cfg_dominates_partial {E : Env} {C : Brs → Bool} (hC : CompleteSound E C) {s : Seq} (hs : s.filled C = true) {src : V} (hsrc : (s.flow C).start = some src)
    {a b : Nat} (hd : Dominates (s.flow C).edges src (cv a) (cv b)) {σ : St} {l : List V} {o : Option (Ctl × St)} (h : s.Visits E σ l o) {l1 l2 : List V}
    (hl : l = l1 ++ cv b :: l2) : cv a ∈ l1 := by
  refine Classical.byContradiction fun hn => ?_
  have hnil : s.isNil = false := by
    cases s with
    | nil => cases hsrc
    | cons n t r => rfl
  obtain ⟨f, h1, h2⟩ := Seq.follows_begin (P := fun v => v ≠ cv a) hC (fun k e => by cases e) s hs hnil (.nop 0) 1
  have hf : f = src := by
    have : some f = some src := h1.symm.trans hsrc
    cases this; rfl
  subst hf
  have hr := (h2 σ l o h).1 l1 (cv b) l2 hl fun v hv e => hn (e ▸ hv)
  obtain ⟨p, hp1, hp2, hp3⟩ := hr.path
  rcases hp3 _ (hd.2 p hp1 hp2) with e | e
  · exact hd.1 e
  · exact e rfl

end Docc.IR
