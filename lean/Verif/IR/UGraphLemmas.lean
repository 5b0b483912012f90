import Verif.IR.UGraph

namespace Docc.IR
open Docc.Sym

/-! ### traces and behaviours -/

/-- the complete executions of a trace relation -/
def TR.rel (R : TR) : Rel := fun σ c σ' => ∃ l, R σ l (some (c, σ'))

theorem TR.rel_emit (us : List V) (f : St → St) : (TR.emit us f).rel = Rel.upd f := by
  funext σ c σ'
  simp [TR.rel, TR.emit, Rel.upd]

theorem TR.rel_jump (us : List V) (c : Ctl) : (TR.jump us c).rel = Rel.exit c := by
  funext σ c σ'
  simp [TR.rel, TR.jump, Rel.exit]

theorem TR.rel_seq (R S : TR) : (TR.seq R S).rel = Rel.seq R.rel S.rel := by
  funext σ c σ'
  apply propext
  constructor
  · rintro ⟨l, ⟨l1, l2, σ1, h1, h2, _⟩ | ⟨h1, h2⟩⟩
    · exact Or.inl ⟨σ1, ⟨l1, h1⟩, ⟨l2, h2⟩⟩
    · exact Or.inr ⟨fun h => h2 σ' (by rw [h]), ⟨l, h1⟩⟩
  · rintro (⟨σ1, ⟨l1, h1⟩, ⟨l2, h2⟩⟩ | ⟨h1, l, h2⟩)
    · exact ⟨_, Or.inl ⟨l1, l2, σ1, h1, h2, rfl⟩⟩
    · exact ⟨l, Or.inr ⟨h2, fun τ h => h1 (by cases h; rfl)⟩⟩

theorem TR.rel_ite (b : St → Bool) (R S : TR) : (TR.ite b R S).rel = Rel.ite b R.rel S.rel := by
  funext σ c σ'
  simp only [TR.rel, TR.ite, Rel.ite]
  split <;> rfl

theorem TR.rel_forever (R : TR) : (TR.forever R).rel = Rel.forever R.rel := by
  funext σ c σ'
  apply propext
  constructor
  · rintro ⟨l, h⟩
    generalize ho : some (c, σ') = o at h
    induction h with
    | cut _ => cases ho
    | step k h1 h2 _ ih => exact .step k ⟨_, h1⟩ h2 (ih ho)
    | stop h1 => cases ho; exact .stop ⟨_, h1⟩
    | ret d q h1 => cases ho; exact .ret d q ⟨_, h1⟩
  · intro h
    induction h with
    | step k h1 h2 _ ih =>
      obtain ⟨l, h1⟩ := h1
      obtain ⟨l', ih⟩ := ih
      exact ⟨_, .step k h1 h2 ih⟩
    | stop h1 => obtain ⟨l, h1⟩ := h1; exact ⟨_, .stop h1⟩
    | ret d q h1 => obtain ⟨l, h1⟩ := h1; exact ⟨_, .ret d q h1⟩

theorem TR.rel_iter (b : St → Bool) (u : St → St) (cs us : List V) (R : TR) :
    (TR.iter b u cs us R).rel = Rel.iter b u R.rel := by
  funext σ c σ'
  apply propext
  constructor
  · rintro ⟨l, h⟩
    generalize ho : some (c, σ') = o at h
    induction h with
    | cut _ => cases ho
    | done h => cases ho; exact .done h
    | cutBody _ _ => cases ho
    | cutUpd _ _ _ _ _ => cases ho
    | step k h0 h1 h2 _ ih => exact .step k h0 ⟨_, h1⟩ h2 (ih ho)
    | stop h0 h1 => cases ho; exact .stop h0 ⟨_, h1⟩
    | ret d q h0 h1 => cases ho; exact .ret d q h0 ⟨_, h1⟩
  · intro h
    induction h with
    | done h => exact ⟨_, .done h⟩
    | step k h0 h1 h2 _ ih =>
      obtain ⟨l, h1⟩ := h1
      obtain ⟨l', ih⟩ := ih
      exact ⟨_, .step k h0 h1 h2 ih⟩
    | stop h0 h1 => obtain ⟨l, h1⟩ := h1; exact ⟨_, .stop h0 h1⟩
    | ret d q h0 h1 => obtain ⟨l, h1⟩ := h1; exact ⟨_, .ret d q h0 h1⟩

mutual
/-- the traces are those of the executions of the semantics -/
theorem Node.tr_rel (E : Env) : (n : Node) → ∀ k, (n.tr E k).rel = n.den E
  | .block l => fun k => by rw [Node.tr, Node.den, TR.rel_emit]
  | .seq s => fun k => by rw [Node.tr, Node.den, Seq.tr_rel E s]
  | .ifElse b => fun k => by rw [Node.tr, Node.den, TR.rel_seq, TR.rel_emit, Brs.tr_rel E b, Rel.skip_seq]
  | .whileL s => fun k => by rw [Node.tr, Node.den, TR.rel_forever, Seq.tr_rel E s]
  | .loop m i init cond upd s => fun k => by
    rw [Node.tr, Node.den]
    simp only [TR.rel_seq, TR.rel_emit, TR.rel_iter, Seq.tr_rel E s]
  | .brk => fun k => by rw [Node.tr, Node.den, TR.rel_jump]
  | .cont => fun k => by rw [Node.tr, Node.den, TR.rel_jump]
  | .ret d q => fun k => by rw [Node.tr, Node.den, TR.rel_jump]
theorem Seq.tr_rel (E : Env) : (s : Seq) → ∀ k, (s.tr E k).rel = s.den E
  | .nil => fun k => by rw [Seq.tr, Seq.den, TR.rel_emit]
  | .cons n t r => fun k => by
    rw [Seq.tr, Seq.den, TR.rel_seq, TR.rel_seq, TR.rel_emit, Node.tr_rel E n, Seq.tr_rel E r]
theorem Brs.tr_rel (E : Env) : (b : Brs) → ∀ k, (b.tr E k).rel = b.den E
  | .nil => fun k => by rw [Brs.tr, Brs.den, TR.rel_emit]
  | .cons c s r => fun k => by rw [Brs.tr, Brs.den, TR.rel_ite, Seq.tr_rel E s, Brs.tr_rel E r]
end

/-- complete executions with their uses are exactly the executions of the function -/
theorem performs_iff (E : Env) (s : Seq) (σ : St) (c : Ctl) (σ' : St) :
    (∃ l, s.Performs E σ l (some (c, σ'))) ↔ s.den E σ c σ' := by
  have := congrFun (congrFun (congrFun (Seq.tr_rel E s 2) σ) c) σ'
  rw [← this]; rfl

/-! ### paths -/

/-- `b` can be reached from `a` over vertices that satisfy `P` (`b` itself may violate it) -/
inductive Reach (G : List (V × V)) (P : V → Prop) (a : V) : V → Prop
  | refl : Reach G P a a
  | step {b c} : Reach G P a b → P b → (b, c) ∈ G → Reach G P a c

theorem Reach.mono {G G' : List (V × V)} {P : V → Prop} {a b : V} (h : Reach G P a b) (hs : ∀ e ∈ G, e ∈ G') : Reach G' P a b := by
  induction h with
  | refl => exact .refl
  | step _ hp he ih => exact .step ih hp (hs _ he)

theorem Reach.trans {G : List (V × V)} {P : V → Prop} {a b c : V} (h : Reach G P a b) (h' : Reach G P b c) : Reach G P a c := by
  induction h' with
  | refl => exact h
  | step _ hp he ih => exact .step ih hp he

theorem Reach.one {G : List (V × V)} {P : V → Prop} {a b : V} (hp : P a) (h : (a, b) ∈ G) : Reach G P a b := .step .refl hp h

theorem Path.append {G : List (V × V)} {b c : V} (hc : (b, c) ∈ G) : ∀ p, Path G p → p.getLast? = some b → Path G (p ++ [c])
  | [], _, h => by simp at h
  | [x], _, h => by
    simp at h; subst h
    exact ⟨hc, trivial⟩
  | x :: y :: r, h, hl => by
    rw [Path] at h
    refine ⟨h.1, ?_⟩
    exact Path.append hc (y :: r) h.2 (by simpa [List.getLast?_cons_cons] using hl)

/-- the vertices of a path -/
theorem Reach.path {G : List (V × V)} {P : V → Prop} {a b : V} (h : Reach G P a b) :
    ∃ p, Path G (a :: p) ∧ (a :: p).getLast? = some b ∧ ∀ v ∈ a :: p, v = b ∨ P v := by
  induction h with
  | refl => exact ⟨[], trivial, rfl, by simp⟩
  | @step b c _ hp he ih =>
    obtain ⟨p, h1, h2, h3⟩ := ih
    refine ⟨p ++ [c], ?_, ?_, ?_⟩
    · have := Path.append he _ h1 h2
      simpa using this
    · show ((a :: p) ++ [c]).getLast? = some c
      exact List.getLast?_concat
    · intro v hv
      rw [← List.cons_append] at hv
      rcases List.mem_append.mp hv with hv | hv
      · rcases h3 v hv with rfl | h
        · exact Or.inr hp
        · exact Or.inr h
      · simp at hv; exact Or.inl hv

theorem chain_to {G : List (V × V)} {P : V → Prop} : ∀ (us : List V) (a : V), (∀ e ∈ chainE a us, e ∈ G) → P a →
    ∀ l1 b l2, us = l1 ++ b :: l2 → (∀ v ∈ l1, P v) → Reach G P a b
  | [], _, _, _, l1, b, l2, h, _ => by simp at h
  | v :: r, a, hG, ha, [], b, l2, h, _ => by
    simp only [List.nil_append, List.cons.injEq] at h
    obtain ⟨rfl, rfl⟩ := h
    exact .one ha (hG _ (by simp [chainE]))
  | v :: r, a, hG, ha, x :: l1, b, l2, h, hl => by
    simp only [List.cons_append, List.cons.injEq] at h
    obtain ⟨rfl, h⟩ := h
    exact (Reach.one ha (hG _ (by simp [chainE]))).trans
      (chain_to r v (fun e he => hG e (by simp [chainE, he])) (hl v (by simp)) l1 b l2 h fun y hy => hl y (by simp [hy]))

theorem chain_all {G : List (V × V)} {P : V → Prop} : ∀ (us : List V) (a : V), (∀ e ∈ chainE a us, e ∈ G) → P a →
    (∀ v ∈ us, P v) → Reach G P a (chainEnd a us)
  | [], _, _, _, _ => .refl
  | v :: r, a, hG, ha, hl => (Reach.one ha (hG _ (by simp [chainE]))).trans
      (chain_all r v (fun e he => hG e (by simp [chainE, he])) (hl v (by simp)) fun y hy => hl y (by simp [hy]))

theorem chainEnd_P {P : V → Prop} : ∀ (us : List V) (a : V), P a → (∀ v ∈ us, P v) → P (chainEnd a us)
  | [], _, h, _ => h
  | v :: r, _, _, hl => chainEnd_P r v (hl v (by simp)) fun y hy => hl y (by simp [hy])

theorem chainE_append : ∀ (us vs : List V) (a : V), chainE a (us ++ vs) = chainE a us ++ chainE (chainEnd a us) vs
  | [], _, _ => rfl
  | v :: r, vs, a => by simp only [List.cons_append, chainE, chainEnd]; rw [chainE_append r vs v]

theorem split_mid {α : Type} {a b l1 l2 : List α} {x : α} (h : a ++ b = l1 ++ x :: l2) :
    (∃ r, a = l1 ++ x :: r) ∨ ∃ r, l1 = a ++ r ∧ b = r ++ x :: l2 := by
  rcases List.append_eq_append_iff.mp h with ⟨r, h1, h2⟩ | ⟨r, h1, h2⟩
  · exact Or.inr ⟨r, h1, h2⟩
  · cases r with
    | nil => simp at h1 h2; exact Or.inr ⟨[], by simp [h1], by simpa using h2.symm⟩
    | cons y r =>
      simp only [List.cons_append, List.cons.injEq] at h2
      obtain ⟨rfl, _⟩ := h2
      exact Or.inl ⟨r, h1⟩

theorem prefix_mid {α : Type} {l us l1 l2 : List α} {x : α} (h : l <+: us) (e : l = l1 ++ x :: l2) : ∃ r, us = l1 ++ x :: r := by
  obtain ⟨r, rfl⟩ := h
  exact ⟨l2 ++ r, by rw [e]; simp⟩

end Docc.IR
