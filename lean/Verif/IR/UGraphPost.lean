import Verif.IR.UGraphRun

/-
Post-dominance: executions that end with a `Return`, and the vertices without successor.
-/
namespace Docc.IR
open Docc.Sym

/-- executions that return reach one of the vertices `Z`, over the uses they perform -/
def Rets (Z : List V) (P B : V → Prop) (G : List (V × V)) (f : V) (R : TR) : Prop :=
  ∀ σ l d q σ', R σ l (some (.ret d q, σ')) → ∃ z ∈ Z, FlowAt P B G f z l True

theorem Rets.mono {Z Z' : List V} {P B : V → Prop} {G G' : List (V × V)} {f : V} {R : TR} (h : Rets Z P B G f R) (hs : ∀ x ∈ G, x ∈ G')
    (hz : ∀ z ∈ Z, z ∈ Z') : Rets Z' P B G' f R := by
  intro σ l d q σ' hr
  obtain ⟨z, h1, h2⟩ := h σ l d q σ' hr
  exact ⟨z, hz z h1, h2.mono hs id⟩

theorem Rets.after {Z : List V} {P B : V → Prop} {G : List (V × V)} {a f : V} {R : TR} (h : Rets Z P B G f R)
    (ha : P a → Reach G P a f ∧ P f) : Rets Z P B G a R := by
  intro σ l d q σ' hr
  obtain ⟨z, h1, h2⟩ := h σ l d q σ' hr
  exact ⟨z, h1, h2.after ha⟩

theorem rets_emit {Z : List V} {P B : V → Prop} {G : List (V × V)} {f : V} {us : List V} {g : St → St} : Rets Z P B G f (TR.emit us g) := by
  rintro σ l d q σ' (⟨_, h⟩ | ⟨_, h⟩) <;> cases h

theorem rets_seq {Z : List V} {P B : V → Prop} {G : List (V × V)} {f m : V} {R S : TR} (hF : Flows P B G f m R) (hR : Rets Z P B G f R)
    (hS : Rets Z P B G m S) : Rets Z P B G f (TR.seq R S) := by
  rintro σ l d q σ' (⟨l1, l2, σ1, h1, h2, rfl⟩ | ⟨h1, _⟩)
  · obtain ⟨z, h3, h4⟩ := hS _ _ _ _ _ h2
    exact ⟨z, h3, flowAt_append (hF _ _ _ h1) trivial h4⟩
  · exact hR _ _ _ _ _ h1

theorem rets_forever {Z : List V} {P B : V → Prop} {G : List (V × V)} {s e' : V} {R : TR} (hF : Flows P B G s e' R) (hs : P s)
    (he : Reach G P e' s) (hR : Rets Z P B G s R) : Rets Z P B G s (TR.forever R) := by
  intro σ l d q σ' h
  generalize ho : some (Ctl.ret d q, σ') = o at h
  induction h with
  | cut _ => cases ho
  | @step σ l σ1 l' o k h1 h2 _ ih =>
    have hf : Fin (some (k, σ1)) := by rcases h2 with rfl | rfl <;> exact trivial
    obtain ⟨z, h3, h4⟩ := ih ho
    exact ⟨z, h3, flowAt_append ((hF _ _ _ h1).before fun _ => ⟨he, hs⟩) hf h4⟩
  | stop _ => cases ho
  | ret d q h1 => exact hR _ _ _ _ _ h1

theorem rets_iter {Z : List V} {P B : V → Prop} {G : List (V × V)} {w m t e' : V} {b : St → Bool} {u : St → St} {cs us : List V} {R : TR}
    (hR : Flows P B G m e' R) (hS : Rets Z P B G m R) (hc : ∀ x ∈ chainE w cs, x ∈ G) (hl : (chainEnd w cs, m) ∈ G) (hm : P m) (ht : P t)
    (hu : ∀ x ∈ chainE e' (us ++ [t]), x ∈ G) (hback : (t, chainEnd w cs) ∈ G)
    (hB : ∀ v ∈ cs.dropLast, ¬ B v) (hne : cs ≠ []) : Rets Z P B G w (TR.iter b u cs us R) := by
  have hbm : ∀ {f l fin}, FlowAt P B G f (chainEnd w cs) l fin → FlowAt P B G f m l fin :=
    fun h => h.before fun hp => ⟨.one hp hl, hm⟩
  have hfirst : FlowAt P B G w (chainEnd w cs) cs True := flowAt_chain hc
  have hagain : FlowAt P B G t (chainEnd w cs) cs True := by
    refine ⟨fun hp l1 x l2 he h1 hb => ?_, fun _ _ hp => ⟨.one ht hback, hp _ (chainEnd_mem _ _ hne)⟩, hfirst.mid, hfirst.out⟩
    have : x = chainEnd w cs := by
      rw [he, chainEnd_drop]
      cases l2 with
      | nil => rfl
      | cons y r =>
        exfalso
        refine hB x ?_ hb
        rw [he, List.dropLast_append_of_ne_nil (by simp)]
        simp [List.dropLast]
    rw [this]; exact .one ht hback
  have hupd : FlowAt P B G e' t us True := by
    rw [chainE_append] at hu
    exact (flowAt_chain (fun x hx => hu x (by simp [hx]))).before fun hp => ⟨.one hp (hu _ (by simp [chainE])), ht⟩
  have key : ∀ σ l o, TR.iter b u cs us R σ l o → (∃ d q σ', o = some (Ctl.ret d q, σ')) →
      ∀ x, FlowAt P B G x (chainEnd w cs) cs True → ∃ z ∈ Z, FlowAt P B G x z l True := by
    intro σ l o h
    induction h with
    | cut h => rintro ⟨_, _, _, h⟩; cases h
    | done h => rintro ⟨_, _, _, h⟩; cases h
    | cutBody h0 h1 => rintro ⟨_, _, _, h⟩; cases h
    | cutUpd k h0 h1 hk h2 => rintro ⟨_, _, _, h⟩; cases h
    | @step σ l σ1 l' o k h0 h1 hk _ ih =>
      intro ho x hx
      have hf : Fin (some (k, σ1)) := by rcases hk with rfl | rfl <;> exact trivial
      obtain ⟨z, h3, h4⟩ := ih ho t hagain
      exact ⟨z, h3, flowAt_append (hbm hx) trivial (flowAt_append (hR _ _ _ h1) hf (flowAt_append hupd trivial h4))⟩
    | stop h0 h1 => rintro ⟨_, _, _, h⟩; cases h
    | ret d q h0 h1 =>
      intro _ x hx
      obtain ⟨z, h3, h4⟩ := hS _ _ _ _ _ h1
      exact ⟨z, h3, flowAt_append (hbm hx) trivial h4⟩
  exact fun σ l d q σ' h => key σ l _ h ⟨d, q, σ', rfl⟩ w hfirst

mutual
/-- the vertices of the returns -/
def Node.retV : Node → Nat → List V
  | .block _, _ => []
  | .seq s, k => s.retV (k + 2)
  | .ifElse b, k => b.retV (k + 2 + (readsOnce b.condAtoms).length)
  | .whileL s, k => s.retV (k + 4)
  | .loop _ i init cond _ s, k => s.retV (k + 2 + (initUses i init).length + (condUses cond).length + 2)
  | .brk, _ => []
  | .cont, _ => []
  | .ret _ _, _ => []
def Seq.retV : Seq → Nat → List V
  | .nil, _ => []
  | .cons n t r, k => if n.isRet then [n.first k] else n.retV k ++ r.retV (k + n.vn + (transUses t).length)
def Brs.retV : Brs → Nat → List V
  | .nil, _ => []
  | .cons _ s r, k => s.retV (k + 2) ++ r.retV (k + 2 + s.kn)
end

/-- the number of a vertex -/
def V.id : V → Nat
  | .nop k => k
  | .ev k _ => k

theorem evs_id {k : Nat} {us : List User} {v : V} (h : v ∈ evs k us) : k ≤ v.id ∧ v.id < k + us.length := by
  unfold evs at h
  simp only [List.mem_map] at h
  obtain ⟨⟨u, i⟩, h1, rfl⟩ := h
  have := List.mem_zipIdx h1
  exact ⟨this.1, this.2.1⟩

theorem chainE_src : ∀ (us : List V) (a : V), ∀ e ∈ chainE a us, e.1 = a ∨ e.1 ∈ us.dropLast
  | [], _, e, h => by simp [chainE] at h
  | [v], a, e, h => by simp [chainE] at h; subst h; exact Or.inl rfl
  | v :: w :: r, a, e, h => by
    rw [chainE] at h
    rcases List.mem_cons.mp h with rfl | h
    · exact Or.inl rfl
    · right
      rcases chainE_src (w :: r) v e h with h | h
      · rw [List.dropLast_cons_of_ne_nil (by simp)]; exact h ▸ List.mem_cons_self
      · rw [List.dropLast_cons_of_ne_nil (by simp)]; exact List.mem_cons_of_mem _ h

theorem chainE_src_id {us : List User} {k : Nat} {a : V} {e : V × V} (h : e ∈ chainE a (evs k us)) :
    e.1 = a ∨ (k ≤ e.1.id ∧ e.1.id < k + us.length) := by
  rcases chainE_src _ _ e h with h | h
  · exact Or.inl h
  · exact Or.inr (evs_id (List.dropLast_subset _ h))

theorem chainE_src_id' {us : List User} {k : Nat} {a t : V} {e : V × V} (h : e ∈ chainE a (evs k us ++ [t])) :
    e.1 = a ∨ (k ≤ e.1.id ∧ e.1.id < k + us.length) := by
  rcases chainE_src _ _ e h with h | h
  · exact Or.inl h
  · rw [List.dropLast_concat] at h; exact Or.inr (evs_id h)

theorem chainEnd_id (us : List User) (k : Nat) (a : V) : chainEnd a (evs k us) = a ∨
    (k ≤ (chainEnd a (evs k us)).id ∧ (chainEnd a (evs k us)).id < k + us.length) := by
  by_cases h : evs k us = []
  · left; rw [h]; rfl
  · exact Or.inr (evs_id (chainEnd_mem _ a h))

theorem exit_id (n : Node) (k : Nat) : k ≤ (n.exit k).id ∧ (n.isRet = false → (n.exit k).id < k + n.vn) := by
  cases n <;> simp [Node.exit, V.id, Node.vn, Node.isRet] <;> omega

theorem first_id (n : Node) (k : Nat) : (n.first k).id = k := by
  cases n with
  | ret d q => rw [Node.first]; split <;> rfl
  | _ => rfl

theorem vn_pos (n : Node) : 0 < n.vn := by
  cases n <;> simp [Node.vn] <;> omega


mutual
theorem Node.src (C : Brs → Bool) : (n : Node) → ∀ k, ∀ e ∈ n.ge C k, k ≤ e.1.id ∧ e.1.id < k + n.vn
  | .block l, k, e, h => by
    rw [Node.ge] at h; rw [Node.vn]
    rcases chainE_src_id' h with h | h
    · rw [h]; simp only [V.id]; omega
    · omega
  | .seq s, k, e, h => by
    rw [Node.ge] at h; rw [Node.vn]
    rcases Seq.src C s _ _ _ e h with h | h
    · rw [h]; simp only [V.id]; omega
    · omega
  | .ifElse b, k, e, h => by
    rw [Node.ge, evs_length] at h; rw [Node.vn]
    have h0 := chainEnd_id (readsOnce b.condAtoms) (k + 2) (.nop k)
    have h1 : k ≤ (chainEnd (.nop k) (evs (k + 2) (readsOnce b.condAtoms))).id ∧
        (chainEnd (.nop k) (evs (k + 2) (readsOnce b.condAtoms))).id < k + (2 + (readsOnce b.condAtoms).length + b.vn) := by
      rcases h0 with h0 | h0
      · rw [h0]; simp only [V.id]; omega
      · omega
    rcases List.mem_append.mp h with h | h
    · rcases List.mem_append.mp h with h | h
      · rcases chainE_src_id h with h | h
        · rw [h]; simp only [V.id]; omega
        · omega
      · rcases Brs.src C b _ _ _ e h with h | h
        · rw [h]; exact h1
        · omega
    · split at h
      · cases h
      · simp only [List.mem_singleton] at h; subst h; exact h1
  | .whileL s, k, e, h => by
    rw [Node.ge] at h; rw [Node.vn]
    rcases List.mem_cons.mp h with rfl | h
    · simp only [V.id]; omega
    · rcases List.mem_append.mp h with h | h
      · rcases Seq.src C s _ _ _ e h with h | h
        · rw [h]; simp only [V.id]; omega
        · omega
      · simp only [List.mem_cons, List.not_mem_nil, or_false] at h
        rcases h with rfl | rfl | rfl <;> simp only [V.id] <;> omega
  | .loop m i init cond upd s, k, e, h => by
    rw [Node.ge] at h; rw [Node.vn]
    simp only [evs_length] at h
    have h0 : k ≤ (chainEnd (.nop k) (evs (k + 2) (initUses i init))).id ∧
        (chainEnd (.nop k) (evs (k + 2) (initUses i init))).id < k + 2 + (initUses i init).length := by
      rcases chainEnd_id (initUses i init) (k + 2) (.nop k) with h0 | h0
      · rw [h0]; simp only [V.id]; omega
      · omega
    have h1 : k ≤ (chainEnd (chainEnd (.nop k) (evs (k + 2) (initUses i init))) (evs (k + 2 + (initUses i init).length) (condUses cond))).id ∧
        (chainEnd (chainEnd (.nop k) (evs (k + 2) (initUses i init))) (evs (k + 2 + (initUses i init).length) (condUses cond))).id <
          k + 2 + (initUses i init).length + (condUses cond).length := by
      rcases chainEnd_id (condUses cond) (k + 2 + (initUses i init).length) (chainEnd (.nop k) (evs (k + 2) (initUses i init))) with h1 | h1
      · rw [h1]; omega
      · omega
    rcases List.mem_append.mp h with h | h
    · rcases List.mem_append.mp h with h | h
      · rcases List.mem_append.mp h with h | h
        · rcases chainE_src_id h with h | h
          · rw [h]; simp only [V.id]; omega
          · omega
        · rcases chainE_src_id h with h | h
          · rw [h]; omega
          · omega
      · obtain ⟨v, hv, rfl⟩ := List.mem_map.mp h
        have := evs_id hv
        dsimp only; omega
    · rcases List.mem_cons.mp h with rfl | h
      · dsimp only; omega
      · rcases List.mem_append.mp h with h | h
        · rcases List.mem_append.mp h with h | h
          · rcases Seq.src C s _ _ _ e h with h | h
            · rw [h]; simp only [V.id]; omega
            · omega
          · rcases chainE_src_id' h with h | h
            · rw [h]; simp only [V.id]; omega
            · omega
        · simp only [List.mem_singleton] at h; subst h
          simp only [V.id]; omega
  | .brk, _, e, h => by simp [Node.ge] at h
  | .cont, _, e, h => by simp [Node.ge] at h
  | .ret _ _, _, e, h => by simp [Node.ge] at h
theorem Seq.src (C : Brs → Bool) : (s : Seq) → ∀ cur t k, ∀ e ∈ s.ge C cur t k, e.1 = cur ∨ (k ≤ e.1.id ∧ e.1.id < k + s.kn)
  | .nil, cur, t, k, e, h => by rw [Seq.ge] at h; simp only [List.mem_singleton] at h; subst h; exact Or.inl rfl
  | .cons n tr r, cur, t, k, e, h => by
    rw [Seq.ge] at h; rw [Seq.kn]
    split at h
    · simp only [List.mem_cons, List.not_mem_nil, or_false] at h
      rcases h with rfl | rfl <;> exact Or.inl rfl
    · rename_i hn
      have hn : n.isRet = false := by simpa using hn
      dsimp only at h
      rw [evs_length] at h
      have hx := exit_id n k
      have hx2 := hx.2 hn
      rcases List.mem_cons.mp h with rfl | h
      · exact Or.inl rfl
      · right
        rcases List.mem_append.mp h with h | h
        · rcases List.mem_append.mp h with h | h
          · have := Node.src C n k e h; omega
          · rcases chainE_src_id h with h | h
            · rw [h]; omega
            · omega
        · rcases Seq.src C r _ _ _ e h with h | h
          · rcases chainEnd_id (transUses tr) (k + n.vn) (n.exit k) with h0 | h0
            · rw [h, h0]; omega
            · rw [h]; omega
          · omega
theorem Brs.src (C : Brs → Bool) : (b : Brs) → ∀ last t k, ∀ e ∈ b.ge C last t k, e.1 = last ∨ (k ≤ e.1.id ∧ e.1.id < k + b.vn)
  | .nil, _, _, _, e, h => by simp [Brs.ge] at h
  | .cons c s r, last, t, k, e, h => by
    rw [Brs.ge] at h; rw [Brs.vn]
    rcases List.mem_cons.mp h with rfl | h
    · exact Or.inl rfl
    · rcases List.mem_append.mp h with h | h
      · right
        rcases Seq.src C s _ _ _ e h with h | h
        · rw [h]; simp only [V.id]; omega
        · omega
      · rcases List.mem_cons.mp h with rfl | h
        · right; simp only [V.id]; omega
        · rcases Brs.src C r _ _ _ e h with h | h
          · exact Or.inl h
          · right; omega
end

mutual
theorem Node.retV_id : (n : Node) → ∀ k, ∀ z ∈ n.retV k, k + 2 ≤ z.id ∧ z.id < k + n.vn
  | .block _, _, z, h => by simp [Node.retV] at h
  | .seq s, k, z, h => by rw [Node.retV] at h; rw [Node.vn]; have := Seq.retV_id s _ z h; omega
  | .ifElse b, k, z, h => by rw [Node.retV] at h; rw [Node.vn]; have := Brs.retV_id b _ z h; omega
  | .whileL s, k, z, h => by rw [Node.retV] at h; rw [Node.vn]; have := Seq.retV_id s _ z h; omega
  | .loop _ i init cond _ s, k, z, h => by rw [Node.retV] at h; rw [Node.vn]; have := Seq.retV_id s _ z h; omega
  | .brk, _, z, h => by simp [Node.retV] at h
  | .cont, _, z, h => by simp [Node.retV] at h
  | .ret _ _, _, z, h => by simp [Node.retV] at h
theorem Seq.retV_id : (s : Seq) → ∀ k, ∀ z ∈ s.retV k, k ≤ z.id ∧ z.id < k + s.kn
  | .nil, _, z, h => by simp [Seq.retV] at h
  | .cons n t r, k, z, h => by
    rw [Seq.retV] at h; rw [Seq.kn]
    split at h
    · simp only [List.mem_singleton] at h; subst h
      have := vn_pos n
      rw [first_id]; omega
    · rcases List.mem_append.mp h with h | h
      · have := Node.retV_id n _ z h; omega
      · have := Seq.retV_id r _ z h; omega
theorem Brs.retV_id : (b : Brs) → ∀ k, ∀ z ∈ b.retV k, k + 2 ≤ z.id ∧ z.id < k + b.vn
  | .nil, _, z, h => by simp [Brs.retV] at h
  | .cons _ s r, k, z, h => by
    rw [Brs.retV] at h; rw [Brs.vn]
    rcases List.mem_append.mp h with h | h
    · have := Seq.retV_id s _ z h; omega
    · have := Brs.retV_id r _ z h; omega
end

end Docc.IR
