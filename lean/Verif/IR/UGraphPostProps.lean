import Verif.IR.UGraphPost

namespace Docc.IR
open Docc.Sym

theorem V.id_nop (k : Nat) : (V.nop k).id = k := rfl

mutual
/-- the vertex of a return has no successor -/
theorem Node.sink (C : Brs → Bool) : (n : Node) → ∀ k, ∀ z ∈ n.retV k, ∀ e ∈ n.ge C k, e.1.id ≠ z.id
  | .block l, k, z, hz, e, h => by simp [Node.retV] at hz
  | .seq s, k, z, hz, e, h => by
    rw [Node.ge] at h; rw [Node.retV] at hz
    have hr := s.retV_id _ z hz
    rcases Seq.sink C s _ _ _ z hz e h with h | h
    · rw [h]; simp only [V.id_nop]; omega
    · exact h
  | .ifElse b, k, z, hz, e, h => by
    rw [Node.ge, evs_length] at h; rw [Node.retV] at hz
    have hr := b.retV_id _ z hz
    have h1 : (chainEnd (.nop k) (evs (k + 2) (readsOnce b.condAtoms))).id ≠ z.id := by
      rcases chainEnd_id (readsOnce b.condAtoms) (k + 2) (.nop k) with h0 | h0
      · rw [h0]; simp only [V.id_nop]; omega
      · omega
    rcases List.mem_append.mp h with h | h
    · rcases List.mem_append.mp h with h | h
      · rcases chainE_src_id h with h | h
        · rw [h]; simp only [V.id_nop]; omega
        · omega
      · rcases Brs.sink C b _ _ _ z hz e h with h | h
        · rw [h]; exact h1
        · exact h
    · split at h
      · cases h
      · simp only [List.mem_singleton] at h; subst h; exact h1
  | .whileL s, k, z, hz, e, h => by
    rw [Node.ge] at h; rw [Node.retV] at hz
    have hr := s.retV_id _ z hz
    rcases List.mem_cons.mp h with rfl | h
    · simp only [V.id_nop]; omega
    · rcases List.mem_append.mp h with h | h
      · rcases Seq.sink C s _ _ _ z hz e h with h | h
        · rw [h]; simp only [V.id_nop]; omega
        · exact h
      · simp only [List.mem_cons, List.not_mem_nil, or_false] at h
        rcases h with rfl | rfl | rfl <;> simp only [V.id_nop] <;> omega
  | .loop m i init cond upd s, k, z, hz, e, h => by
    rw [Node.ge] at h; rw [Node.retV] at hz
    simp only [evs_length] at h
    have hr := s.retV_id _ z hz
    have h0 : (chainEnd (.nop k) (evs (k + 2) (initUses i init))).id < k + 2 + (initUses i init).length := by
      rcases chainEnd_id (initUses i init) (k + 2) (.nop k) with h0 | h0
      · rw [h0]; simp only [V.id_nop]; omega
      · omega
    have h1 : (chainEnd (chainEnd (.nop k) (evs (k + 2) (initUses i init))) (evs (k + 2 + (initUses i init).length) (condUses cond))).id <
          k + 2 + (initUses i init).length + (condUses cond).length := by
      rcases chainEnd_id (condUses cond) (k + 2 + (initUses i init).length) (chainEnd (.nop k) (evs (k + 2) (initUses i init))) with h1 | h1
      · rw [h1]; omega
      · omega
    rcases List.mem_append.mp h with h | h
    · rcases List.mem_append.mp h with h | h
      · rcases List.mem_append.mp h with h | h
        · rcases chainE_src_id h with h | h
          · rw [h]; simp only [V.id_nop]; omega
          · omega
        · rcases chainE_src_id h with h | h
          · rw [h]; omega
          · omega
      · obtain ⟨v, hv, rfl⟩ := List.mem_map.mp h
        have := evs_id hv
        dsimp only; omega
    · rcases List.mem_cons.mp h with rfl | h
      · dsimp only; omega
      · rcases List.mem_append.mp h with h | h
        · rcases List.mem_append.mp h with h | h
          · rcases Seq.sink C s _ _ _ z hz e h with h | h
            · rw [h]; simp only [V.id_nop]; omega
            · exact h
          · rcases chainE_src_id' h with h | h
            · rw [h]; simp only [V.id_nop]; omega
            · omega
        · simp only [List.mem_singleton] at h; subst h
          simp only [V.id_nop]; omega
  | .brk, _, z, hz, e, h => by simp [Node.ge] at h
  | .cont, _, z, hz, e, h => by simp [Node.ge] at h
  | .ret _ _, _, z, hz, e, h => by simp [Node.ge] at h
theorem Seq.sink (C : Brs → Bool) : (s : Seq) → ∀ cur t k, ∀ z ∈ s.retV k, ∀ e ∈ s.ge C cur t k, e.1 = cur ∨ e.1.id ≠ z.id
  | .nil, cur, t, k, z, hz, e, h => by simp [Seq.retV] at hz
  | .cons n tr r, cur, t, k, z, hz, e, h => by
    rw [Seq.ge] at h; rw [Seq.retV] at hz
    split at h
    · simp only [List.mem_cons, List.not_mem_nil, or_false] at h
      rcases h with rfl | rfl <;> exact Or.inl rfl
    · rename_i hn
      rw [if_neg hn] at hz
      have hn : n.isRet = false := by simpa using hn
      dsimp only at h
      rw [evs_length] at h
      have hx := exit_id n k
      have hx2 := hx.2 hn
      rcases List.mem_cons.mp h with rfl | h
      · exact Or.inl rfl
      · right
        rcases List.mem_append.mp hz with hz | hz
        · have hr := n.retV_id _ z hz
          have hx3 : (n.exit k).id < k + 2 := by cases n <;> simp [Node.exit, V.id]
          rcases List.mem_append.mp h with h | h
          · rcases List.mem_append.mp h with h | h
            · exact Node.sink C n k z hz e h
            · rcases chainE_src_id h with h | h
              · rw [h]; omega
              · omega
          · rcases Seq.src C r _ _ _ e h with h | h
            · rcases chainEnd_id (transUses tr) (k + n.vn) (n.exit k) with h0 | h0
              · rw [h, h0]; omega
              · rw [h]; omega
            · omega
        · have hr := r.retV_id _ z hz
          rcases List.mem_append.mp h with h | h
          · rcases List.mem_append.mp h with h | h
            · have := Node.src C n k e h; omega
            · rcases chainE_src_id h with h | h
              · rw [h]; omega
              · omega
          · rcases Seq.sink C r _ _ _ z hz e h with h | h
            · rcases chainEnd_id (transUses tr) (k + n.vn) (n.exit k) with h0 | h0
              · rw [h, h0]; omega
              · rw [h]; omega
            · exact h
theorem Brs.sink (C : Brs → Bool) : (b : Brs) → ∀ last t k, ∀ z ∈ b.retV k, ∀ e ∈ b.ge C last t k, e.1 = last ∨ e.1.id ≠ z.id
  | .nil, _, _, _, z, hz, e, h => by simp [Brs.ge] at h
  | .cons c s r, last, t, k, z, hz, e, h => by
    rw [Brs.ge] at h; rw [Brs.retV] at hz
    rcases List.mem_cons.mp h with rfl | h
    · exact Or.inl rfl
    · rcases List.mem_append.mp hz with hz | hz
      · have hr := s.retV_id _ z hz
        rcases List.mem_append.mp h with h | h
        · right
          rcases Seq.sink C s _ _ _ z hz e h with h | h
          · rw [h]; simp only [V.id_nop]; omega
          · exact h
        · rcases List.mem_cons.mp h with rfl | h
          · right; simp only [V.id_nop]; omega
          · rcases Brs.src C r _ _ _ e h with h | h
            · exact Or.inl h
            · right; omega
      · have hr := r.retV_id _ z hz
        rcases List.mem_append.mp h with h | h
        · right
          rcases Seq.src C s _ _ _ e h with h | h
          · rw [h]; simp only [V.id_nop]; omega
          · omega
        · rcases List.mem_cons.mp h with rfl | h
          · right; simp only [V.id_nop]; omega
          · exact Brs.sink C r _ _ _ z hz e h
end

mutual
theorem Node.reach_ret {E : Env} {C : Brs → Bool} (hC : CompleteSound E C) {P B : V → Prop} (hP : ∀ k, P (.nop k)) :
    (n : Node) → n.flowOk = true → n.isRet = false → ∀ k, (∀ v ∈ n.stale k, ¬ B v) →
      Rets (n.retV k) P B (n.ge C k) (n.first k) (n.tr E k)
  | .block l, _, _, k, _ => by rw [Node.tr]; exact rets_emit
  | .seq s, hf, _, k, hs => by
    rw [Node.flowOk] at hf
    rw [Node.ge, Node.tr, Node.retV]
    exact Seq.reach_ret hC hP s hf _ _ _ (by rw [Node.stale] at hs; exact hs) (hP _)
  | .ifElse b, hf, _, k, hs => by
    rw [Node.flowOk] at hf
    rw [Node.stale] at hs
    rw [Node.ge, Node.tr, Node.retV]
    show Rets _ P B _ (.nop k) _
    refine rets_seq (flows_emit _ (fun e he => by simp [he])) rets_emit ?_
    rw [evs_length]
    exact Brs.reach_ret hC hP b hf _ _ (.nop (k + 1)) _ (fun e he => by
      simp only [List.mem_append]; exact Or.inl (Or.inr he)) hs
  | .whileL s, hf, _, k, hs => by
    rw [Node.flowOk] at hf
    rw [Node.stale] at hs
    rw [Node.ge, Node.tr, Node.retV]
    show Rets _ P B _ (.nop k) _
    refine rets_forever (e' := .nop (k + 3)) ?_ (hP k) ?_ ?_
    · intro σ l o hr
      exact ((Seq.flows hC hP s (Or.inl hf) (.nop (k + 2)) (.nop (k + 3)) (k + 4) hs (hP _) σ l o hr).mono (fun e he => by simp [he]) id).after
        fun _ => ⟨.one (hP k) (by simp), hP _⟩
    · exact (Reach.one (b := .nop (k + 1)) (hP _) (by simp)).trans (.one (hP _) (by simp))
    · exact ((Seq.reach_ret hC hP s hf (.nop (k + 2)) (.nop (k + 3)) (k + 4) hs (hP _)).mono (fun e he => by simp [he]) fun _ h => h).after
        fun _ => ⟨.one (hP k) (by simp), hP _⟩
  | .loop m i init cond upd s, hf, _, k, hs => by
    rw [Node.stale] at hs
    rw [Node.flowOk, Bool.and_eq_true] at hf
    have hf2 : condUses cond ≠ [] := condUses_ne (by simpa using hf.1)
    rw [Node.ge, Node.tr, Node.retV]
    show Rets _ P B _ (.nop k) _
    refine rets_seq (flows_emit _ (fun e he => by simp [he])) rets_emit ?_
    simp only [evs_length]
    refine rets_iter (t := .nop (k + 1)) (m := .nop (k + 2 + (initUses i init).length + (condUses cond).length))
      (e' := .nop (k + 2 + (initUses i init).length + (condUses cond).length + 1)) ?_ ?_ (fun e he => by simp [he]) (by simp) (hP _) (hP _) ?_
      (by simp) (fun v hv => hs v (by simp [hv])) (evs_ne_nil hf2)
    · exact (Seq.flows hC hP s (Or.inl hf.2) _ _ _ (fun v hv => hs v (by simp [hv])) (hP _)).mono fun e he => by simp [he]
    · exact (Seq.reach_ret hC hP s hf.2 _ (.nop (k + 2 + (initUses i init).length + (condUses cond).length + 1)) _ (fun v hv => hs v (by simp [hv]))
        (hP _)).mono (fun e he => by simp [he]) fun _ h => h
    · intro e he
      simp only [List.mem_append, List.mem_cons]; exact Or.inr (Or.inr (Or.inl (Or.inr he)))
  | .brk, hf, _, k, _ => by simp [Node.flowOk] at hf
  | .cont, hf, _, k, _ => by simp [Node.flowOk] at hf
  | .ret _ _, _, h, _, _ => by simp [Node.isRet] at h
theorem Seq.reach_ret {E : Env} {C : Brs → Bool} (hC : CompleteSound E C) {P B : V → Prop} (hP : ∀ k, P (.nop k)) :
    (s : Seq) → s.flowOk = true → ∀ cur t k, (∀ v ∈ s.stale k, ¬ B v) → P t → Rets (s.retV k) P B (s.ge C cur t k) cur (s.tr E k)
  | .nil, _, cur, t, k, _, _ => by rw [Seq.tr]; exact rets_emit
  | .cons n tr r, hf, cur, t, k, hs, ht => by
    rw [Seq.stale] at hs
    rw [Seq.flowOk, Bool.and_eq_true] at hf
    rw [Seq.tr, Seq.ge, Seq.retV]
    by_cases hn : n.isRet = true
    · obtain ⟨d, q, rfl⟩ := isRet_cases hn
      rw [if_pos hn, if_pos hn, Node.tr]
      rintro σ l d' q' σ' (⟨l1, l2, σ1, h1, h2, rfl⟩ | ⟨h1, h2⟩)
      · rcases h1 with ⟨_, h⟩ | ⟨_, h⟩ <;> cases h
      · rcases h1 with ⟨rfl, _⟩ | ⟨_, h⟩
        · refine ⟨_, List.mem_singleton.mpr rfl, ?_⟩
          rw [Node.first]
          split
          · exact (flowAt_chain (f := cur) (us := []) (by simp [chainE])).before fun hp =>
              ⟨.one hp (by simp [chainEnd]), hP _⟩
          · exact flowAt_chain (f := cur) (us := [.ev k (.read, d)]) (fun e he => by simpa [chainE] using Or.inl he)
        · cases h
    · rw [if_neg hn, if_neg hn]
      have hn : n.isRet = false := by simpa using hn
      dsimp only
      obtain ⟨j, hj⟩ := exit_nop n k
      have hx : P (n.exit k) := hj ▸ hP j
      refine rets_seq (m := n.exit k) ?_ ?_ (rets_seq (flows_emit _ (fun e he => by simp [he])) rets_emit ?_)
      · intro σ l o hr
        refine ((Node.flows hC hP n (Or.inl hf.1) hn k (fun v hv => hs v (by simp [hv])) σ l o hr).mono (fun e he => by simp [he]) id).after
          fun hp => ⟨.one hp (by simp), ?_⟩
        rw [first_nop hn]; exact hP _
      · refine ((Node.reach_ret hC hP n hf.1 hn k (fun v hv => hs v (by simp [hv]))).mono (fun e he => by simp [he]) fun z hz => by simp [hz]).after
          fun hp => ⟨.one hp (by simp), ?_⟩
        rw [first_nop hn]; exact hP _
      · rw [evs_length]
        exact (Seq.reach_ret hC hP r hf.2 _ t _ (fun v hv => hs v (by simp [hv])) ht).mono (fun e he => by
          simp only [List.mem_append, List.mem_cons]; exact Or.inr (Or.inr he)) fun z hz => by simp [hz]
theorem Brs.reach_ret {E : Env} {C : Brs → Bool} (hC : CompleteSound E C) {P B : V → Prop} (hP : ∀ k, P (.nop k)) :
    (b : Brs) → b.flowOk = true → ∀ (G : List (V × V)) last t k, (∀ e ∈ b.ge C last t k, e ∈ G) →
      (∀ v ∈ b.stale k, ¬ B v) → Rets (b.retV k) P B G last (b.tr E k)
  | .nil, _, G, last, t, k, hG, _ => by rw [Brs.tr]; exact rets_emit
  | .cons c s r, hf, G, last, t, k, hG, hs => by
    rw [Brs.stale] at hs
    rw [Brs.flowOk, Bool.and_eq_true] at hf
    rw [Brs.tr, Brs.retV]
    rw [Brs.ge] at hG
    intro σ l d q σ' hr
    unfold TR.ite at hr
    split at hr
    · exact (((Seq.reach_ret hC hP s hf.1 (.nop k) (.nop (k + 1)) (k + 2) (fun v hv => hs v (by simp [hv])) (hP _)).mono
        (G' := G) (fun e he => hG e (by simp [he])) fun z hz => List.mem_append_left _ hz).after (a := last)
          fun hp => ⟨.one hp (hG _ (by simp)), hP _⟩) σ l d q σ' hr
    · exact ((Brs.reach_ret hC hP r hf.2 G last t _ (fun e he => hG e (by simp [he])) (fun v hv => hs v (by simp [hv]))).mono
        (fun _ h => h) fun z hz => List.mem_append_right _ hz) σ l d q σ' hr
end

/-- **C73.** If the dominance analysis says that use `a` post-dominates use `v`, then every execution that performs `v` and ends (at the end
of the function or with a return) performs `a` after `v`.  Missing: programs with break or continue (there it is false) and loops
whose condition has no symbol. -/
theorem post_dominates_sound_partial {E : Env} {C : Brs → Bool} (hC : CompleteSound E C) {s : Seq} (hs : s.flowOk = true) {i : Nat} {u : User}
    {v : V} (hd : PostDominates (s.graph C) (.ev i u) v) {σ σ' : St} {c : Ctl} {l1 l2 : List V}
    (h : s.Performs E σ (l1 ++ v :: l2) (some (c, σ'))) : V.ev i u ∈ l2 := by
  refine Classical.byContradiction fun hn => ?_
  have hPn : ∀ k, V.nop k ≠ .ev i u := fun _ => by simp
  have key : ∀ z, FlowAt (fun x => x ≠ .ev i u) (fun v => False) (s.graph C) (.nop 0) z (l1 ++ v :: l2) True →
      (∀ y, (z, y) ∉ s.graph C) → False := by
    intro z hf hz
    obtain ⟨h1, h2⟩ := hf.out trivial l1 v l2 rfl (fun he => hd.1 he.symm) (fun x hx he => hn (he ▸ hx))
    obtain ⟨p, h3, h4, h5⟩ := h1.path
    rcases h5 _ (hd.2 p z h3 h4 hz) with h | h
    · exact h2 h.symm
    · exact h rfl
  have hsrc := Seq.src C s (.nop 0) (.nop 1) 2
  have fin : Fin (some (c, σ')) → False := by
    intro hc
    refine key (.nop 1) ((Seq.flows hC (P := fun x => x ≠ .ev i u) (B := fun _ => False) hPn s (Or.inl hs) (.nop 0) (.nop 1) 2
      (fun _ _ h => h) (hPn 1) σ _ _ h).mono (fun _ h => h) fun _ => hc) fun y hy => ?_
    rcases hsrc _ hy with h | h
    · cases h
    · simp only [V.id_nop] at h; omega
  match c, h, fin with
  | .ret d q, h, _ =>
    obtain ⟨z, hz, hf⟩ := Seq.reach_ret hC (P := fun x => x ≠ .ev i u) (B := fun _ => False) hPn s hs (.nop 0) (.nop 1) 2 (fun _ _ h => h) (hPn 1)
      σ _ d q σ' h
    refine key z hf fun y hy => ?_
    have hr := s.retV_id 2 z hz
    rcases Seq.sink C s (.nop 0) (.nop 1) 2 z hz _ hy with h | h
    · dsimp only at h; rw [h] at hr; simp [V.id] at hr
    · exact h rfl
  | .normal, _, fin => exact fin trivial
  | .brk, _, fin => exact fin trivial
  | .cont, _, fin => exact fin trivial

end Docc.IR
