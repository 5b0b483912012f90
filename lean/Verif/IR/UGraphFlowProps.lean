import Verif.IR.UGraphFlow

namespace Docc.IR
open Docc.Sym

mutual
/-- no `break` and no `continue` anywhere, and every For and Map loop has a symbol in its condition -/
def Node.flowOk : Node → Bool
  | .block _ => true
  | .seq s => s.flowOk
  | .ifElse b => b.flowOk
  | .whileL s => s.flowOk
  | .loop _ _ _ cond _ s => !cond.atoms.isEmpty && s.flowOk
  | .brk => false
  | .cont => false
  | .ret _ _ => true
def Seq.flowOk : Seq → Bool
  | .nil => true
  | .cons n _ r => n.flowOk && r.flowOk
def Brs.flowOk : Brs → Bool
  | .nil => true
  | .cons _ s r => s.flowOk && r.flowOk
end

mutual
theorem Node.flowOk_noJump : (n : Node) → n.flowOk = true → n.noJump = true
  | .block _, _ => rfl
  | .seq s, h => by rw [Node.flowOk] at h; rw [Node.noJump]; exact s.flowOk_noJump h
  | .ifElse b, h => by rw [Node.flowOk] at h; rw [Node.noJump]; exact b.flowOk_noJump h
  | .whileL _, _ => rfl
  | .loop .., _ => rfl
  | .brk, h => by simp [Node.flowOk] at h
  | .cont, h => by simp [Node.flowOk] at h
  | .ret _ _, _ => rfl
theorem Seq.flowOk_noJump : (s : Seq) → s.flowOk = true → s.noJump = true
  | .nil, _ => rfl
  | .cons n _ r, h => by
    rw [Seq.flowOk, Bool.and_eq_true] at h
    rw [Seq.noJump, n.flowOk_noJump h.1, r.flowOk_noJump h.2]; rfl
theorem Brs.flowOk_noJump : (b : Brs) → b.flowOk = true → b.noJump = true
  | .nil, _ => rfl
  | .cons _ s r, h => by
    rw [Brs.flowOk, Bool.and_eq_true] at h
    rw [Brs.noJump, s.flowOk_noJump h.1, r.flowOk_noJump h.2]; rfl
end

theorem noJump_node {E : Env} {n : Node} (h : n.noJump = true) (k : Nat) : (n.tr E k).NoJump := by
  intro σ l c σ' hr
  have h1 : (n.tr E k).rel σ c σ' := ⟨l, hr⟩
  rw [Node.tr_rel] at h1
  have := Node.noJump_proper E n h σ c σ' h1
  constructor <;> (rintro rfl; simp [Ctl.proper] at this)

/-! ### an element can be passed in the graph -/

mutual
theorem Node.pass {E : Env} {C : Brs → Bool} (hC : CompleteSound E C) {P : V → Prop} (hP : ∀ v, P v) :
    (n : Node) → n.isRet = false → ∀ k, Reach (n.ge C k) P (n.first k) (n.exit k)
  | .block l, _, k => by
    rw [Node.ge]
    have := chain_all (P := P) (evs (k + 2) (l.flatMap Stmt.users) ++ [.nop (k + 1)]) (.nop k) (fun e he => he) (hP _) fun v _ => hP v
    rwa [chainEnd_drop _ []] at this
  | .seq s, _, k => by rw [Node.ge]; exact Seq.pass hC hP s _ _ _
  | .ifElse b, _, k => by
    rw [Node.ge]
    show Reach _ P (.nop k) (.nop (k + 1))
    refine (chain_all (P := P) (evs (k + 2) (readsOnce b.condAtoms)) (.nop k) (fun e he => by simp [he]) (hP _) fun v _ => hP v).trans ?_
    by_cases hb : C b = true
    · obtain ⟨c, hc, _⟩ := hC b hb (fun _ _ => 0)
      refine (Brs.pass hC hP b (by rintro rfl; simp [Brs.conds] at hc) _ (.nop (k + 1))
        (k + 2 + (evs (k + 2) (readsOnce b.condAtoms)).length)).mono fun e he => ?_
      simp only [List.mem_append]; exact Or.inl (Or.inr he)
    · exact .one (hP _) (by simp [hb])
  | .whileL s, _, k => by rw [Node.ge]; exact .one (hP _) (by simp [Node.first, Node.exit])
  | .loop m i init cond upd s, _, k => by
    rw [Node.ge]
    show Reach _ P (.nop k) (.nop (k + 1))
    generalize evs (k + 2) (initUses i init) = u1
    generalize evs (k + 2 + u1.length) (condUses cond) = u2
    generalize k + 2 + u1.length + u2.length = kb
    generalize evs (kb + 2 + s.kn) (updUses i upd) = u3
    refine (chain_all (P := P) u1 (.nop k) (fun e he => by simp [he]) (hP _) fun v _ => hP v).trans ?_
    refine (chain_all (P := P) u2 _ (fun e he => by simp [he]) (hP _) fun v _ => hP v).trans ?_
    refine (Reach.one (b := .nop kb) (hP _) (by simp)).trans ?_
    refine ((Seq.pass hC hP s (.nop kb) (.nop (kb + 1)) (kb + 2)).mono (fun e he => by simp [he])).trans ?_
    have := chain_all (P := P) (u3 ++ [.nop (k + 1)]) (.nop (kb + 1)) (fun e he => he) (hP _) fun v _ => hP v
    rw [chainEnd_drop _ []] at this
    exact this.mono fun e he => by simp only [List.mem_append, List.mem_cons]; exact Or.inr (Or.inr (Or.inl (Or.inr he)))
  | .brk, _, _ => .refl
  | .cont, _, _ => .refl
  | .ret _ _, h, _ => by simp [Node.isRet] at h
theorem Seq.pass {E : Env} {C : Brs → Bool} (hC : CompleteSound E C) {P : V → Prop} (hP : ∀ v, P v) :
    (s : Seq) → ∀ cur t k, Reach (s.ge C cur t k) P cur t
  | .nil, cur, t, k => by rw [Seq.ge]; exact .one (hP _) (by simp)
  | .cons n tr r, cur, t, k => by
    rw [Seq.ge]
    by_cases hn : n.isRet = true
    · rw [if_pos hn]; exact .one (hP _) (by simp)
    · rw [if_neg hn]
      have hn : n.isRet = false := by simpa using hn
      dsimp only
      refine (Reach.one (b := n.first k) (hP _) (by simp)).trans ?_
      refine ((Node.pass hC hP n hn k).mono fun e he => by simp [he]).trans ?_
      refine (chain_all (P := P) (evs (k + n.vn) (transUses tr)) _ (fun e he => by simp [he]) (hP _) fun v _ => hP v).trans ?_
      exact (Seq.pass hC hP r _ t _).mono fun e he => by
        simp only [List.mem_append, List.mem_cons]; exact Or.inr (Or.inr he)
theorem Brs.pass {E : Env} {C : Brs → Bool} (hC : CompleteSound E C) {P : V → Prop} (hP : ∀ v, P v) :
    (b : Brs) → b ≠ .nil → ∀ last t k, Reach (b.ge C last t k) P last t
  | .nil, h, _, _, _ => absurd rfl h
  | .cons c s r, _, last, t, k => by
    rw [Brs.ge]
    refine (Reach.one (b := .nop k) (hP _) (by simp)).trans ?_
    refine ((Seq.pass hC hP s (.nop k) (.nop (k + 1)) (k + 2)).mono fun e he => by simp [he]).trans ?_
    exact .one (hP _) (by simp)
end

mutual
/-- the symbols of loop conditions that are re-read in later iterations without an edge for it (users.cpp:398: the back edge goes
to the last symbol only) -/
def Node.stale : Node → Nat → List V
  | .block _, _ => []
  | .seq s, k => s.stale (k + 2)
  | .ifElse b, k => b.stale (k + 2 + (readsOnce b.condAtoms).length)
  | .whileL s, k => s.stale (k + 4)
  | .loop _ i init cond _ s, k =>
    (evs (k + 2 + (initUses i init).length) (condUses cond)).dropLast ++
      s.stale (k + 2 + (initUses i init).length + (condUses cond).length + 2)
  | .brk, _ => []
  | .cont, _ => []
  | .ret _ _, _ => []
def Seq.stale : Seq → Nat → List V
  | .nil, _ => []
  | .cons n t r, k => n.stale k ++ r.stale (k + n.vn + (transUses t).length)
def Brs.stale : Brs → Nat → List V
  | .nil, _ => []
  | .cons _ s r, k => s.stale (k + 2) ++ r.stale (k + 2 + s.kn)
end

theorem chainEnd_mem : ∀ (us : List V) (a : V), us ≠ [] → chainEnd a us ∈ us
  | [], _, h => absurd rfl h
  | [v], _, _ => by simp [chainEnd]
  | v :: x :: r, _, _ => by
    have := chainEnd_mem (x :: r) v (by simp)
    rw [chainEnd]; exact List.mem_cons_of_mem _ this

mutual
theorem Node.flows {E : Env} {C : Brs → Bool} (hC : CompleteSound E C) {P B : V → Prop} (hP : ∀ k, P (.nop k)) :
    (n : Node) → (n.flowOk = true ∨ ∀ v, P v) → n.isRet = false → ∀ k, (∀ v ∈ n.stale k, ¬ B v) →
      Flows P B (n.ge C k) (n.first k) (n.exit k) (n.tr E k)
  | .block l, _, _, k, _ => by
    rw [Node.ge, Node.tr, chainE_append]
    show Flows P B _ (.nop k) (.nop (k + 1)) _
    intro σ l o hr
    exact (flows_emit _ (fun e he => List.mem_append_left _ he) σ l o hr).before
      fun hp => ⟨.one hp (by simp [chainE]), hP _⟩
  | .seq s, hf, _, k, hs => by
    rw [Node.flowOk] at hf
    rw [Node.ge, Node.tr]
    exact Seq.flows hC hP s hf _ _ _ (by rw [Node.stale] at hs; exact hs) (hP _)
  | .ifElse b, hf, _, k, hs => by
    rw [Node.flowOk] at hf
    rw [Node.stale] at hs
    rw [Node.ge, Node.tr]
    show Flows P B _ (.nop k) (.nop (k + 1)) _
    refine flows_seq (flows_emit _ (fun e he => by simp [he])) ?_ (Or.inl ?_)
    · intro σ l o hr
      refine Brs.flows hC hP b hf _ _ _ _ (fun e he => ?_) hs (hP _) σ l o hr ?_
      · rw [evs_length]; simp [he]
      · by_cases hb : C b = true
        · exact Or.inr (hC b hb σ)
        · left; simp [hb]
    · rintro σ l c σ' (⟨_, h⟩ | ⟨_, h⟩) <;> cases h
      exact ⟨by simp, by simp⟩
  | .whileL s, hf, _, k, hs => by
    rw [Node.flowOk] at hf
    rw [Node.stale] at hs
    rw [Node.ge, Node.tr]
    show Flows P B _ (.nop k) (.nop (k + 1)) _
    refine flows_forever (e' := .nop (k + 3)) ?_ (hP k) ⟨.one (hP k) (by simp), hP _⟩ (.one (hP _) (by simp)) (.one (hP _) (by simp))
    intro σ l o hr
    exact ((Seq.flows hC hP s hf (.nop (k + 2)) (.nop (k + 3)) (k + 4) hs (hP _) σ l o hr).mono (fun e he => by simp [he]) id).after
      fun _ => ⟨.one (hP k) (by simp), hP _⟩
  | .loop m i init cond upd s, hf, _, k, hs => by
    rw [Node.stale] at hs
    have hf1 : s.flowOk = true ∨ ∀ v, P v := by
      rcases hf with hf | hf
      · rw [Node.flowOk, Bool.and_eq_true] at hf; exact Or.inl hf.2
      · exact Or.inr hf
    have hf2 : condUses cond ≠ [] ∨ ∀ v, P v := by
      rcases hf with hf | hf
      · rw [Node.flowOk, Bool.and_eq_true] at hf; exact Or.inl (condUses_ne (by simpa using hf.1))
      · exact Or.inr hf
    rw [Node.ge, Node.tr]
    show Flows P B _ (.nop k) (.nop (k + 1)) _
    refine flows_seq (flows_emit _ (fun e he => by simp [he])) ?_ (Or.inl ?_)
    · simp only [evs_length]
      refine flows_iter (m := .nop (k + 2 + (initUses i init).length + (condUses cond).length))
        (e' := .nop (k + 2 + (initUses i init).length + (condUses cond).length + 1)) ?_ (fun e he => by simp [he]) (by simp) (hP _) (hP _) ?_ ?_
        (by simp) (fun v hv => hs v (by simp [hv])) ?_ ?_
      · exact (Seq.flows hC hP s hf1 _ _ _ (fun v hv => hs v (by simp [hv])) (hP _)).mono fun e he => by simp [he]
      · intro hp
        rcases hf2 with h | h
        · refine .one hp ?_
          simp only [List.mem_append, List.mem_cons, List.mem_map]
          exact Or.inl (Or.inr ⟨_, chainEnd_mem _ _ (evs_ne_nil h), rfl⟩)
        · refine (Reach.one (b := .nop (k + 2 + (initUses i init).length + (condUses cond).length)) hp (by simp)).trans ?_
          refine ((Seq.pass hC h s _ _ _).mono (fun e he => List.mem_append_right _ (List.mem_cons_of_mem _ (List.mem_append_left _
            (List.mem_append_left _ he))))).trans ?_
          have := chain_all (P := P) (evs (k + 2 + (initUses i init).length + (condUses cond).length + 2 + s.kn) (updUses i upd) ++ [.nop (k + 1)])
            (.nop (k + 2 + (initUses i init).length + (condUses cond).length + 1)) (fun e he => he) (hP _) fun v _ => h v
          rw [chainEnd_drop _ []] at this
          exact this.mono fun e he => by simp only [List.mem_append, List.mem_cons]; exact Or.inr (Or.inr (Or.inl (Or.inr he)))
      · intro e he
        simp only [List.mem_append, List.mem_cons]; exact Or.inr (Or.inr (Or.inl (Or.inr he)))
      · rcases hf2 with h | h
        · exact Or.inl (evs_ne_nil h)
        · exact Or.inr h
      · rcases hf1 with h | h
        · exact Or.inl (noJump_tr (s.flowOk_noJump h) _)
        · exact Or.inr h
    · rintro σ l c σ' (⟨_, h⟩ | ⟨_, h⟩) <;> cases h
      exact ⟨by simp, by simp⟩
  | .brk, _, _, k, _ => by rw [Node.tr]; exact flows_jump _ (by simp [chainE]) (Or.inr rfl)
  | .cont, _, _, k, _ => by rw [Node.tr]; exact flows_jump _ (by simp [chainE]) (Or.inr rfl)
  | .ret _ _, _, h, _, _ => by simp [Node.isRet] at h
theorem Seq.flows {E : Env} {C : Brs → Bool} (hC : CompleteSound E C) {P B : V → Prop} (hP : ∀ k, P (.nop k)) :
    (s : Seq) → (s.flowOk = true ∨ ∀ v, P v) → ∀ cur t k, (∀ v ∈ s.stale k, ¬ B v) → P t → Flows P B (s.ge C cur t k) cur t (s.tr E k)
  | .nil, _, cur, t, k, _, ht => by
    rw [Seq.tr, Seq.ge]
    intro σ l o hr
    exact (flows_emit (f := cur) (us := []) id (by simp [chainE]) σ l o hr).before fun hp => ⟨.one hp (by simp [chainEnd]), ht⟩
  | .cons n tr r, hf, cur, t, k, hs, ht => by
    rw [Seq.stale] at hs
    have hf1 : n.flowOk = true ∨ ∀ v, P v := by
      rcases hf with hf | hf
      · rw [Seq.flowOk, Bool.and_eq_true] at hf; exact Or.inl hf.1
      · exact Or.inr hf
    have hf2 : r.flowOk = true ∨ ∀ v, P v := by
      rcases hf with hf | hf
      · rw [Seq.flowOk, Bool.and_eq_true] at hf; exact Or.inl hf.2
      · exact Or.inr hf
    rw [Seq.tr, Seq.ge]
    by_cases hn : n.isRet = true
    · obtain ⟨d, q, rfl⟩ := isRet_cases hn
      rw [if_pos hn, Node.tr]
      rintro σ l o (⟨l1, l2, σ1, h1, h2, rfl⟩ | ⟨h1, h2⟩)
      · rcases h1 with ⟨_, h⟩ | ⟨_, h⟩ <;> cases h
      · refine flows_jump (Ctl.ret d q) (fun e he => ?_) (Or.inl ⟨d, q, rfl⟩) σ l o h1
        split at he
        · simp [chainE] at he
        · rename_i hq
          simp only [chainE, List.mem_cons, List.not_mem_nil, or_false] at he
          subst he
          simp [Node.first, hq]
    · rw [if_neg hn]
      have hn : n.isRet = false := by simpa using hn
      dsimp only
      obtain ⟨j, hj⟩ := exit_nop n k
      have hx : P (n.exit k) := hj ▸ hP j
      refine flows_seq (m := n.exit k) ?_ (flows_seq (flows_emit _ (fun e he => by simp [he])) ?_ (Or.inl ?_)) ?_
      · intro σ l o hr
        refine ((Node.flows hC hP n hf1 hn k (fun v hv => hs v (by simp [hv])) σ l o hr).mono (fun e he => by simp [he]) id).after
          fun hp => ⟨.one hp (by simp), ?_⟩
        rw [first_nop hn]; exact hP _
      · rw [evs_length]
        exact (Seq.flows hC hP r hf2 _ t _ (fun v hv => hs v (by simp [hv])) ht).mono fun e he => by
          simp only [List.mem_append, List.mem_cons]; exact Or.inr (Or.inr he)
      · rintro σ l c σ' (⟨_, h⟩ | ⟨_, h⟩) <;> cases h
        exact ⟨by simp, by simp⟩
      · rcases hf1 with h | h
        · exact Or.inl (noJump_node (n.flowOk_noJump h) k)
        · refine Or.inr ⟨?_, ht⟩
          refine (chain_all (P := P) (evs (k + n.vn) (transUses tr)) _ (fun e he => by simp [he]) (h _) fun v _ => h v).trans ?_
          exact (Seq.pass hC h r _ t _).mono fun e he => by
            simp only [List.mem_append, List.mem_cons]; exact Or.inr (Or.inr he)
theorem Brs.flows {E : Env} {C : Brs → Bool} (hC : CompleteSound E C) {P B : V → Prop} (hP : ∀ k, P (.nop k)) :
    (b : Brs) → (b.flowOk = true ∨ ∀ v, P v) → ∀ (G : List (V × V)) last t k, (∀ e ∈ b.ge C last t k, e ∈ G) →
      (∀ v ∈ b.stale k, ¬ B v) → P t → ∀ σ l o, b.tr E k σ l o → ((last, t) ∈ G ∨ ∃ c ∈ b.conds, σ.cond E c = true) →
      FlowAt P B G last t l (Fin o)
  | .nil, _, G, last, t, k, hG, _, ht, σ, l, o, hr, he => by
    rw [Brs.tr] at hr
    refine (flows_emit (f := last) (us := []) id (by simp [chainE]) σ l o hr).before fun hp => ⟨?_, ht⟩
    rcases he with he | ⟨c, hc, _⟩
    · exact .one hp he
    · simp [Brs.conds] at hc
  | .cons c s r, hf, G, last, t, k, hG, hs, ht, σ, l, o, hr, he => by
    rw [Brs.stale] at hs
    have hf1 : s.flowOk = true ∨ ∀ v, P v := by
      rcases hf with hf | hf
      · rw [Brs.flowOk, Bool.and_eq_true] at hf; exact Or.inl hf.1
      · exact Or.inr hf
    have hf2 : r.flowOk = true ∨ ∀ v, P v := by
      rcases hf with hf | hf
      · rw [Brs.flowOk, Bool.and_eq_true] at hf; exact Or.inl hf.2
      · exact Or.inr hf
    rw [Brs.tr, TR.ite] at hr
    rw [Brs.ge] at hG
    split at hr
    · have h1 := (Seq.flows hC hP s hf1 (.nop k) (.nop (k + 1)) (k + 2) (fun v hv => hs v (by simp [hv])) (hP _) σ l o hr).mono
        (G' := G) (fun e he => hG e (by simp [he])) id
      exact (h1.after (a := last) fun hp => ⟨.one hp (hG _ (by simp)), hP _⟩).before
        fun _ => ⟨.one (hP _) (hG (.nop (k + 1), t) (by simp)), ht⟩
    · rename_i hc
      refine Brs.flows hC hP r hf2 G last t _ (fun e he => hG e (by simp [he])) (fun v hv => hs v (by simp [hv])) ht σ l o hr ?_
      rcases he with he | ⟨c', hc', h⟩
      · exact Or.inl he
      · rw [Brs.conds] at hc'
        rcases List.mem_cons.mp hc' with rfl | hc'
        · exact absurd h (by simpa using hc)
        · exact Or.inr ⟨c', hc', h⟩
end

/-- **C72.** `all_uses_after` is complete: if an execution performs use `v` and later use `b`, then `b` is listed.  This holds for all
programs, with breaks, continues and returns; missing is only the re-reading of a loop condition: in later iterations of a For or Map loop
the symbols of the condition other than the last one; for those it is false. -/
theorem uses_after_complete_partial {E : Env} {C : Brs → Bool} (hC : CompleteSound E C) {s : Seq} {σ : St} {l0 l1 l2 : List V} {v b : V}
    {o : Option (Ctl × St)} (h : s.Performs E σ (l0 ++ v :: (l1 ++ b :: l2)) o) (hvb : v ≠ b) (hb : b ∉ s.stale 2) :
    UsedAfter (s.graph C) v b := by
  have := (Seq.flows hC (P := fun _ => True) (B := fun v => v ∉ s.stale 2) (fun _ => trivial) s (Or.inr fun _ => trivial) (.nop 0) (.nop 1) 2
    (fun v hv h => h hv) trivial σ _ o h).mid l0 v l1 b l2 rfl trivial (fun _ _ => trivial) hb
  obtain ⟨p, h1, h2, _⟩ := this.path
  exact ⟨hvb, p, h1, h2⟩

/-- **C72.** `all_uses_between(a, b)` is complete: if an execution performs use `v` and later `b`, without performing `a` in between, then `v` is
listed.  Missing: programs with break or continue, loops whose condition has no symbol, and the re-reading of a loop condition. -/
theorem uses_between_complete_partial {E : Env} {C : Brs → Bool} (hC : CompleteSound E C) {s : Seq} (hs : s.flowOk = true) {σ : St}
    {l0 l1 l2 : List V} {i : Nat} {u : User} {v b : V} {o : Option (Ctl × St)} (h : s.Performs E σ (l0 ++ v :: (l1 ++ b :: l2)) o)
    (hva : v ≠ .ev i u) (hab : b ≠ .ev i u) (hl : V.ev i u ∉ l1) (hvb : v ≠ b) (hb : b ∉ s.stale 2) :
    UsedBetween (s.graph C) (.ev i u) b v := by
  have := (Seq.flows hC (P := fun x => x ≠ .ev i u) (B := fun v => v ∉ s.stale 2) (fun _ => by simp) s (Or.inl hs) (.nop 0) (.nop 1) 2
    (fun v hv h => h hv) (by simp) σ _ o h).mid l0 v l1 b l2 rfl hva (fun x hx he => hl (he ▸ hx)) hb
  obtain ⟨p, h1, h2, h3⟩ := this.path
  refine ⟨hva, hvb, p, h1, h2, fun hm => ?_⟩
  rcases h3 _ hm with h | h
  · exact hab h.symm
  · exact h rfl

end Docc.IR
