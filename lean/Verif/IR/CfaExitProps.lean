import Verif.IR.CfaExit

/-
The entry of the control flow graph, and the exits at which an execution returns.
-/
namespace Docc.IR
open Docc.Sym

/-! ### entry -/

mutual
theorem Node.has_pred (C : Brs → Bool) : (n : Node) → ∀ (L : V) (k : Nat), ∀ v ∈ (n.cfg C L k).verts, (n.cfg C L k).start = some v ∨ ∃ u, (u, v) ∈ (n.cfg C L k).edges
  | .block _, L, k, v, h => by simp only [Node.cfg, List.mem_singleton] at h; subst h; exact .inl rfl
  | .ret _ _, L, k, v, h => by simp only [Node.cfg, List.mem_singleton] at h; subst h; exact .inl rfl
  | .brk, L, k, v, h => by simp only [Node.cfg, List.mem_singleton] at h; subst h; exact .inl rfl
  | .cont, L, k, v, h => by simp only [Node.cfg, List.mem_singleton] at h; subst h; exact .inl rfl
  | .seq s, L, k, v, h => Seq.has_pred_begin C s L (k + 1) v h
  | .whileL s, L, k, v, h => by
    simp only [Node.cfg, List.mem_cons] at h ⊢
    rcases h with rfl | h
    · exact .inl rfl
    · refine .inr ?_
      rcases Seq.has_pred_begin C s (cv k) (k + 1) v h with h | ⟨u, h⟩
      · exact ⟨cv k, by simp only [List.mem_append, h]; exact .inl (.inl mem_edgeIf)⟩
      · exact ⟨u, by simp only [List.mem_append]; exact .inl (.inr h)⟩
  | .loop _ _ _ _ _ s, L, k, v, h => by
    simp only [Node.cfg, List.mem_cons] at h ⊢
    rcases h with rfl | h
    · exact .inl rfl
    · refine .inr ?_
      rcases Seq.has_pred_begin C s (cv k) (k + 1) v h with h | ⟨u, h⟩
      · exact ⟨cv k, by simp only [List.mem_append, h]; exact .inl (.inl mem_edgeIf)⟩
      · exact ⟨u, by simp only [List.mem_append]; exact .inl (.inr h)⟩
  | .ifElse b, L, k, v, h => by
    obtain ⟨b1, b2⟩ := Brs.has_pred C b L (cv k) (.nop k) (k + 1)
    simp only [Node.cfg, List.mem_cons, List.mem_append] at h ⊢
    rcases h with (rfl | h) | h
    · exact .inl rfl
    · obtain ⟨u, hu⟩ := b1 v h
      exact .inr ⟨u, .inl hu⟩
    · split at h
      · rename_i hj
        simp only [List.mem_singleton] at h; subst h
        cases hc : C b with
        | false => exact .inr ⟨cv k, .inr (by simp)⟩
        | true =>
          simp only [hc, Bool.not_true, Bool.or_false] at hj
          obtain ⟨u, hu⟩ := b2 hj
          exact .inr ⟨u, .inl hu⟩
      · simp at h
theorem Seq.has_pred_from (C : Brs → Bool) : (s : Seq) → ∀ (L : V) (st : Option V) (z : V) (k : Nat), ∀ v ∈ (s.cfg C L st (some z) k).verts,
    ∃ u, (u, v) ∈ (s.cfg C L st (some z) k).edges
  | .nil, L, st, z, k, v, h => by simp [Seq.cfg] at h
  | .cons n t r, L, st, z, k, v, h => by
    have hn := Node.has_pred C n L k v
    simp only [Seq.cfg] at h ⊢
    split at h
    · rename_i hx
      rcases hn h with h | ⟨u, h⟩
      · exact ⟨z, List.mem_append_right _ (by rw [h]; exact mem_edgeIf)⟩
      · exact ⟨u, List.mem_append_left _ h⟩
    · rename_i e hx
      simp only [List.mem_append] at h ⊢
      rcases h with h | h
      · rcases hn h with h | ⟨u, h⟩
        · exact ⟨z, .inl (.inr (by rw [h]; exact mem_edgeIf))⟩
        · exact ⟨u, .inl (.inl h)⟩
      · obtain ⟨u, h⟩ := Seq.has_pred_from C r L _ e (k + n.cn) v h
        exact ⟨u, .inr h⟩
theorem Seq.has_pred_begin (C : Brs → Bool) : (s : Seq) → ∀ (L : V) (k : Nat), ∀ v ∈ (s.cfg C L none none k).verts,
    (s.cfg C L none none k).start = some v ∨ ∃ u, (u, v) ∈ (s.cfg C L none none k).edges
  | .nil, L, k, v, h => by simp [Seq.cfg] at h
  | .cons n t r, L, k, v, h => by
    have hn := Node.has_pred C n L k v
    simp only [Seq.cfg] at h ⊢
    split at h
    · rename_i hx
      rcases hn h with h | ⟨u, h⟩
      · exact .inl (by rw [Option.none_or]; exact h)
      · exact .inr ⟨u, List.mem_append_left _ h⟩
    · rename_i e hx
      simp only [List.mem_append] at h ⊢
      rcases h with h | h
      · rcases hn h with h | ⟨u, h⟩
        · exact .inl (by rw [h, Option.none_or]; exact cfg_start_keep _ _ _ _ _ _)
        · exact .inr ⟨u, .inl (.inl h)⟩
      · obtain ⟨u, h⟩ := Seq.has_pred_from C r L _ e (k + n.cn) v h
        exact .inr ⟨u, .inr h⟩
theorem Brs.has_pred (C : Brs → Bool) : (b : Brs) → ∀ (L h j : V) (k : Nat), (∀ v ∈ (b.cfg C L h j k).verts, ∃ u, (u, v) ∈ (b.cfg C L h j k).edges) ∧
    ((b.cfg C L h j k).fin.isSome = true → ∃ u, (u, j) ∈ (b.cfg C L h j k).edges)
  | .nil, L, h, j, k => ⟨fun v hv => by simp [Brs.cfg] at hv, fun hv => by cases hv⟩
  | .cons d s r, L, h, j, k => by
    obtain ⟨r1, r2⟩ := Brs.has_pred C r L h j (k + s.cn)
    simp only [Brs.cfg, List.mem_append]
    refine ⟨fun v hv => ?_, fun hv => ?_⟩
    · rcases hv with hv | hv
      · rcases Seq.has_pred_begin C s L k v hv with hv | ⟨u, hv⟩
        · exact ⟨h, .inl (.inl (.inl (by rw [hv]; exact mem_edgeIf)))⟩
        · exact ⟨u, .inl (.inl (.inr hv))⟩
      · obtain ⟨u, hv⟩ := r1 v hv
        exact ⟨u, .inr hv⟩
    · split at hv
      · rename_i hs
        obtain ⟨z, hz⟩ := Option.isSome_iff_exists.mp hs
        exact ⟨z, .inl (.inr (by rw [hz]; exact mem_edgeIf))⟩
      · obtain ⟨u, hv⟩ := r2 hv
        exact ⟨u, .inr hv⟩
end

/-- a vertex without predecessors is the start of the program -/
theorem entry_is_start (C : Brs → Bool) (s : Seq) {v : V} (h : v ∈ (s.flow C).entries) : (s.flow C).start = some v := by
  simp only [Cf.entries, List.mem_filter, List.all_eq_true, bne_iff_ne] at h
  rcases Seq.has_pred_begin C s (.nop 0) 1 v h.1 with h1 | ⟨u, h1⟩
  · exact h1
  · exact absurd rfl (h.2 _ h1)

mutual
/-- the program begins with a loop -/
def Node.headLoop : Node → Bool
  | .seq s => s.headLoop
  | .whileL _ => true
  | .loop _ _ _ _ _ _ => true
  | _ => false
/-- of a sequence -/
def Seq.headLoop : Seq → Bool
  | .nil => false
  | .cons n _ _ => n.headLoop
end

mutual
theorem Node.start_mem (C : Brs → Bool) : (n : Node) → ∀ (L : V) (k : Nat) (v : V), (n.cfg C L k).start = some v → v ∈ (n.cfg C L k).verts
  | .block _, L, k, v, h => by cases h; simp [Node.cfg]
  | .ret _ _, L, k, v, h => by cases h; simp [Node.cfg]
  | .brk, L, k, v, h => by cases h; simp [Node.cfg]
  | .cont, L, k, v, h => by cases h; simp [Node.cfg]
  | .whileL _, L, k, v, h => by cases h; simp [Node.cfg]
  | .loop _ _ _ _ _ _, L, k, v, h => by cases h; simp [Node.cfg]
  | .ifElse b, L, k, v, h => by cases h; simp [Node.cfg]
  | .seq s, L, k, v, h => (Seq.start_mem C s L none none (k + 1) v h).elim (fun e => by cases e) id
theorem Seq.start_mem (C : Brs → Bool) : (s : Seq) → ∀ (L : V) (st cur : Option V) (k : Nat) (v : V), (s.cfg C L st cur k).start = some v →
    st = some v ∨ v ∈ (s.cfg C L st cur k).verts
  | .nil, L, st, cur, k, v, h => .inl h
  | .cons n t r, L, st, cur, k, v, h => by
    have hst : st.or (n.cfg C L k).start = some v → st = some v ∨ v ∈ (n.cfg C L k).verts := by
      intro h
      cases st with
      | some w => exact .inl h
      | none => exact .inr (Node.start_mem C n L k v (by simpa using h))
    simp only [Seq.cfg] at h ⊢
    split at h
    · rename_i hx
      exact hst h
    · rename_i e hx
      simp only [List.mem_append]
      rcases Seq.start_mem C r L _ (some e) (k + n.cn) v h with h | h
      · exact (hst h).imp id .inl
      · exact .inr (.inr h)
end

mutual
theorem Node.no_pred (C : Brs → Bool) : (n : Node) → n.headLoop = false → ∀ (L : V) (k : Nat) (f : V), (n.cfg C L k).start = some f → f ≠ L → ∀ a, (a, f) ∉ (n.cfg C L k).edges
  | .block _, _, L, k, f, _, _, a => by simp [Node.cfg]
  | .ret _ _, _, L, k, f, _, _, a => by simp [Node.cfg]
  | .brk, _, L, k, f, _, hL, a => by simp [Node.cfg, hL]
  | .cont, _, L, k, f, _, hL, a => by simp [Node.cfg, hL]
  | .whileL _, h, _, _, _, _, _, _ => by cases h
  | .loop _ _ _ _ _ _, h, _, _, _, _, _, _ => by cases h
  | .ifElse b, _, L, k, f, hf, hL, a => by
    cases hf
    intro h
    simp only [Node.cfg, List.mem_append] at h
    rcases h with h | h
    · rcases (Brs.bounded C b L (cv k) (.nop k) (k + 1)).2.2.2 a (cv k) h with e | e | e
      · exact hL e
      · cases e
      · exact absurd e.1 (Nat.not_succ_le_self k)
    · split at h
      · simp at h
      · simp only [List.mem_singleton, Prod.mk.injEq] at h
        cases h.2
  | .seq s, h, L, k, f, hf, hL, a => Seq.no_pred C s h L (k + 1) f hf hL a
theorem Seq.no_pred (C : Brs → Bool) : (s : Seq) → s.headLoop = false → ∀ (L : V) (k : Nat) (f : V), (s.cfg C L none none k).start = some f → f ≠ L →
    ∀ a, (a, f) ∉ (s.cfg C L none none k).edges
  | .nil, _, L, k, f, _, _, a => by simp [Seq.cfg]
  | .cons n t r, h, L, k, f, hf, hL, a => by
    have hb := Node.bounded C n L k
    simp only [Seq.cfg] at hf ⊢
    split at hf
    · rename_i hx
      rw [Option.none_or] at hf
      intro hm
      simp only [List.mem_append, mem_edgeIf_iff] at hm
      rcases hm with hm | ⟨hm, _⟩
      · exact Node.no_pred C n h L k f hf hL a hm
      · cases hm
    · rename_i e hx
      rw [Option.none_or] at hf
      intro hm
      cases hs : (n.cfg C L k).start with
      | none =>
        -- a node that continues has a start
        rw [hs] at hf
        exact absurd hx (by
          have := Node.start_none C n L k hs
          rw [this]; intro e; cases e)
      | some g =>
        rw [hs, cfg_start_keep] at hf
        cases hf
        simp only [List.mem_append, mem_edgeIf_iff, Option.none_or, hs] at hm
        rcases hm with (hm | ⟨hm, _⟩) | hm
        · exact Node.no_pred C n h L k f hs hL a hm
        · cases hm
        · have h1 : f.In k (k + n.cn) := (hb.start f hs).elim (fun e => by cases e) id
          rcases (Seq.bounded C r L (some f) (some e) (k + n.cn)).dst a f hm with h2 | h2
          · exact hL h2
          · exact absurd h1.2 (Nat.not_lt.mpr h2.1)
/-- a node without start does not continue -/
theorem Node.start_none (C : Brs → Bool) : (n : Node) → ∀ (L : V) (k : Nat), (n.cfg C L k).start = none → (n.cfg C L k).fin = none
  | .block _, L, k, h => by cases h
  | .ret _ _, L, k, h => by cases h
  | .brk, L, k, h => by cases h
  | .cont, L, k, h => by cases h
  | .whileL _, L, k, h => by cases h
  | .loop _ _ _ _ _ _, L, k, h => by cases h
  | .ifElse b, L, k, h => by cases h
  | .seq s, L, k, h => Seq.start_none C s L (k + 1) h
theorem Seq.start_none (C : Brs → Bool) : (s : Seq) → ∀ (L : V) (k : Nat), (s.cfg C L none none k).start = none → (s.cfg C L none none k).fin = none
  | .nil, L, k, _ => rfl
  | .cons n t r, L, k, h => by
    simp only [Seq.cfg] at h ⊢
    split at h
    · rfl
    · rename_i e hx
      cases hs : (n.cfg C L k).start with
      | none => rw [Node.start_none C n L k hs] at hx; cases hx
      | some g =>
        rw [hs, Option.none_or, cfg_start_keep] at h
        cases h
end

/-- **C100**, the entry: in a program that does not begin with a loop the only vertex without predecessors is the start of the program. -/
theorem entry_found (C : Brs → Bool) {s : Seq} (h : s.headLoop = false) (v : V) : v ∈ (s.flow C).entries ↔ (s.flow C).start = some v := by
  refine ⟨entry_is_start C s, fun hv => ?_⟩
  simp only [Cf.entries, List.mem_filter, List.all_eq_true, bne_iff_ne]
  have hin : v.In 1 (1 + s.cn) := ((Seq.bounded C s (.nop 0) none none 1).start v hv).elim (fun e => by cases e) id
  refine ⟨(Seq.start_mem C s _ none none 1 v hv).elim (fun e => by cases e) id, fun e he heq => ?_⟩
  obtain ⟨a, b⟩ := e
  have heq : b = v := heq
  subst heq
  exact Seq.no_pred C s h (.nop 0) 1 b hv (fun e => by subst e; exact absurd hin.1 (by decide)) a he

/-! ### exits -/

theorem emit_ret {us : List V} {f : St → St} {σ : St} {l : List V} {d : String} {q : Bool} {σ' : St} (h : TR.emit us f σ l (some (.ret d q, σ'))) : False := by
  rcases h with ⟨_, h⟩ | ⟨_, h⟩ <;> cases h

/-- the last node visited is a vertex that is left by no edge -/
def LastOut (F : Cf) (l : List V) : Prop := ∃ l' j, l = l' ++ [cv j] ∧ cv j ∈ F.verts ∧ F.fin ≠ some (cv j) ∧ ∀ y, (cv j, y) ∉ F.edges

theorem loop_out {x : Cf} {k c : Nat} (hx : x.Bounded none none (cv k) (k + 1) (k + 1 + c)) {l l0 : List V} (h : LastOut x l) :
    LastOut ⟨some (cv k), some (cv k), cv k :: x.verts, edgeIf (some (cv k)) x.start ++ x.edges ++ edgeIf x.fin (some (cv k))⟩ (l0 ++ l) := by
  obtain ⟨l', j, rfl, h1, h2, h3⟩ := h
  have hj := (hx.verts _ h1).1
  have hne : ∀ {p : Prop}, cv k = cv j → p := fun e => by
    have : k = j := by cases e; rfl
    subst this
    exact absurd hj (Nat.not_succ_le_self k)
  refine ⟨l0 ++ l', j, by rw [List.append_assoc], List.mem_cons_of_mem _ h1, fun e => hne (by cases e; rfl), fun y hy => ?_⟩
  simp only [List.mem_append, mem_edgeIf_iff] at hy
  rcases hy with (⟨hy, _⟩ | hy) | ⟨hy, _⟩
  · exact hne (by cases hy; rfl)
  · exact h3 y hy
  · exact h2 hy

mutual
theorem Node.ret_out {E : Env} {C : Brs → Bool} (hC : CompleteSound E C) : (n : Node) → n.filled C = true → ∀ (L : V) (k : Nat) (σ : St) (l : List V) (d : String) (q : Bool) (σ' : St),
    n.cvis E k σ l (some (.ret d q, σ')) → LastOut (n.cfg C L k) l
  | .block _, _, L, k, σ, l, d, q, σ', h => (emit_ret h).elim
  | .brk, _, L, k, σ, l, d, q, σ', h => by rcases h with ⟨_, h⟩ | ⟨_, h⟩ <;> cases h
  | .cont, _, L, k, σ, l, d, q, σ', h => by rcases h with ⟨_, h⟩ | ⟨_, h⟩ <;> cases h
  | .ret _ _, _, L, k, σ, l, d, q, σ', h => by
    rcases h with ⟨rfl, h⟩ | ⟨_, h⟩
    · exact ⟨[], k, rfl, by simp [Node.cfg], (fun e => by cases e), fun y hy => by simp [Node.cfg] at hy⟩
    · cases h
  | .seq s, hf, L, k, σ, l, d, q, σ', h => by
    simp only [Node.filled, Bool.and_eq_true] at hf
    exact Seq.ret_out hC s hf.2 L none none (k + 1) (fun z e => by cases e) σ l d q σ' h
  | .whileL s, hf, L, k, σ, l, d, q, σ', h => by
    have hb := Seq.bounded C s (cv k) none none (k + 1)
    simp only [Node.filled] at hf
    have ih := Seq.ret_out hC s hf (cv k) none none (k + 1) (fun z e => by cases e)
    simp only [Node.cvis] at h
    generalize ho : some (Ctl.ret d q, σ') = o at h
    induction h with
    | cut _ => cases ho
    | step _ _ _ _ ih' =>
      obtain ⟨l', j, h1, h2⟩ := ih' ho
      exact ⟨_ ++ l', j, by rw [h1, List.append_assoc], h2⟩
    | stop _ => cases ho
    | ret d' q' h1 =>
      rcases h1 with ⟨l1, l2, σ1, _, h2, rfl⟩ | ⟨h1, _⟩
      · exact loop_out hb (ih _ _ _ _ _ h2)
      · exact (emit_ret h1).elim
  | .loop m i a c u s, hf, L, k, σ, l, d, q, σ', h => by
    have hb := Seq.bounded C s (cv k) none none (k + 1)
    simp only [Node.filled] at hf
    have ih := Seq.ret_out hC s hf (cv k) none none (k + 1) (fun z e => by cases e)
    simp only [Node.cvis] at h
    rcases h with ⟨l1, l2, σ1, h0, h, rfl⟩ | ⟨h, _⟩
    · have h0' : l1 = [] := by
        rcases h0 with ⟨h0, _⟩ | ⟨_, h0⟩
        · exact h0
        · cases h0
      subst h0'
      clear h0
      rw [List.nil_append]
      generalize ho : some (Ctl.ret d q, σ') = o at h
      induction h with
      | cut _ => cases ho
      | done _ => cases ho
      | cutBody _ _ => cases ho
      | cutUpd _ _ _ _ _ => cases ho
      | @step σ l σ1 l' o k' _ _ _ _ ih' =>
        obtain ⟨l0, j, h1, h2⟩ := ih' ho
        exact ⟨[cv k] ++ (l ++ l0), j, by rw [h1]; simp, h2⟩
      | stop _ _ => cases ho
      | ret d' q' _ h1 => exact loop_out hb (ih _ _ _ _ _ h1)
    · exact (emit_ret h).elim
  | .ifElse b, hf, L, k, σ, l, d, q, σ', h => by
    simp only [Node.filled] at hf
    rcases h with ⟨l1, l2, σ1, _, h, rfl⟩ | ⟨h, _⟩
    · obtain ⟨l', j, rfl, h1, h2⟩ := Brs.ret_out hC b (C b) hf L (cv k) (.nop k) (k + 1) (Nat.lt_succ_self k) _ _ _ _ _ h
      have hj := ((Brs.bounded C b L (cv k) (.nop k) (k + 1)).1 _ h1).1
      refine ⟨l1 ++ l', j, by rw [List.append_assoc], ?_, fun e => ?_, fun y hy => ?_⟩
      · simp only [Node.cfg, List.mem_append, List.mem_cons]; exact .inl (.inr h1)
      · simp only [Node.cfg] at e
        split at e <;> cases e
      · simp only [Node.cfg, List.mem_append] at hy
        rcases hy with hy | hy
        · exact h2 y hy
        · split at hy
          · simp at hy
          · simp only [List.mem_singleton, Prod.mk.injEq] at hy
            have : j = k := by cases hy.1; rfl
            subst this
            exact absurd hj (Nat.not_succ_le_self j)
    · exact (emit_ret h).elim
theorem Seq.ret_out {E : Env} {C : Brs → Bool} (hC : CompleteSound E C) : (s : Seq) → s.filled C = true → ∀ (L : V) (st cur : Option V) (k : Nat), (∀ z, cur = some z → z.num < k) →
    ∀ (σ : St) (l : List V) (d : String) (q : Bool) (σ' : St), s.cvis E k σ l (some (.ret d q, σ')) → LastOut (s.cfg C L st cur k) l
  | .nil, _, L, st, cur, k, _, σ, l, d, q, σ', h => (emit_ret h).elim
  | .cons n t r, hf, L, st, cur, k, hcur, σ, l, d, q, σ', h => by
    simp only [Seq.filled, Bool.and_eq_true] at hf
    have hb := Node.bounded C n L k
    have no : ∀ {v : V} {p : Prop}, (none : Option V) = some v ∨ p → p := fun h => h.elim (fun e => by cases e) id
    rcases h with ⟨l1, l2, σ1, hn, h, rfl⟩ | ⟨h, _⟩
    · -- the node ends normally
      obtain ⟨f, _, hfo⟩ := Node.follows (P := fun _ => True) hC (fun _ => trivial) n hf.1 L k
      obtain ⟨e, he, _⟩ := (hfo _ _ _ hn).2.1 _ rfl fun _ _ => trivial
      rcases h with ⟨l3, l4, σ2, _, h, rfl⟩ | ⟨h, _⟩
      · have hen : e.num < k + n.cn := (no (hb.fin e he)).2
        obtain ⟨l', j, rfl, h1, h2, h3⟩ := Seq.ret_out hC r hf.2 L (st.or (n.cfg C L k).start) (some e) (k + n.cn) (fun z hz => by cases hz; exact hen) _ _ _ _ _ h
        have hj := ((Seq.bounded C r L (st.or (n.cfg C L k).start) (some e) (k + n.cn)).verts _ h1).1
        refine ⟨l1 ++ (l3 ++ l'), j, by simp, ?_, ?_, fun y hy => ?_⟩
        · simp only [Seq.cfg, he, List.mem_append]; exact .inr h1
        · simp only [Seq.cfg, he]; exact h2
        · simp only [Seq.cfg, he, List.mem_append, mem_edgeIf_iff] at hy
          rcases hy with (hy | ⟨hy, _⟩) | hy
          · exact absurd (no (hb.src _ _ hy)).2 (Nat.not_lt.mpr hj)
          · have := hcur _ hy
            exact absurd this (Nat.not_lt.mpr (Nat.le_trans (Nat.le_add_right k n.cn) hj))
          · exact h3 y hy
      · exact (emit_ret h).elim
    · obtain ⟨l', j, rfl, h1, h2, h3⟩ := Node.ret_out hC n hf.1 L k σ l d q σ' h
      have hj := hb.verts _ h1
      cases he : (n.cfg C L k).fin with
      | none =>
        refine ⟨l', j, rfl, ?_, ?_, fun y hy => ?_⟩
        · simp only [Seq.cfg, he]; exact h1
        · simp only [Seq.cfg, he]; intro e; cases e
        · simp only [Seq.cfg, he, List.mem_append, mem_edgeIf_iff] at hy
          rcases hy with hy | ⟨hy, _⟩
          · exact h3 y hy
          · exact absurd (hcur _ hy) (Nat.not_lt.mpr hj.1)
      | some e =>
        have hr := Seq.bounded C r L (st.or (n.cfg C L k).start) (some e) (k + n.cn)
        have hej : some e ≠ some (cv j) := by rw [← he]; exact h2
        refine ⟨l', j, rfl, ?_, ?_, fun y hy => ?_⟩
        · simp only [Seq.cfg, he, List.mem_append]; exact .inl h1
        · simp only [Seq.cfg, he]
          intro hx
          rcases hr.fin _ hx with h | h
          · exact hej h
          · exact absurd hj.2 (Nat.not_lt.mpr h.1)
        · simp only [Seq.cfg, he, List.mem_append, mem_edgeIf_iff] at hy
          rcases hy with (hy | ⟨hy, _⟩) | hy
          · exact h3 y hy
          · exact absurd (hcur _ hy) (Nat.not_lt.mpr hj.1)
          · rcases hr.src _ _ hy with h | h
            · exact hej h
            · exact absurd hj.2 (Nat.not_lt.mpr h.1)
theorem Brs.ret_out {E : Env} {C : Brs → Bool} (hC : CompleteSound E C) : (b : Brs) → ∀ (c : Bool), b.filled C c = true → ∀ (L h j : V) (k : Nat), h.num < k →
    ∀ (σ : St) (l : List V) (d : String) (q : Bool) (σ' : St), b.cvis E k σ l (some (.ret d q, σ')) →
    ∃ l' i, l = l' ++ [cv i] ∧ cv i ∈ (b.cfg C L h j k).verts ∧ ∀ y, (cv i, y) ∉ (b.cfg C L h j k).edges
  | .nil, _, _, L, h, j, k, _, σ, l, d, q, σ', hr => (emit_ret hr).elim
  | .cons g s r, c, hf, L, h, j, k, hh, σ, l, d, q, σ', hr => by
    simp only [Brs.filled, Bool.and_eq_true] at hf
    have hb := Seq.bounded C s L none none k
    have no : ∀ {v : V} {p : Prop}, (none : Option V) = some v ∨ p → p := fun h => h.elim (fun e => by cases e) id
    obtain ⟨rb1, _, rb3, _⟩ := Brs.bounded C r L h j (k + s.cn)
    simp only [Brs.cvis, TR.ite] at hr
    by_cases hg : σ.cond E g = true
    · rw [if_pos hg] at hr
      obtain ⟨l', i, rfl, h1, h2, h3⟩ := Seq.ret_out hC s hf.1.2 L none none k (fun z e => by cases e) σ l d q σ' hr
      have hi := hb.verts _ h1
      refine ⟨l', i, rfl, by simp only [Brs.cfg, List.mem_append]; exact .inl h1, fun y hy => ?_⟩
      simp only [Brs.cfg, List.mem_append, mem_edgeIf_iff] at hy
      rcases hy with ((⟨hy, _⟩ | hy) | ⟨hy, _⟩) | hy
      · cases hy; exact absurd hh (Nat.not_lt.mpr hi.1)
      · exact h3 y hy
      · exact h2 hy
      · rcases rb3 _ _ hy with e | e
        · rw [← e] at hh; exact absurd hh (Nat.not_lt.mpr hi.1)
        · exact absurd hi.2 (Nat.not_lt.mpr e.1)
    · rw [if_neg hg] at hr
      obtain ⟨l', i, rfl, h1, h3⟩ := Brs.ret_out hC r c hf.2 L h j (k + s.cn) (Nat.lt_of_lt_of_le hh (Nat.le_add_right _ _)) σ l d q σ' hr
      have hi := rb1 _ h1
      refine ⟨l', i, rfl, by simp only [Brs.cfg, List.mem_append]; exact .inr h1, fun y hy => ?_⟩
      simp only [Brs.cfg, List.mem_append, mem_edgeIf_iff] at hy
      rcases hy with ((⟨hy, _⟩ | hy) | ⟨hy, _⟩) | hy
      · cases hy; exact absurd (Nat.lt_of_lt_of_le hh (Nat.le_add_right _ _)) (Nat.not_lt.mpr hi.1)
      · exact absurd (no (hb.src _ _ hy)).2 (Nat.not_lt.mpr hi.1)
      · exact absurd (no (hb.fin _ hy)).2 (Nat.not_lt.mpr hi.1)
      · exact h3 y hy
end

/-- **C100** (partial), exits: an execution that returns visits last a node that `exits()` lists.  For programs without empty nested sequences and empty cases of
complete if-elses.  Executions that end behind a loop end at no exit (`loop_exit_violated`). -/
theorem return_is_exit_partial {E : Env} {C : Brs → Bool} (hC : CompleteSound E C) {s : Seq} (hs : s.filled C = true) {σ : St} {l : List V} {d : String} {q : Bool} {σ' : St}
    (h : s.Visits E σ l (some (.ret d q, σ'))) : ∃ l' j, l = l' ++ [cv j] ∧ some j ∈ (s.flow C).exits := by
  obtain ⟨l', j, rfl, h1, _, h3⟩ := Seq.ret_out hC s hs (.nop 0) none none 1 (fun z e => by cases e) σ l d q σ' h
  refine ⟨l', j, rfl, ?_⟩
  simp only [Cf.exits, List.mem_map, List.mem_filter, List.all_eq_true, bne_iff_ne]
  exact ⟨cv j, ⟨h1, fun e he heq => h3 e.2 (by rw [← heq]; exact he)⟩, rfl⟩

end Docc.IR
