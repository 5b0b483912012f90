import Verif.IR.Escape
import Verif.IR.AllocMain

/-! Lemmas about the uses by blocks (for C96). -/
namespace Docc.IR
open Docc.Sym

/-! ### the uses of blocks are vertices of the graph -/

mutual
theorem Node.blockUses_useV {L : Option LoopAt} : (n : Node) → ∀ k, ∀ p ∈ n.blockUses L k, p.1 ∈ n.useV k
  | .block l, k, p, h => by
    rw [Node.blockUses] at h; rw [Node.useV]
    obtain ⟨v, hv, rfl⟩ := List.mem_map.mp h
    exact hv
  | .seq s, k, p, h => by rw [Node.blockUses] at h; rw [Node.useV]; exact s.blockUses_useV _ p h
  | .ifElse b, k, p, h => by rw [Node.blockUses] at h; rw [Node.useV]; exact List.mem_append_right _ (b.blockUses_useV _ p h)
  | .whileL s, k, p, h => by rw [Node.blockUses] at h; rw [Node.useV]; exact s.blockUses_useV _ p h
  | .loop q i a c u s, k, p, h => by
    rw [Node.blockUses] at h; rw [Node.useV]
    exact List.mem_append_left _ (List.mem_append_right _ (s.blockUses_useV _ p h))
  | .brk, _, p, h => by simp [Node.blockUses] at h
  | .cont, _, p, h => by simp [Node.blockUses] at h
  | .ret _ _, _, p, h => by simp [Node.blockUses] at h
theorem Seq.blockUses_useV {L : Option LoopAt} : (s : Seq) → ∀ k, ∀ p ∈ s.blockUses L k, p.1 ∈ s.useV k
  | .nil, _, p, h => by simp [Seq.blockUses] at h
  | .cons n t r, k, p, h => by
    rw [Seq.blockUses] at h; rw [Seq.useV]
    split at h
    · simp at h
    · rw [if_neg (by assumption)]
      rcases List.mem_append.mp h with h | h
      · exact List.mem_append_left _ (List.mem_append_left _ (n.blockUses_useV _ p h))
      · exact List.mem_append_right _ (r.blockUses_useV _ p h)
theorem Brs.blockUses_useV {L : Option LoopAt} : (b : Brs) → ∀ k, ∀ p ∈ b.blockUses L k, p.1 ∈ b.useV k
  | .nil, _, p, h => by simp [Brs.blockUses] at h
  | .cons c s r, k, p, h => by
    rw [Brs.blockUses] at h; rw [Brs.useV]
    rcases List.mem_append.mp h with h | h
    · exact List.mem_append_left _ (s.blockUses_useV _ p h)
    · exact List.mem_append_right _ (r.blockUses_useV _ p h)
end

/-! ### inside a loop, every block is inside a loop -/

mutual
theorem Node.blockUses_inside {m : LoopAt} : (n : Node) → ∀ k v, (v, none) ∉ n.blockUses (some m) k
  | .block l, k, v, h => by rw [Node.blockUses] at h; obtain ⟨w, _, hw⟩ := List.mem_map.mp h; simp at hw
  | .seq s, k, v, h => by rw [Node.blockUses] at h; exact s.blockUses_inside _ v h
  | .ifElse b, k, v, h => by rw [Node.blockUses] at h; exact b.blockUses_inside _ v h
  | .whileL s, k, v, h => by rw [Node.blockUses] at h; exact s.blockUses_inside _ v h
  | .loop q i a c u s, k, v, h => by rw [Node.blockUses] at h; exact s.blockUses_inside _ v h
  | .brk, _, v, h => by simp [Node.blockUses] at h
  | .cont, _, v, h => by simp [Node.blockUses] at h
  | .ret _ _, _, v, h => by simp [Node.blockUses] at h
theorem Seq.blockUses_inside {m : LoopAt} : (s : Seq) → ∀ k v, (v, none) ∉ s.blockUses (some m) k
  | .nil, _, v, h => by simp [Seq.blockUses] at h
  | .cons n t r, k, v, h => by
    rw [Seq.blockUses] at h
    split at h
    · simp at h
    · rcases List.mem_append.mp h with h | h
      · exact n.blockUses_inside _ v h
      · exact r.blockUses_inside _ v h
theorem Brs.blockUses_inside {m : LoopAt} : (b : Brs) → ∀ k v, (v, none) ∉ b.blockUses (some m) k
  | .nil, _, v, h => by simp [Brs.blockUses] at h
  | .cons c s r, k, v, h => by
    rw [Brs.blockUses] at h
    rcases List.mem_append.mp h with h | h
    · exact s.blockUses_inside _ v h
    · exact r.blockUses_inside _ v h
end

/-! ### conditions of loops are no blocks -/

mutual
theorem Node.stale_id : (n : Node) → ∀ k, ∀ v ∈ n.stale k, k ≤ v.id ∧ v.id < k + n.vn
  | .block l, k, v, h => by simp [Node.stale] at h
  | .seq s, k, v, h => by rw [Node.stale] at h; rw [Node.vn]; have := s.stale_id _ v h; omega
  | .ifElse b, k, v, h => by rw [Node.stale] at h; rw [Node.vn]; have := b.stale_id _ v h; omega
  | .whileL s, k, v, h => by rw [Node.stale] at h; rw [Node.vn]; have := s.stale_id _ v h; omega
  | .loop q i a c u s, k, v, h => by
    rw [Node.stale] at h; rw [Node.vn]
    rcases List.mem_append.mp h with h | h
    · have := evs_id (List.dropLast_subset _ h); omega
    · have := s.stale_id _ v h; omega
  | .brk, _, v, h => by simp [Node.stale] at h
  | .cont, _, v, h => by simp [Node.stale] at h
  | .ret _ _, _, v, h => by simp [Node.stale] at h
theorem Seq.stale_id : (s : Seq) → ∀ k, ∀ v ∈ s.stale k, k ≤ v.id ∧ v.id < k + s.kn
  | .nil, _, v, h => by simp [Seq.stale] at h
  | .cons n t r, k, v, h => by
    rw [Seq.stale] at h; rw [Seq.kn]
    rcases List.mem_append.mp h with h | h
    · have := n.stale_id _ v h; omega
    · have := r.stale_id _ v h; omega
theorem Brs.stale_id : (b : Brs) → ∀ k, ∀ v ∈ b.stale k, k ≤ v.id ∧ v.id < k + b.vn
  | .nil, _, v, h => by simp [Brs.stale] at h
  | .cons c s r, k, v, h => by
    rw [Brs.stale] at h; rw [Brs.vn]
    rcases List.mem_append.mp h with h | h
    · have := s.stale_id _ v h; omega
    · have := r.stale_id _ v h; omega
end

mutual
theorem Node.blockUses_stale {L : Option LoopAt} : (n : Node) → ∀ k, ∀ p ∈ n.blockUses L k, p.1 ∉ n.stale k
  | .block l, k, p, _, h => by simp [Node.stale] at h
  | .seq s, k, p, hp, h => by rw [Node.blockUses] at hp; rw [Node.stale] at h; exact s.blockUses_stale _ p hp h
  | .ifElse b, k, p, hp, h => by rw [Node.blockUses] at hp; rw [Node.stale] at h; exact b.blockUses_stale _ p hp h
  | .whileL s, k, p, hp, h => by rw [Node.blockUses] at hp; rw [Node.stale] at h; exact s.blockUses_stale _ p hp h
  | .loop q i a c u s, k, p, hp, h => by
    rw [Node.blockUses] at hp; rw [Node.stale] at h
    rcases List.mem_append.mp h with h | h
    · have h1 := evs_id (List.dropLast_subset _ h)
      have h2 := s.useV_id _ _ (s.blockUses_useV _ p hp)
      omega
    · exact s.blockUses_stale _ p hp h
  | .brk, _, p, _, h => by simp [Node.stale] at h
  | .cont, _, p, _, h => by simp [Node.stale] at h
  | .ret _ _, _, p, _, h => by simp [Node.stale] at h
theorem Seq.blockUses_stale {L : Option LoopAt} : (s : Seq) → ∀ k, ∀ p ∈ s.blockUses L k, p.1 ∉ s.stale k
  | .nil, _, p, _, h => by simp [Seq.stale] at h
  | .cons n t r, k, p, hp, h => by
    rw [Seq.blockUses] at hp; rw [Seq.stale] at h
    split at hp
    · simp at hp
    · rcases List.mem_append.mp hp with hp | hp <;> rcases List.mem_append.mp h with h | h
      · exact n.blockUses_stale _ p hp h
      · have h1 := n.useV_id _ _ (n.blockUses_useV _ p hp); have h2 := r.stale_id _ _ h; omega
      · have h1 := r.useV_id _ _ (r.blockUses_useV _ p hp); have h2 := n.stale_id _ _ h; omega
      · exact r.blockUses_stale _ p hp h
theorem Brs.blockUses_stale {L : Option LoopAt} : (b : Brs) → ∀ k, ∀ p ∈ b.blockUses L k, p.1 ∉ b.stale k
  | .nil, _, p, _, h => by simp [Brs.stale] at h
  | .cons c s r, k, p, hp, h => by
    rw [Brs.blockUses] at hp; rw [Brs.stale] at h
    rcases List.mem_append.mp hp with hp | hp <;> rcases List.mem_append.mp h with h | h
    · exact s.blockUses_stale _ p hp h
    · have h1 := s.useV_id _ _ (s.blockUses_useV _ p hp); have h2 := r.stale_id _ _ h; omega
    · have h1 := r.useV_id _ _ (r.blockUses_useV _ p hp); have h2 := s.stale_id _ _ h; omega
    · exact r.blockUses_stale _ p hp h
end

/-! ### outside loops, a use is performed at most once -/

/-- `v` is performed at most once -/
def TR.Once (v : V) (R : TR) : Prop := ∀ σ l o, R σ l o → l.count v ≤ 1
/-- `v` is not performed -/
def TR.Never (v : V) (R : TR) : Prop := ∀ σ l o, R σ l o → v ∉ l

theorem TR.Never.once {v : V} {R : TR} (h : R.Never v) : R.Once v := by
  intro σ l o hr; rw [List.count_eq_zero_of_not_mem (h σ l o hr)]; omega

theorem never_seq {v : V} {R S : TR} (h : R.Never v) (h' : S.Never v) : (TR.seq R S).Never v := by
  rintro σ l o (⟨l1, l2, σ1, h1, h2, rfl⟩ | ⟨h1, _⟩)
  · simp [h _ _ _ h1, h' _ _ _ h2]
  · exact h _ _ _ h1

theorem once_seq_left {v : V} {R S : TR} (h : R.Once v) (h' : S.Never v) : (TR.seq R S).Once v := by
  rintro σ l o (⟨l1, l2, σ1, h1, h2, rfl⟩ | ⟨h1, _⟩)
  · rw [List.count_append, List.count_eq_zero_of_not_mem (h' _ _ _ h2)]; exact h _ _ _ h1
  · exact h _ _ _ h1

theorem once_seq_right {v : V} {R S : TR} (h : R.Never v) (h' : S.Once v) : (TR.seq R S).Once v := by
  rintro σ l o (⟨l1, l2, σ1, h1, h2, rfl⟩ | ⟨h1, _⟩)
  · rw [List.count_append, List.count_eq_zero_of_not_mem (h _ _ _ h1)]; have := h' _ _ _ h2; omega
  · exact h.once _ _ _ h1

theorem never_emit {v : V} {us : List V} {f : St → St} (h : v ∉ us) : (TR.emit us f).Never v :=
  fun σ l o hr hv => h ((only_emit (S := fun w => w ∈ us) (fun w hw => hw)) σ l o hr v hv)

theorem count_evs (v : V) : ∀ (us : List User) (k : Nat), (evs k us).count v ≤ 1
  | [], _ => by simp [evs]
  | u :: r, k => by
    have h : evs k (u :: r) = .ev k u :: evs (k + 1) r := by simp [evs, List.zipIdx_cons]
    rw [h, List.count_cons]
    have := count_evs v r (k + 1)
    split
    · rename_i hv
      have hv := eq_of_beq hv
      have : v ∉ evs (k + 1) r := fun hm => by have := evs_id hm; rw [← hv] at this; simp only [V.id] at this; omega
      rw [List.count_eq_zero_of_not_mem this]; omega
    · omega

theorem once_emit {v : V} {us : List V} {f : St → St} (h : us.count v ≤ 1) : (TR.emit us f).Once v := by
  rintro σ l o (⟨rfl, _⟩ | ⟨hl, _⟩)
  · exact h
  · exact Nat.le_trans (hl.sublist.count_le v) h

theorem Seq.never (E : Env) {v : V} (s : Seq) (k : Nat) (h : v.id < k ∨ k + s.kn ≤ v.id) : (s.tr E k).Never v := by
  intro σ l o hr hv; have := s.uses_id E k hr hv; omega

theorem Node.never (E : Env) {v : V} (n : Node) (hn : n.isRet = false) (k : Nat) (h : v.id < k ∨ k + n.vn ≤ v.id) : (n.tr E k).Never v := by
  intro σ l o hr hv
  rcases Node.only E n hn k σ l o hr v hv with h1 | h1
  · have := n.useV_id k v h1; omega
  · have := n.retV_id k v h1; omega

theorem Brs.never (E : Env) {v : V} (b : Brs) (k : Nat) (h : v.id < k ∨ k + b.vn ≤ v.id) : (b.tr E k).Never v := by
  intro σ l o hr hv
  rcases Brs.only E b k σ l o hr v hv with h1 | h1
  · have := b.useV_id k v h1; omega
  · have := b.retV_id k v h1; omega

mutual
theorem Node.once (E : Env) {v : V} : (n : Node) → ∀ k, (v, none) ∈ n.blockUses none k → (n.tr E k).Once v
  | .block l, k, _ => by rw [Node.tr]; exact once_emit (count_evs v _ _)
  | .seq s, k, h => by rw [Node.blockUses] at h; rw [Node.tr]; exact s.once E _ h
  | .ifElse b, k, h => by
    rw [Node.blockUses] at h; rw [Node.tr]
    have h1 := b.useV_id _ _ (b.blockUses_useV _ _ h)
    refine once_seq_right (never_emit fun hv => ?_) (b.once E _ h)
    have := evs_id hv; dsimp only at h1; omega
  | .whileL s, k, h => by rw [Node.blockUses] at h; exact absurd h (s.blockUses_inside _ v)
  | .loop q i a c u s, k, h => by rw [Node.blockUses] at h; exact absurd h (s.blockUses_inside _ v)
  | .brk, _, h => by simp [Node.blockUses] at h
  | .cont, _, h => by simp [Node.blockUses] at h
  | .ret _ _, _, h => by simp [Node.blockUses] at h
theorem Seq.once (E : Env) {v : V} : (s : Seq) → ∀ k, (v, none) ∈ s.blockUses none k → (s.tr E k).Once v
  | .nil, _, h => by simp [Seq.blockUses] at h
  | .cons n t r, k, h => by
    rw [Seq.blockUses] at h; rw [Seq.tr]
    split at h
    · simp at h
    · rename_i hn
      have hn : n.isRet = false := by simpa using hn
      rcases List.mem_append.mp h with h | h
      · have h1 := n.useV_id _ _ (n.blockUses_useV _ _ h)
        dsimp only at h1
        exact once_seq_left (n.once E _ h) (never_seq (never_emit fun hv => by have := evs_id hv; omega) (r.never E _ (by omega)))
      · have h1 := r.useV_id _ _ (r.blockUses_useV _ _ h)
        dsimp only at h1
        exact once_seq_right (n.never E hn _ (by omega)) (once_seq_right (never_emit fun hv => by have := evs_id hv; omega) (r.once E _ h))
theorem Brs.once (E : Env) {v : V} : (b : Brs) → ∀ k, (v, none) ∈ b.blockUses none k → (b.tr E k).Once v
  | .nil, _, h => by simp [Brs.blockUses] at h
  | .cons c s r, k, h => by
    rw [Brs.blockUses] at h; rw [Brs.tr]
    rcases List.mem_append.mp h with h | h
    · have h1 := s.useV_id _ _ (s.blockUses_useV _ _ h)
      dsimp only at h1
      intro σ l o hr
      unfold TR.ite at hr
      split at hr
      · exact s.once E _ h _ _ _ hr
      · exact (r.never E _ (by omega)).once _ _ _ hr
    · have h1 := r.useV_id _ _ (r.blockUses_useV _ _ h)
      dsimp only at h1
      intro σ l o hr
      unfold TR.ite at hr
      split at hr
      · exact (s.never E _ (by omega)).once _ _ _ hr
      · exact r.once E _ h _ _ _ hr
end

/-! ### what a function returns -/

theorem ret_forever {A : String} {R : Rel} (h : ∀ σ σ', ¬ R σ (.ret A false) σ') {σ σ' : St} : ¬ Rel.forever R σ (.ret A false) σ' := by
  intro hr
  generalize hc : Ctl.ret A false = c at hr
  induction hr with
  | step k _ _ _ ih => exact ih hc
  | stop _ => cases hc
  | ret d q h1 => cases hc; exact h _ _ h1

theorem ret_iter {A : String} {b : St → Bool} {u : St → St} {R : Rel} (h : ∀ σ σ', ¬ R σ (.ret A false) σ') {σ σ' : St} :
    ¬ Rel.iter b u R σ (.ret A false) σ' := by
  intro hr
  generalize hc : Ctl.ret A false = c at hr
  induction hr with
  | done _ => cases hc
  | step k _ _ _ _ ih => exact ih hc
  | stop _ _ => cases hc
  | ret d q _ h1 => cases hc; exact h _ _ h1

mutual
theorem Node.ret_returned (E : Env) {A : String} : (n : Node) → A ∉ n.returned → ∀ σ σ', ¬ n.den E σ (.ret A false) σ'
  | .block l, _, σ, σ', hr => by simp [Node.den, Rel.upd] at hr
  | .seq s, h, σ, σ', hr => by rw [Node.returned] at h; rw [Node.den] at hr; exact s.ret_returned E h _ _ hr
  | .ifElse b, h, σ, σ', hr => by rw [Node.returned] at h; rw [Node.den] at hr; exact b.ret_returned E h _ _ hr
  | .whileL s, h, σ, σ', hr => by
    rw [Node.returned] at h; rw [Node.den] at hr
    exact ret_forever (fun σ σ' => s.ret_returned E h σ σ') hr
  | .loop q i a c u s, h, σ, σ', hr => by
    rw [Node.returned] at h; rw [Node.den] at hr
    rcases hr with ⟨σ1, _, hr⟩ | ⟨_, hr⟩
    · exact ret_iter (fun σ σ' => s.ret_returned E h σ σ') hr
    · simp [Rel.upd] at hr
  | .brk, _, σ, σ', hr => by simp [Node.den, Rel.exit] at hr
  | .cont, _, σ, σ', hr => by simp [Node.den, Rel.exit] at hr
  | .ret d q, h, σ, σ', hr => by
    simp only [Node.den, Rel.exit] at hr
    obtain ⟨h1, -⟩ := hr
    cases h1
    simp [Node.returned] at h
theorem Seq.ret_returned (E : Env) {A : String} : (s : Seq) → A ∉ s.returned → ∀ σ σ', ¬ s.den E σ (.ret A false) σ'
  | .nil, _, σ, σ', hr => by simp [Seq.den, Rel.upd] at hr
  | .cons n t r, h, σ, σ', hr => by
    rw [Seq.returned] at h; rw [Seq.den] at hr
    have h1 := n.ret_returned E (fun h' => h (List.mem_append_left _ h'))
    have h2 := r.ret_returned E (fun h' => h (List.mem_append_right _ h'))
    rcases hr with ⟨σ1, _, ⟨σ2, _, hr⟩ | ⟨_, hr⟩⟩ | ⟨_, hr⟩
    · exact h2 _ _ hr
    · simp [Rel.upd] at hr
    · exact h1 _ _ hr
theorem Brs.ret_returned (E : Env) {A : String} : (b : Brs) → A ∉ b.returned → ∀ σ σ', ¬ b.den E σ (.ret A false) σ'
  | .nil, _, σ, σ', hr => by simp [Brs.den, Rel.upd] at hr
  | .cons c s r, h, σ, σ', hr => by
    rw [Brs.returned] at h; rw [Brs.den] at hr
    have h1 := s.ret_returned E (fun h' => h (List.mem_append_left _ h'))
    have h2 := r.ret_returned E (fun h' => h (List.mem_append_right _ h'))
    unfold Rel.ite at hr
    split at hr
    · exact h1 _ _ hr
    · exact h2 _ _ hr
end

end Docc.IR
