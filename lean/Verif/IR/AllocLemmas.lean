import Verif.IR.Alloc
import Verif.IR.UGraphRun
import Verif.IR.UGraphDomProps

/-! Lemmas for the allocation pass. -/
namespace Docc.IR
open Docc.Sym

theorem TR.seq_assoc (R S T : TR) : TR.seq (TR.seq R S) T = TR.seq R (TR.seq S T) := by
  funext σ l o
  apply propext
  constructor
  · rintro (⟨l1, l2, σ1, ⟨a, b, σ2, h1, h2, rfl⟩ | ⟨h1, h2⟩, h3, rfl⟩ | ⟨⟨a, b, σ2, h1, h2, rfl⟩ | ⟨h1, h2⟩, h3⟩)
    · exact Or.inl ⟨a, b ++ l2, σ2, h1, Or.inl ⟨b, l2, σ1, h2, h3, rfl⟩, by simp⟩
    · exact absurd rfl (h2 σ1)
    · exact Or.inl ⟨a, b, σ2, h1, Or.inr ⟨h2, h3⟩, rfl⟩
    · exact Or.inr ⟨h1, h3⟩
  · rintro (⟨a, b, σ2, h1, ⟨b1, b2, σ3, h2, h3, rfl⟩ | ⟨h2, h3⟩, rfl⟩ | ⟨h1, h2⟩)
    · exact Or.inl ⟨a ++ b1, b2, σ3, Or.inl ⟨a, b1, σ2, h1, h2, rfl⟩, h3, by simp⟩
    · exact Or.inr ⟨Or.inl ⟨a, b, σ2, h1, h2, rfl⟩, h3⟩
    · exact Or.inr ⟨Or.inr ⟨h1, h2⟩, h2⟩

theorem TR.skip_seq (R : TR) (hR : ∀ σ, R σ [] none) : TR.seq (TR.emit [] id) R = R := by
  funext σ l o
  apply propext
  constructor
  · rintro (⟨l1, l2, σ1, ⟨rfl, h⟩ | ⟨_, h⟩, h2, rfl⟩ | ⟨⟨_, h⟩ | ⟨h1, rfl⟩, h2⟩)
    · cases h; exact h2
    · cases h
    · exact absurd h (h2 _)
    · rw [List.prefix_nil.mp h1]; exact hR σ
  · intro h; exact Or.inl ⟨[], l, σ, Or.inl ⟨rfl, rfl⟩, h, rfl⟩

theorem Seq.tr_cut (E : Env) (s : Seq) (k : Nat) (σ : St) : s.tr E k σ [] none := ((s.tf_ok E 0 k) σ).2

theorem Seq.append_kn : (a b : Seq) → (a ++ b).kn = a.kn + b.kn
  | .nil, b => by rw [Seq.nil_append, Seq.kn]; omega
  | .cons n t r, b => by rw [Seq.cons_append, Seq.kn, Seq.kn, Seq.append_kn r b]; omega

theorem Seq.tr_append (E : Env) : (a b : Seq) → ∀ k, (a ++ b).tr E k = TR.seq (a.tr E k) (b.tr E (k + a.kn))
  | .nil, b, k => by rw [Seq.nil_append, Seq.tr, Seq.kn, TR.skip_seq _ (b.tr_cut E _)]; rfl
  | .cons n t r, b, k => by
    rw [Seq.cons_append, Seq.tr, Seq.tr, Seq.tr_append E r b, TR.seq_assoc, TR.seq_assoc, Seq.kn]
    congr 4; omega

/-- no return among the children -/
def Seq.noRet : Seq → Bool
  | .nil => true
  | .cons n _ r => !n.isRet && r.noRet

theorem Seq.noRet_of_normal (E : Env) : (s : Seq) → ∀ {σ σ' : St}, s.den E σ .normal σ' → s.noRet = true
  | .nil, _, _, _ => rfl
  | .cons n t r, σ, σ', h => by
    rw [Seq.den] at h
    rcases h with ⟨σ1, h1, ⟨σ2, h2, h3⟩ | ⟨h2, _⟩⟩ | ⟨h1, _⟩
    · rw [Seq.noRet, r.noRet_of_normal E h3]
      cases n with
      | ret d q => rw [Node.den] at h1; cases h1.1
      | _ => rfl
    · exact absurd rfl h2
    · exact absurd rfl h1

/-- the graph of what follows is part of the graph -/
theorem Seq.ge_append (C : Brs → Bool) : (a b : Seq) → a.noRet = true → ∀ cur t k, ∃ cur', ∀ e ∈ b.ge C cur' t (k + a.kn), e ∈ (a ++ b).ge C cur t k
  | .nil, b, _, cur, t, k => ⟨cur, fun e he => by rw [Seq.nil_append]; exact he⟩
  | .cons n tr r, b, h, cur, t, k => by
    rw [Seq.noRet, Bool.and_eq_true] at h
    obtain ⟨cur', hc⟩ := Seq.ge_append C r b h.2 (chainEnd (n.exit k) (evs (k + n.vn) (transUses tr))) t (k + n.vn + (transUses tr).length)
    refine ⟨cur', fun e he => ?_⟩
    rw [Seq.cons_append, Seq.ge]
    have hn : n.isRet = false := by simpa using h.1
    simp only [hn, Bool.false_eq_true, if_false, evs_length, List.mem_cons, List.mem_append]
    refine Or.inr (Or.inr (hc e ?_))
    rw [Seq.kn] at he
    have : k + (n.vn + (transUses tr).length + r.kn) = k + n.vn + (transUses tr).length + r.kn := by omega
    rwa [this] at he

mutual
theorem Node.useV_id : (n : Node) → ∀ k, ∀ v ∈ n.useV k, k ≤ v.id ∧ v.id < k + n.vn
  | .block l, k, v, hv => by rw [Node.useV] at hv; rw [Node.vn]; have := evs_id hv; omega
  | .seq s, k, v, hv => by rw [Node.useV] at hv; rw [Node.vn]; have := s.useV_id _ v hv; omega
  | .ifElse b, k, v, hv => by
    rw [Node.useV, List.mem_append] at hv; rw [Node.vn]
    rcases hv with hv | hv
    · have := evs_id hv; omega
    · have := b.useV_id _ v hv; omega
  | .whileL s, k, v, hv => by rw [Node.useV] at hv; rw [Node.vn]; have := s.useV_id _ v hv; omega
  | .loop m i a c u s, k, v, hv => by
    rw [Node.useV] at hv; rw [Node.vn]
    simp only [List.mem_append] at hv
    rcases hv with ((hv | hv) | hv) | hv
    · have := evs_id hv; omega
    · have := evs_id hv; omega
    · have := s.useV_id _ v hv; omega
    · have := evs_id hv; omega
  | .brk, _, v, hv => by simp [Node.useV] at hv
  | .cont, _, v, hv => by simp [Node.useV] at hv
  | .ret _ _, _, v, hv => by simp [Node.useV] at hv
theorem Seq.useV_id : (s : Seq) → ∀ k, ∀ v ∈ s.useV k, k ≤ v.id ∧ v.id < k + s.kn
  | .nil, _, v, hv => by simp [Seq.useV] at hv
  | .cons n t r, k, v, hv => by
    rw [Seq.useV] at hv; rw [Seq.kn]
    split at hv
    · cases hv
    · simp only [List.mem_append] at hv
      rcases hv with (hv | hv) | hv
      · have := n.useV_id _ v hv; omega
      · have := evs_id hv; omega
      · have := r.useV_id _ v hv; omega
theorem Brs.useV_id : (b : Brs) → ∀ k, ∀ v ∈ b.useV k, k ≤ v.id ∧ v.id < k + b.vn
  | .nil, _, v, hv => by simp [Brs.useV] at hv
  | .cons c s r, k, v, hv => by
    rw [Brs.useV, List.mem_append] at hv; rw [Brs.vn]
    rcases hv with hv | hv
    · have := s.useV_id _ v hv; omega
    · have := r.useV_id _ v hv; omega
end

theorem Seq.uses_id (E : Env) (s : Seq) (k : Nat) {σ : St} {l : List V} {o : Option (Ctl × St)} (h : s.tr E k σ l o) {v : V} (hv : v ∈ l) :
    k ≤ v.id ∧ v.id < k + s.kn := by
  rcases Seq.only E s k σ l o h v hv with h | h
  · exact s.useV_id k v h
  · exact s.retV_id k v h

end Docc.IR
