import Verif.IR.Ranges
import Verif.IR.Rewrite

/-
Relating two runs of a node block by block: what has to hold only where the execution gets to.
-/
namespace Docc.IR
open Docc.Sym

/-- relations between states that ignore neither symbols nor assignments to symbols -/
structure SymRel (Q : St → St → Prop) : Prop where
  sym : ∀ {ρ ρ'}, Q ρ ρ' → ∀ x, ρ x [] = ρ' x []
  set : ∀ {ρ ρ'}, Q ρ ρ' → ∀ x v, Q (ρ.setS x v) (ρ'.setS x v)

theorem SymRel.ev {Q : St → St → Prop} (hQ : SymRel Q) {E : Env} {ρ ρ' : St} (h : Q ρ ρ') (e : Expr) : ρ.ev E e = ρ'.ev E e :=
  St.ev_congr E fun x _ => hQ.sym h x

theorem SymRel.cond {Q : St → St → Prop} (hQ : SymRel Q) {E : Env} {ρ ρ' : St} (h : Q ρ ρ') (c : Cond) : ρ.cond E c = ρ'.cond E c :=
  St.cond_congr E fun x _ => hQ.sym h x

theorem SymRel.trans {Q : St → St → Prop} (hQ : SymRel Q) (E : Env) : ∀ (t : Trans) {ρ ρ' : St}, Q ρ ρ' → Q (runTrans E t ρ) (runTrans E t ρ')
  | [], _, _, h => h
  | a :: t, ρ, ρ', h => by
    have := hQ.trans E t (hQ.set h a.1 (ρ.ev E a.2))
    rw [runTrans, List.foldl_cons, runTrans, List.foldl_cons]
    have e : ρ'.ev E a.2 = ρ.ev E a.2 := (hQ.ev h a.2).symm
    rw [e]
    exact this

/-- the blocks keep the relation wherever the execution started in `σ` runs them -/
abbrev BlocksOk (E : Env) (Q : St → St → Prop) (bs : List (List Nat × List Stmt)) (vis : List Nat → St → St → Prop) (σ : St) : Prop :=
  ∀ p l ρ ρ', (p, l) ∈ bs → vis p σ ρ → Q ρ ρ' → Q (runBlock E l ρ) (runBlock E l ρ')

theorem Rel.forever_two {Q : St → St → Prop} {R S : Rel} {σ τ σ' : St} {k : Ctl} (h : Rel.forever R σ k σ') (hq : Q σ τ)
    (hR : ∀ σ1, Rel.heads R σ σ1 → ∀ τ1 k σ2, Q σ1 τ1 → R σ1 k σ2 → ∃ τ2, S τ1 k τ2 ∧ Q σ2 τ2) :
    ∃ τ', Rel.forever S τ k τ' ∧ Q σ' τ' := by
  induction h generalizing τ with
  | step k h1 h2 _ ih =>
    obtain ⟨τ1, a, b⟩ := hR _ .here _ _ _ hq h1
    obtain ⟨τ', c, d⟩ := ih b fun σ1 h3 => hR σ1 (Rel.heads_cons k h1 h2 h3)
    exact ⟨τ', .step k a h2 c, d⟩
  | stop h1 =>
    obtain ⟨τ1, a, b⟩ := hR _ .here _ _ _ hq h1
    exact ⟨τ1, .stop a, b⟩
  | ret d q h1 =>
    obtain ⟨τ1, a, b⟩ := hR _ .here _ _ _ hq h1
    exact ⟨τ1, .ret d q a, b⟩

theorem Rel.iter_two {Q : St → St → Prop} {b : St → Bool} {u : St → St} {R S : Rel} {σ τ σ' : St} {k : Ctl} (h : Rel.iter b u R σ k σ')
    (hq : Q σ τ) (hb : ∀ ρ ρ', Q ρ ρ' → b ρ = b ρ') (hu : ∀ ρ ρ', Q ρ ρ' → Q (u ρ) (u ρ'))
    (hR : ∀ σ1, Rel.iterHeads b u R σ σ1 → b σ1 = true → ∀ τ1 k σ2, Q σ1 τ1 → R σ1 k σ2 → ∃ τ2, S τ1 k τ2 ∧ Q σ2 τ2) :
    ∃ τ', Rel.iter b u S τ k τ' ∧ Q σ' τ' := by
  induction h generalizing τ with
  | done h1 => exact ⟨τ, .done (by rw [← hb _ _ hq]; exact h1), hq⟩
  | step k hc h1 h2 _ ih =>
    obtain ⟨τ1, a, d⟩ := hR _ .here hc _ _ _ hq h1
    obtain ⟨τ', e, f⟩ := ih (hu _ _ d) fun σ1 h3 => hR σ1 (Rel.iterHeads_cons k hc h1 h2 h3)
    exact ⟨τ', .step k (by rw [← hb _ _ hq]; exact hc) a h2 e, f⟩
  | stop hc h1 =>
    obtain ⟨τ1, a, d⟩ := hR _ .here hc _ _ _ hq h1
    exact ⟨τ1, .stop (by rw [← hb _ _ hq]; exact hc) a, d⟩
  | ret d q hc h1 =>
    obtain ⟨τ1, a, e⟩ := hR _ .here hc _ _ _ hq h1
    exact ⟨τ1, .ret d q (by rw [← hb _ _ hq]; exact hc) a, e⟩

mutual
/-- a run of a node can be followed from a related state -/
theorem Node.two_runs (E : Env) {Q : St → St → Prop} (hQ : SymRel Q) : (n : Node) → ∀ σ τ, BlocksOk E Q n.blocksAt (n.vis E) σ → Q σ τ →
    ∀ k σ', n.den E σ k σ' → ∃ τ', n.den E τ k τ' ∧ Q σ' τ'
  | .block l, σ, τ, hb, hq, k, σ', h => by
    rw [Node.den] at h ⊢
    obtain ⟨rfl, rfl⟩ := h
    exact ⟨_, ⟨rfl, rfl⟩, hb [] l σ τ (by simp [Node.blocksAt]) (by simp [Node.vis]) hq⟩
  | .seq s, σ, τ, hb, hq, k, σ', h => by
    rw [Node.den] at h ⊢
    refine Seq.two_runs E hQ s σ τ (fun p l ρ ρ' h1 h2 => hb p l ρ ρ' (by rw [Node.blocksAt]; exact h1) (by simp only [Node.vis]; exact h2)) hq k σ' h
  | .ifElse b, σ, τ, hb, hq, k, σ', h => by
    rw [Node.den] at h ⊢
    refine Brs.two_runs E hQ b σ τ (fun p l ρ ρ' h1 h2 => hb p l ρ ρ' (by rw [Node.blocksAt]; exact h1) (by simp only [Node.vis]; exact h2)) hq k σ' h
  | .whileL s, σ, τ, hb, hq, k, σ', h => by
    rw [Node.den] at h ⊢
    refine Rel.forever_two h hq fun σ1 h1 τ1 k σ2 hq1 hr => Seq.two_runs E hQ s σ1 τ1 (fun p l ρ ρ' h2 h3 => ?_) hq1 k σ2 hr
    refine hb (0 :: p) l ρ ρ' ?_ ?_
    · rw [Node.blocksAt]; exact List.mem_map.2 ⟨(p, l), h2, rfl⟩
    · simp only [Node.vis]; exact ⟨σ1, h1, h3⟩
  | .loop m i a c u s, σ, τ, hb, hq, k, σ', h => by
    rw [Node.den] at h ⊢
    simp only [Rel.seq, Rel.upd] at h ⊢
    rcases h with ⟨σ0, ⟨_, rfl⟩, h⟩ | ⟨hk, hn, _⟩
    · have hq0 : Q (σ.setS i (σ.ev E a)) (τ.setS i (τ.ev E a)) := by rw [← hQ.ev hq a]; exact hQ.set hq i _
      obtain ⟨τ', h1, h2⟩ := Rel.iter_two h hq0 (fun ρ ρ' hr => hQ.cond hr c)
        (fun ρ ρ' hr => by rw [← hQ.ev hr u]; exact hQ.set hr i _)
        fun σ1 h1 hc τ1 k σ2 hq1 hr => Seq.two_runs E hQ s σ1 τ1 (fun p l ρ ρ' h2 h3 => hb (0 :: p) l ρ ρ'
          (by rw [Node.blocksAt]; exact List.mem_map.2 ⟨(p, l), h2, rfl⟩) (by simp only [Node.vis]; exact ⟨σ1, h1, hc, h3⟩)) hq1 k σ2 hr
      exact ⟨τ', Or.inl ⟨_, ⟨trivial, rfl⟩, h1⟩, h2⟩
    · exact absurd hn hk
  | .brk, σ, τ, hb, hq, k, σ', h => by
    rw [Node.den] at h ⊢; obtain ⟨rfl, rfl⟩ := h; exact ⟨_, ⟨rfl, rfl⟩, hq⟩
  | .cont, σ, τ, hb, hq, k, σ', h => by
    rw [Node.den] at h ⊢; obtain ⟨rfl, rfl⟩ := h; exact ⟨_, ⟨rfl, rfl⟩, hq⟩
  | .ret d q, σ, τ, hb, hq, k, σ', h => by
    rw [Node.den] at h ⊢; obtain ⟨rfl, rfl⟩ := h; exact ⟨_, ⟨rfl, rfl⟩, hq⟩
theorem Seq.two_runs (E : Env) {Q : St → St → Prop} (hQ : SymRel Q) : (s : Seq) → ∀ σ τ, BlocksOk E Q s.blocksAt (s.vis E) σ → Q σ τ →
    ∀ k σ', s.den E σ k σ' → ∃ τ', s.den E τ k τ' ∧ Q σ' τ'
  | .nil, σ, τ, hb, hq, k, σ', h => by
    rw [Seq.den] at h ⊢; obtain ⟨rfl, rfl⟩ := h; exact ⟨_, ⟨rfl, rfl⟩, hq⟩
  | .cons n t r, σ, τ, hb, hq, k, σ', h => by
    rw [Seq.den] at h ⊢
    by_cases hret : n.isRet
    · cases n <;> simp only [Node.isRet, Bool.false_eq_true] at hret
      simp only [Node.den] at h ⊢
      rcases h with ⟨σ1, h1, _⟩ | ⟨hk, rfl, rfl⟩
      · simp [Rel.exit] at h1
      · exact ⟨τ, Or.inr ⟨hk, rfl, rfl⟩, hq⟩
    · have hB : (Seq.cons n t r).blocksAt = (n.blocksAt.map fun q => (0 :: q.1, q.2)) ++ r.blocksAt.map fun q => (shiftPath q.1, q.2) := by
        rw [Seq.blocksAt]; simp [hret]
      have hn : BlocksOk E Q n.blocksAt (n.vis E) σ := fun p l ρ ρ' h1 h2 => hb (0 :: p) l ρ ρ'
        (by rw [hB]; exact List.mem_append_left _ (List.mem_map.2 ⟨(p, l), h1, rfl⟩)) (by simp only [Seq.vis]; exact h2)
      rcases h with ⟨σ1, h1, h2⟩ | ⟨hk, h1⟩
      · obtain ⟨τ1, a1, q1⟩ := Node.two_runs E hQ n σ τ hn hq _ _ h1
        simp only [Rel.seq, Rel.upd] at h2
        rcases h2 with ⟨σ2, ⟨_, rfl⟩, h3⟩ | ⟨hk, hn', _⟩
        · refine Exists.imp (fun τ' h => ⟨Or.inl ⟨τ1, a1, Or.inl ⟨_, ⟨rfl, rfl⟩, h.1⟩⟩, h.2⟩)
            (Seq.two_runs E hQ r _ _ (fun p l ρ ρ' h4 h5 => ?_) (hQ.trans E t q1) _ _ h3)
          · cases p with
            | nil => exact (Seq.no_root r l h4).elim
            | cons j p =>
              exact hb ((j + 1) :: p) l ρ ρ' (by rw [hB]; exact List.mem_append_right _ (List.mem_map.2 ⟨(j :: p, l), h4, rfl⟩))
                (by simp only [Seq.vis]; exact ⟨σ1, h1, h5⟩)
        · exact absurd hn' hk
      · obtain ⟨τ1, a1, q1⟩ := Node.two_runs E hQ n σ τ hn hq _ _ h1
        exact ⟨τ1, Or.inr ⟨hk, a1⟩, q1⟩
theorem Brs.two_runs (E : Env) {Q : St → St → Prop} (hQ : SymRel Q) : (b : Brs) → ∀ σ τ, BlocksOk E Q b.blocksAt (b.vis E) σ → Q σ τ →
    ∀ k σ', b.den E σ k σ' → ∃ τ', b.den E τ k τ' ∧ Q σ' τ'
  | .nil, σ, τ, hb, hq, k, σ', h => by
    rw [Brs.den] at h ⊢; obtain ⟨rfl, rfl⟩ := h; exact ⟨_, ⟨rfl, rfl⟩, hq⟩
  | .cons c s r, σ, τ, hb, hq, k, σ', h => by
    rw [Brs.den] at h ⊢
    simp only [Rel.ite] at h ⊢
    have hcc : τ.cond E c = σ.cond E c := (hQ.cond hq c).symm
    simp only [hcc]
    split at h
    · rename_i hc
      simp only [hc, if_true]
      refine Seq.two_runs E hQ s σ τ (fun p l ρ ρ' h1 h2 => hb (0 :: p) l ρ ρ' ?_ ?_) hq k σ' h
      · rw [Brs.blocksAt]; exact List.mem_append_left _ (List.mem_map.2 ⟨(p, l), h1, rfl⟩)
      · simp only [Brs.vis]; exact ⟨hc, h2⟩
    · rename_i hc
      simp only [hc]
      refine Brs.two_runs E hQ r σ τ (fun p l ρ ρ' h1 h2 => ?_) hq k σ' h
      cases p with
      | nil => exact (Brs.no_root r l h1).elim
      | cons j p =>
        refine hb ((j + 1) :: p) l ρ ρ' ?_ ?_
        · rw [Brs.blocksAt]; exact List.mem_append_right _ (List.mem_map.2 ⟨(j :: p, l), h1, rfl⟩)
        · simp only [Brs.vis]; exact ⟨by simpa using hc, h2⟩
theorem Seq.no_root : (s : Seq) → ∀ l, ([], l) ∉ s.blocksAt
  | .nil, l => by simp [Seq.blocksAt]
  | .cons n t r, l => by
    rw [Seq.blocksAt]
    split
    · simp
    · intro h
      rcases List.mem_append.1 h with h | h
      · obtain ⟨q, _, h⟩ := List.mem_map.1 h; simp at h
      · obtain ⟨⟨q, l'⟩, h1, h⟩ := List.mem_map.1 h
        cases q with
        | nil => exact Seq.no_root r l' h1
        | cons j q => simp [shiftPath] at h
theorem Brs.no_root : (b : Brs) → ∀ l, ([], l) ∉ b.blocksAt
  | .nil, l => by simp [Brs.blocksAt]
  | .cons c s r, l => by
    rw [Brs.blocksAt]
    intro h
    rcases List.mem_append.1 h with h | h
    · obtain ⟨q, _, h⟩ := List.mem_map.1 h; simp at h
    · obtain ⟨⟨q, l'⟩, h1, h⟩ := List.mem_map.1 h
      cases q with
      | nil => exact Brs.no_root r l' h1
      | cons j q => simp [shiftPath] at h
end

end Docc.IR
