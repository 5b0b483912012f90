import Verif.IR.Visit

/-
Rewriting a program in place: two programs of the same shape behave alike from a state if every block and every loop
condition agrees in the states in which the execution reaches it.
-/
namespace Docc.IR
open Docc.Sym

mutual
/-- same shape, and wherever an execution of the first program started in the state gets to, the block or the loop condition
there does the same in both -/
def Node.EqAt (E : Env) : Node → Node → St → Prop
  | .block l, n', σ => ∃ l', n' = .block l' ∧ runBlock E l' σ = runBlock E l σ
  | .seq s, n', σ => ∃ s', n' = .seq s' ∧ s.EqAt E s' σ
  | .ifElse b, n', σ => ∃ b', n' = .ifElse b' ∧ b.EqAt E b' σ
  | .whileL s, n', σ => ∃ s', n' = .whileL s' ∧ ∀ σ1, Rel.heads (s.den E) σ σ1 → s.EqAt E s' σ1
  | .loop m i a c u s, n', σ => ∃ c' s', n' = .loop m i a c' u s' ∧
    ∀ σ1, Rel.iterHeads (fun σ => σ.cond E c) (fun σ => σ.setS i (σ.ev E u)) (s.den E) (σ.setS i (σ.ev E a)) σ1 →
      σ1.cond E c' = σ1.cond E c ∧ (σ1.cond E c = true → s.EqAt E s' σ1)
  | .brk, n', _ => n' = .brk
  | .cont, n', _ => n' = .cont
  | .ret d q, n', _ => n' = .ret d q
/-- sequences -/
def Seq.EqAt (E : Env) : Seq → Seq → St → Prop
  | .nil, s', _ => s' = .nil
  | .cons n t r, s', σ => ∃ n' r', s' = .cons n' t r' ∧ n.EqAt E n' σ ∧
    ∀ σ1, n.den E σ .normal σ1 → r.EqAt E r' (runTrans E t σ1)
/-- branches -/
def Brs.EqAt (E : Env) : Brs → Brs → St → Prop
  | .nil, b', _ => b' = .nil
  | .cons c s r, b', σ => ∃ s' r', b' = .cons c s' r' ∧ (σ.cond E c = true → s.EqAt E s' σ) ∧
    (σ.cond E c = false → r.EqAt E r' σ)
end

theorem Rel.heads_cons {R : Rel} {σ σ1 σ2 : St} (k : Ctl) (h1 : R σ k σ1) (hk : k = .normal ∨ k = .cont)
    (h : Rel.heads R σ1 σ2) : Rel.heads R σ σ2 := by
  induction h with
  | here => exact .next k .here h1 hk
  | next k' _ h2 hk' ih => exact .next k' ih h2 hk'

theorem Rel.iterHeads_cons {b : St → Bool} {u : St → St} {R : Rel} {σ σ1 σ2 : St} (k : Ctl) (hb : b σ = true) (h1 : R σ k σ1)
    (hk : k = .normal ∨ k = .cont) (h : Rel.iterHeads b u R (u σ1) σ2) : Rel.iterHeads b u R σ σ2 := by
  generalize he : u σ1 = σ' at h
  induction h with
  | here => subst he; exact .next k .here hb h1 hk
  | next k' _ h2 h3 hk' ih => exact .next k' ih h2 h3 hk'

/-- the two `while (1)` agree when the bodies agree at the starts of the iterations -/
theorem Rel.forever_at {R S : Rel} {σ : St} (h : ∀ σ1, Rel.heads R σ σ1 → ∀ k τ, R σ1 k τ ↔ S σ1 k τ) (k : Ctl) (τ : St) :
    Rel.forever R σ k τ ↔ Rel.forever S σ k τ := by
  constructor
  · intro hr
    induction hr with
    | step k h1 h2 _ ih =>
      exact .step k ((h _ .here _ _).1 h1) h2 (ih fun σ1 h3 => h σ1 (Rel.heads_cons k h1 h2 h3))
    | stop h1 => exact .stop ((h _ .here _ _).1 h1)
    | ret d q h1 => exact .ret d q ((h _ .here _ _).1 h1)
  · intro hr
    induction hr with
    | step k h1 h2 _ ih =>
      have h1' := (h _ .here _ _).2 h1
      exact .step k h1' h2 (ih fun σ1 h3 => h σ1 (Rel.heads_cons k h1' h2 h3))
    | stop h1 => exact .stop ((h _ .here _ _).2 h1)
    | ret d q h1 => exact .ret d q ((h _ .here _ _).2 h1)

/-- the two `for (; b; u)` agree when the conditions agree wherever they are tested and the bodies at the starts of the
iterations -/
theorem Rel.iter_at {b b' : St → Bool} {u : St → St} {R S : Rel} {σ : St}
    (h : ∀ σ1, Rel.iterHeads b u R σ σ1 → b' σ1 = b σ1 ∧ (b σ1 = true → ∀ k τ, R σ1 k τ ↔ S σ1 k τ)) (k : Ctl) (τ : St) :
    Rel.iter b u R σ k τ ↔ Rel.iter b' u S σ k τ := by
  constructor
  · intro hr
    induction hr with
    | done h1 => exact .done (by rw [(h _ .here).1]; exact h1)
    | step k hb h1 h2 _ ih =>
      have h0 := h _ .here
      exact .step k (by rw [h0.1]; exact hb) ((h0.2 hb _ _).1 h1) h2
        (ih fun σ1 h3 => h σ1 (Rel.iterHeads_cons k hb h1 h2 h3))
    | stop hb h1 => exact .stop (by rw [(h _ .here).1]; exact hb) (((h _ .here).2 hb _ _).1 h1)
    | ret d q hb h1 => exact .ret d q (by rw [(h _ .here).1]; exact hb) (((h _ .here).2 hb _ _).1 h1)
  · intro hr
    induction hr with
    | done h1 => exact .done (by rw [← (h _ .here).1]; exact h1)
    | step k hb h1 h2 _ ih =>
      have h0 := h _ .here
      rw [h0.1] at hb
      have h1' := (h0.2 hb _ _).2 h1
      exact .step k hb h1' h2 (ih fun σ1 h3 => h σ1 (Rel.iterHeads_cons k hb h1' h2 h3))
    | stop hb h1 =>
      rw [(h _ .here).1] at hb
      exact .stop hb (((h _ .here).2 hb _ _).2 h1)
    | ret d q hb h1 =>
      rw [(h _ .here).1] at hb
      exact .ret d q hb (((h _ .here).2 hb _ _).2 h1)

mutual
theorem Node.eqAt_den (E : Env) : (n n' : Node) → (σ : St) → n.EqAt E n' σ → ∀ k τ, n.den E σ k τ ↔ n'.den E σ k τ
  | .block l, n', σ, h, k, τ => by
    rw [Node.EqAt] at h
    obtain ⟨l', rfl, h⟩ := h
    simp only [Node.den, Rel.upd, h]
  | .seq s, n', σ, h, k, τ => by
    rw [Node.EqAt] at h
    obtain ⟨s', rfl, h⟩ := h
    simp only [Node.den]
    exact Seq.eqAt_den E s s' σ h k τ
  | .ifElse b, n', σ, h, k, τ => by
    rw [Node.EqAt] at h
    obtain ⟨b', rfl, h⟩ := h
    simp only [Node.den]
    exact Brs.eqAt_den E b b' σ h k τ
  | .whileL s, n', σ, h, k, τ => by
    rw [Node.EqAt] at h
    obtain ⟨s', rfl, h⟩ := h
    simp only [Node.den]
    exact Rel.forever_at (fun σ1 h1 => Seq.eqAt_den E s s' σ1 (h σ1 h1)) k τ
  | .loop m i a c u s, n', σ, h, k, τ => by
    rw [Node.EqAt] at h
    obtain ⟨c', s', rfl, h⟩ := h
    simp only [Node.den, Rel.upd_seq]
    exact Rel.iter_at (fun σ1 h1 => ⟨(h σ1 h1).1, fun hc => Seq.eqAt_den E s s' σ1 ((h σ1 h1).2 hc)⟩) k τ
  | .brk, n', σ, h, k, τ => by rw [Node.EqAt] at h; subst h; rfl
  | .cont, n', σ, h, k, τ => by rw [Node.EqAt] at h; subst h; rfl
  | .ret d q, n', σ, h, k, τ => by rw [Node.EqAt] at h; subst h; rfl
theorem Seq.eqAt_den (E : Env) : (s s' : Seq) → (σ : St) → s.EqAt E s' σ → ∀ k τ, s.den E σ k τ ↔ s'.den E σ k τ
  | .nil, s', σ, h, k, τ => by rw [Seq.EqAt] at h; subst h; rfl
  | .cons n t r, s', σ, h, k, τ => by
    rw [Seq.EqAt] at h
    obtain ⟨n', r', rfl, h1, h2⟩ := h
    have hn := Node.eqAt_den E n n' σ h1
    simp only [Seq.den, Rel.upd_seq]
    simp only [Rel.seq]
    constructor
    · rintro (⟨σ1, h3, h4⟩ | ⟨h3, h4⟩)
      · exact Or.inl ⟨σ1, (hn _ _).1 h3, (Seq.eqAt_den E r r' _ (h2 σ1 h3) _ _).1 h4⟩
      · exact Or.inr ⟨h3, (hn _ _).1 h4⟩
    · rintro (⟨σ1, h3, h4⟩ | ⟨h3, h4⟩)
      · have h3' := (hn _ _).2 h3
        exact Or.inl ⟨σ1, h3', (Seq.eqAt_den E r r' _ (h2 σ1 h3') _ _).2 h4⟩
      · exact Or.inr ⟨h3, (hn _ _).2 h4⟩
theorem Brs.eqAt_den (E : Env) : (b b' : Brs) → (σ : St) → b.EqAt E b' σ → ∀ k τ, b.den E σ k τ ↔ b'.den E σ k τ
  | .nil, b', σ, h, k, τ => by rw [Brs.EqAt] at h; subst h; rfl
  | .cons c s r, b', σ, h, k, τ => by
    rw [Brs.EqAt] at h
    obtain ⟨s', r', rfl, h1, h2⟩ := h
    simp only [Brs.den, Rel.ite]
    by_cases hc : σ.cond E c = true
    · simp only [hc, if_true]; exact Seq.eqAt_den E s s' σ (h1 hc) k τ
    · simp only [hc, if_false, Bool.false_eq_true]; exact Brs.eqAt_den E r r' σ (h2 (by simpa using hc)) k τ
end

mutual
/-- the element at a path -/
def Node.elem : Node → List Nat → Option Node
  | .seq s, p => s.elem p
  | .ifElse b, p => b.elem p
  | n, [] => some n
  | .whileL s, 0 :: p => s.elem p
  | .loop _ _ _ _ _ s, 0 :: p => s.elem p
  | _, _ => none
/-- the element at a path of a sequence -/
def Seq.elem : Seq → List Nat → Option Node
  | _, [] => none
  | .nil, _ :: _ => none
  | .cons n _ _, 0 :: p => n.elem p
  | .cons _ _ r, (k + 1) :: p => r.elem (k :: p)
/-- the element at a path of the branches -/
def Brs.elem : Brs → List Nat → Option Node
  | _, [] => none
  | .nil, _ :: _ => none
  | .cons _ s _, 0 :: p => s.elem p
  | .cons _ _ r, (k + 1) :: p => r.elem (k :: p)
end

end Docc.IR
