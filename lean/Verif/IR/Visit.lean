import Verif.IR.UsersProps

/-
Which states an execution passes through: the state at the entry of every element, also in executions that do not
terminate.
-/
namespace Docc.IR
open Docc.Sym

/-- States at the start of an iteration of `while (1) R`. -/
inductive Rel.heads (R : Rel) : St → St → Prop
  | here {σ} : Rel.heads R σ σ
  | next {σ σ1 σ2} (k : Ctl) : Rel.heads R σ σ1 → R σ1 k σ2 → (k = .normal ∨ k = .cont) → Rel.heads R σ σ2

/-- States at the start of an iteration of `for (; b; u) R`, including the one where `b` is tested for the last time. -/
inductive Rel.iterHeads (b : St → Bool) (u : St → St) (R : Rel) : St → St → Prop
  | here {σ} : Rel.iterHeads b u R σ σ
  | next {σ σ1 σ2} (k : Ctl) : Rel.iterHeads b u R σ σ1 → b σ1 = true → R σ1 k σ2 → (k = .normal ∨ k = .cont) →
    Rel.iterHeads b u R σ (u σ2)

mutual
/-- `n.vis E p σ τ`: when `n` is started in state `σ`, the execution enters the element at path `p` in state `τ`.  The empty
path is the element itself, `0` the body of a loop, `k` the k-th child of a sequence or the k-th branch of an if-else. -/
def Node.vis (E : Env) : Node → List Nat → St → St → Prop
  | .seq s, p, σ, τ => s.vis E p σ τ
  | .ifElse b, p, σ, τ => b.vis E p σ τ
  | _, [], σ, τ => τ = σ
  | .whileL s, 0 :: p, σ, τ => ∃ σ1, Rel.heads (s.den E) σ σ1 ∧ s.vis E p σ1 τ
  | .loop _ i init cond upd s, 0 :: p, σ, τ =>
    ∃ σ1, Rel.iterHeads (fun σ => σ.cond E cond) (fun σ => σ.setS i (σ.ev E upd)) (s.den E)
        (σ.setS i (σ.ev E init)) σ1 ∧ σ1.cond E cond = true ∧ s.vis E p σ1 τ
  | _, _, _, _ => False
/-- entries of the elements of a sequence -/
def Seq.vis (E : Env) : Seq → List Nat → St → St → Prop
  | _, [], σ, τ => τ = σ
  | .nil, _ :: _, _, _ => False
  | .cons n _ _, 0 :: p, σ, τ => n.vis E p σ τ
  | .cons n t r, (k + 1) :: p, σ, τ => ∃ σ1, n.den E σ .normal σ1 ∧ r.vis E (k :: p) (runTrans E t σ1) τ
/-- entries of the elements of the branches -/
def Brs.vis (E : Env) : Brs → List Nat → St → St → Prop
  | _, [], σ, τ => τ = σ
  | .nil, _ :: _, _, _ => False
  | .cons c s _, 0 :: p, σ, τ => σ.cond E c = true ∧ s.vis E p σ τ
  | .cons c _ r, (k + 1) :: p, σ, τ => σ.cond E c = false ∧ r.vis E (k :: p) σ τ
end

mutual
/-- behaviour of the element at a path -/
def Node.denAt (E : Env) : Node → List Nat → Option Rel
  | .seq s, p => s.denAt E p
  | .ifElse b, p => b.denAt E p
  | n, [] => some (n.den E)
  | .whileL s, 0 :: p => s.denAt E p
  | .loop _ _ _ _ _ s, 0 :: p => s.denAt E p
  | _, _ => none
/-- behaviour of an element of a sequence -/
def Seq.denAt (E : Env) : Seq → List Nat → Option Rel
  | s, [] => some (s.den E)
  | .nil, _ :: _ => none
  | .cons n _ _, 0 :: p => n.denAt E p
  | .cons _ _ r, (k + 1) :: p => r.denAt E (k :: p)
/-- behaviour of an element of the branches -/
def Brs.denAt (E : Env) : Brs → List Nat → Option Rel
  | b, [] => some (b.den E)
  | .nil, _ :: _ => none
  | .cons _ s _, 0 :: p => s.denAt E p
  | .cons _ _ r, (k + 1) :: p => r.denAt E (k :: p)
end

/-! ### a container without writers keeps its contents -/

theorem Rel.heads_inv {P : St → Prop} {R : Rel} (h : Rel.inv P R) {σ τ : St} (hr : Rel.heads R σ τ) (hp : P σ) : P τ := by
  induction hr with
  | here => exact hp
  | next k _ h1 _ ih => exact h _ _ _ ih h1

theorem Rel.iterHeads_inv {P : St → Prop} {b : St → Bool} {u : St → St} {R : Rel} (hu : ∀ σ, P σ → P (u σ))
    (h : Rel.inv P R) {σ τ : St} (hr : Rel.iterHeads b u R σ τ) (hp : P σ) : P τ := by
  induction hr with
  | here => exact hp
  | next k _ _ h1 _ ih => exact hu _ (h _ _ _ ih h1)

mutual
theorem Node.vis_inv (E : Env) (x : String) (v : List Int → Int) : (n : Node) → ¬ writes n.users x → ∀ p σ τ,
    Holds x v σ → n.vis E p σ τ → Holds x v τ ∧ ∀ R, n.denAt E p = some R → Rel.inv (Holds x v) R
  | .block l => fun h p σ τ hp hv => by
    cases p with
    | nil =>
      simp only [Node.vis] at hv; subst hv
      exact ⟨hp, fun R hR => by simp only [Node.denAt, Option.some.injEq] at hR; subst hR; exact Node.frame_inv E x v _ h⟩
    | cons k p => simp [Node.vis] at hv
  | .seq s => fun h p σ τ hp hv => by
    rw [Node.users] at h; simp only [Node.vis] at hv; simp only [Node.denAt]
    exact Seq.vis_inv E x v s h p σ τ hp hv
  | .ifElse b => fun h p σ τ hp hv => by
    rw [Node.users, writes_append, not_or] at h; simp only [Node.vis] at hv; simp only [Node.denAt]
    exact Brs.vis_inv E x v b h.2 p σ τ hp hv
  | .whileL s => fun h p σ τ hp hv => by
    cases p with
    | nil =>
      simp only [Node.vis] at hv; subst hv
      exact ⟨hp, fun R hR => by simp only [Node.denAt, Option.some.injEq] at hR; subst hR; exact Node.frame_inv E x v _ h⟩
    | cons k p =>
      cases k with
      | zero =>
        simp only [Node.vis] at hv
        simp only [Node.denAt]
        rw [Node.users] at h
        obtain ⟨σ1, h1, h2⟩ := hv
        exact Seq.vis_inv E x v s h p σ1 τ (Rel.heads_inv (s.frame_inv E x v h) h1 hp) h2
      | succ k => simp [Node.vis] at hv
  | .loop m i a c u s => fun h p σ τ hp hv => by
    cases p with
    | nil =>
      simp only [Node.vis] at hv; subst hv
      exact ⟨hp, fun R hR => by simp only [Node.denAt, Option.some.injEq] at hR; subst hR; exact Node.frame_inv E x v _ h⟩
    | cons k p =>
      cases k with
      | zero =>
        simp only [Node.vis] at hv
        simp only [Node.denAt]
        simp only [Node.users, writes_append, not_or] at h
        obtain ⟨σ1, h1, _, h2⟩ := hv
        have hi : x ≠ i := by rintro rfl; exact h.2 (by simp [writes])
        refine Seq.vis_inv E x v s h.1.1.2 p σ1 τ (Rel.iterHeads_inv (fun σ hp => ?_) (s.frame_inv E x v h.1.1.2) h1 ?_) h2
        · rw [Holds, St.setS_other _ _ hi]; exact hp
        · rw [Holds, St.setS_other _ _ hi]; exact hp
      | succ k => simp [Node.vis] at hv
  | .brk => fun h p σ τ hp hv => by
    cases p with
    | nil =>
      simp only [Node.vis] at hv; subst hv
      exact ⟨hp, fun R hR => by simp only [Node.denAt, Option.some.injEq] at hR; subst hR; exact Node.frame_inv E x v _ h⟩
    | cons k p => simp [Node.vis] at hv
  | .cont => fun h p σ τ hp hv => by
    cases p with
    | nil =>
      simp only [Node.vis] at hv; subst hv
      exact ⟨hp, fun R hR => by simp only [Node.denAt, Option.some.injEq] at hR; subst hR; exact Node.frame_inv E x v _ h⟩
    | cons k p => simp [Node.vis] at hv
  | .ret d q => fun h p σ τ hp hv => by
    cases p with
    | nil =>
      simp only [Node.vis] at hv; subst hv
      exact ⟨hp, fun R hR => by simp only [Node.denAt, Option.some.injEq] at hR; subst hR; exact Node.frame_inv E x v _ h⟩
    | cons k p => simp [Node.vis] at hv
theorem Seq.vis_inv (E : Env) (x : String) (v : List Int → Int) : (s : Seq) → ¬ writes s.users x → ∀ p σ τ,
    Holds x v σ → s.vis E p σ τ → Holds x v τ ∧ ∀ R, s.denAt E p = some R → Rel.inv (Holds x v) R
  | .nil => fun h p σ τ hp hv => by
    cases p with
    | nil =>
      simp only [Seq.vis] at hv; subst hv
      exact ⟨hp, fun R hR => by simp only [Seq.denAt, Option.some.injEq] at hR; subst hR; exact Seq.frame_inv E x v _ h⟩
    | cons k p => simp [Seq.vis] at hv
  | .cons n t r => fun h p σ τ hp hv => by
    cases p with
    | nil =>
      simp only [Seq.vis] at hv; subst hv
      exact ⟨hp, fun R hR => by simp only [Seq.denAt, Option.some.injEq] at hR; subst hR; exact Seq.frame_inv E x v _ h⟩
    | cons k p =>
      have hn : ¬ writes n.users x := by
        rw [Seq.users] at h
        split at h
        · exact h
        · simp only [writes_append, not_or] at h; exact h.1.1
      cases k with
      | zero =>
        simp only [Seq.vis] at hv; simp only [Seq.denAt]
        exact Node.vis_inv E x v n hn p σ τ hp hv
      | succ k =>
        simp only [Seq.vis] at hv; simp only [Seq.denAt]
        obtain ⟨σ1, h1, h2⟩ := hv
        have hr : ¬ writes (transUsers t) x ∧ ¬ writes r.users x := by
          rw [Seq.users] at h
          split at h
          · rename_i hret
            cases n <;> simp [Node.isRet] at hret
            simp [Node.den, Rel.exit] at h1
          · simp only [writes_append, not_or] at h; exact ⟨h.1.2, h.2⟩
        refine Seq.vis_inv E x v r hr.2 (k :: p) _ τ ?_ h2
        rw [Holds, runTrans_frame E t σ1 x hr.1]
        exact Node.frame_inv E x v n hn _ _ _ hp h1
theorem Brs.vis_inv (E : Env) (x : String) (v : List Int → Int) : (b : Brs) → ¬ writes b.users x → ∀ p σ τ,
    Holds x v σ → b.vis E p σ τ → Holds x v τ ∧ ∀ R, b.denAt E p = some R → Rel.inv (Holds x v) R
  | .nil => fun h p σ τ hp hv => by
    cases p with
    | nil =>
      simp only [Brs.vis] at hv; subst hv
      exact ⟨hp, fun R hR => by simp only [Brs.denAt, Option.some.injEq] at hR; subst hR; exact Brs.frame_inv E x v _ h⟩
    | cons k p => simp [Brs.vis] at hv
  | .cons c s r => fun h p σ τ hp hv => by
    cases p with
    | nil =>
      simp only [Brs.vis] at hv; subst hv
      exact ⟨hp, fun R hR => by simp only [Brs.denAt, Option.some.injEq] at hR; subst hR; exact Brs.frame_inv E x v _ h⟩
    | cons k p =>
      simp only [Brs.users, writes_append, not_or] at h
      cases k with
      | zero =>
        simp only [Brs.vis] at hv; simp only [Brs.denAt]
        exact Seq.vis_inv E x v s h.1 p σ τ hp hv.2
      | succ k =>
        simp only [Brs.vis] at hv; simp only [Brs.denAt]
        exact Brs.vis_inv E x v r h.2 (k :: p) σ τ hp hv.2
end

/-- a container without writers has the same contents at every entry -/
theorem Seq.vis_frame (E : Env) (s : Seq) (x : String) (h : ¬ writes s.users x) {p : List Nat} {σ τ : St}
    (hv : s.vis E p σ τ) : τ x = σ x := (Seq.vis_inv E x (σ x) s h p σ τ rfl hv).1

/-! ### visits account for every terminating execution -/

/-- A terminating execution of a loop ends at the start of an iteration whose test fails, or inside an iteration that is
left with `break` or `return`. -/
theorem Rel.iter_ends {b : St → Bool} {u : St → St} {R : Rel} {σ : St} {c : Ctl} {σ' : St} (h : Rel.iter b u R σ c σ') :
    ∃ σ1, Rel.iterHeads b u R σ σ1 ∧ ((b σ1 = false ∧ c = .normal ∧ σ' = σ1) ∨
      (b σ1 = true ∧ ((R σ1 .brk σ' ∧ c = .normal) ∨ ∃ d q, c = .ret d q ∧ R σ1 c σ'))) := by
  induction h with
  | done h => exact ⟨_, .here, Or.inl ⟨h, rfl, rfl⟩⟩
  | step k h0 h1 h2 _ ih =>
    obtain ⟨σ1, h3, h4⟩ := ih
    refine ⟨σ1, ?_, h4⟩
    clear h4
    induction h3 with
    | here => exact .next k .here h0 h1 h2
    | next k' _ a b' c' ih => exact .next k' ih a b' c'
  | stop h0 h1 => exact ⟨_, .here, Or.inr ⟨h0, Or.inl ⟨h1, rfl⟩⟩⟩
  | ret d q h0 h1 => exact ⟨_, .here, Or.inr ⟨h0, Or.inr ⟨d, q, rfl, h1⟩⟩⟩

/-- the same for `while (1)` -/
theorem Rel.forever_ends {R : Rel} {σ : St} {c : Ctl} {σ' : St} (h : Rel.forever R σ c σ') :
    ∃ σ1, Rel.heads R σ σ1 ∧ ((R σ1 .brk σ' ∧ c = .normal) ∨ ∃ d q, c = .ret d q ∧ R σ1 c σ') := by
  induction h with
  | step k h1 h2 _ ih =>
    obtain ⟨σ1, h3, h4⟩ := ih
    refine ⟨σ1, ?_, h4⟩
    clear h4
    induction h3 with
    | here => exact .next k .here h1 h2
    | next k' _ b' c' ih => exact .next k' ih b' c'
  | stop h1 => exact ⟨_, .here, Or.inl ⟨h1, rfl⟩⟩
  | ret d q h1 => exact ⟨_, .here, Or.inr ⟨d, q, rfl, h1⟩⟩

end Docc.IR
