import Verif.IR.Sem

/-
Nodes that cannot finish with `break` or `continue` (those are inside nested loops).
-/
namespace Docc.IR

mutual
/-- every `break` and `continue` is inside a nested loop -/
def Node.noJump : Node → Bool
  | .block _ => true
  | .seq s => s.noJump
  | .ifElse b => b.noJump
  | .whileL _ => true
  | .loop _ _ _ _ _ _ => true
  | .brk => false
  | .cont => false
  | .ret _ _ => true
/-- the same for a sequence -/
def Seq.noJump : Seq → Bool
  | .nil => true
  | .cons n _ r => n.noJump && r.noJump
/-- the same for cases -/
def Brs.noJump : Brs → Bool
  | .nil => true
  | .cons _ s r => s.noJump && r.noJump
end

/-- the outcome is neither `break` nor `continue` -/
def Ctl.proper : Ctl → Bool
  | .brk => false
  | .cont => false
  | _ => true

theorem Rel.forever_proper {R : Rel} {σ σ' : St} {c : Ctl} (h : Rel.forever R σ c σ') : c.proper = true := by
  induction h with
  | step _ _ _ _ ih => exact ih
  | stop _ => rfl
  | ret _ _ _ => rfl

theorem Rel.iter_proper {b : St → Bool} {u : St → St} {R : Rel} {σ σ' : St} {c : Ctl} (h : Rel.iter b u R σ c σ') :
    c.proper = true := by
  induction h with
  | done _ => rfl
  | step _ _ _ _ _ ih => exact ih
  | stop _ _ => rfl
  | ret _ _ _ _ => rfl

mutual
theorem Node.noJump_proper (E : Env) : (n : Node) → n.noJump = true → ∀ σ c σ', n.den E σ c σ' → c.proper = true
  | .block l, _, σ, c, σ', h => by rw [Node.den] at h; rw [h.1]; rfl
  | .seq s, hj, σ, c, σ', h => by rw [Node.den] at h; exact s.noJump_proper E hj σ c σ' h
  | .ifElse b, hj, σ, c, σ', h => by rw [Node.den] at h; exact b.noJump_proper E hj σ c σ' h
  | .whileL s, _, σ, c, σ', h => by rw [Node.den] at h; exact Rel.forever_proper h
  | .loop m i a k u s, _, σ, c, σ', h => by
    rw [Node.den, Rel.upd_seq] at h; exact Rel.iter_proper h
  | .brk, hj, _, _, _, _ => by simp [Node.noJump] at hj
  | .cont, hj, _, _, _, _ => by simp [Node.noJump] at hj
  | .ret d q, _, σ, c, σ', h => by rw [Node.den] at h; rw [h.1]; rfl
theorem Seq.noJump_proper (E : Env) : (s : Seq) → s.noJump = true → ∀ σ c σ', s.den E σ c σ' → c.proper = true
  | .nil, _, σ, c, σ', h => by rw [Seq.den] at h; rw [h.1]; rfl
  | .cons n t r, hj, σ, c, σ', h => by
    simp only [Seq.noJump, Bool.and_eq_true] at hj
    rw [Seq.den, Rel.upd_seq] at h
    rcases h with ⟨σ1, _, h2⟩ | ⟨_, h1⟩
    · exact r.noJump_proper E hj.2 _ c σ' h2
    · exact n.noJump_proper E hj.1 _ c σ' h1
theorem Brs.noJump_proper (E : Env) : (b : Brs) → b.noJump = true → ∀ σ c σ', b.den E σ c σ' → c.proper = true
  | .nil, _, σ, c, σ', h => by rw [Brs.den] at h; rw [h.1]; rfl
  | .cons k s r, hj, σ, c, σ', h => by
    simp only [Brs.noJump, Bool.and_eq_true] at hj
    rw [Brs.den] at h
    simp only [Rel.ite] at h
    split at h
    · exact s.noJump_proper E hj.1 σ c σ' h
    · exact r.noJump_proper E hj.2 σ c σ' h
end

mutual
/-- every `break` is inside a nested loop -/
def Node.noBrk : Node → Bool
  | .block _ => true
  | .seq s => s.noBrk
  | .ifElse b => b.noBrk
  | .whileL _ => true
  | .loop _ _ _ _ _ _ => true
  | .brk => false
  | .cont => true
  | .ret _ _ => true
/-- the same for a sequence -/
def Seq.noBrk : Seq → Bool
  | .nil => true
  | .cons n _ r => n.noBrk && r.noBrk
/-- the same for cases -/
def Brs.noBrk : Brs → Bool
  | .nil => true
  | .cons _ s r => s.noBrk && r.noBrk
end

mutual
theorem Node.noBrk_den (E : Env) : (n : Node) → n.noBrk = true → ∀ σ σ', ¬ n.den E σ .brk σ'
  | .block l, _, σ, σ', h => by rw [Node.den] at h; exact absurd h.1 (by simp)
  | .seq s, hj, σ, σ', h => by rw [Node.den] at h; exact s.noBrk_den E hj σ σ' h
  | .ifElse b, hj, σ, σ', h => by rw [Node.den] at h; exact b.noBrk_den E hj σ σ' h
  | .whileL s, _, σ, σ', h => by rw [Node.den] at h; exact absurd (Rel.forever_proper h) (by simp [Ctl.proper])
  | .loop m i a k u s, _, σ, σ', h => by
    rw [Node.den, Rel.upd_seq] at h; exact absurd (Rel.iter_proper h) (by simp [Ctl.proper])
  | .brk, hj, _, _, _ => by simp [Node.noBrk] at hj
  | .cont, _, σ, σ', h => by rw [Node.den] at h; exact absurd h.1 (by simp)
  | .ret d q, _, σ, σ', h => by rw [Node.den] at h; exact absurd h.1 (by simp)
theorem Seq.noBrk_den (E : Env) : (s : Seq) → s.noBrk = true → ∀ σ σ', ¬ s.den E σ .brk σ'
  | .nil, _, σ, σ', h => by rw [Seq.den] at h; exact absurd h.1 (by simp)
  | .cons n t r, hj, σ, σ', h => by
    simp only [Seq.noBrk, Bool.and_eq_true] at hj
    rw [Seq.den, Rel.upd_seq] at h
    rcases h with ⟨σ1, _, h2⟩ | ⟨_, h1⟩
    · exact r.noBrk_den E hj.2 _ σ' h2
    · exact n.noBrk_den E hj.1 _ σ' h1
theorem Brs.noBrk_den (E : Env) : (b : Brs) → b.noBrk = true → ∀ σ σ', ¬ b.den E σ .brk σ'
  | .nil, _, σ, σ', h => by rw [Brs.den] at h; exact absurd h.1 (by simp)
  | .cons k s r, hj, σ, σ', h => by
    simp only [Brs.noBrk, Bool.and_eq_true] at hj
    rw [Brs.den] at h
    simp only [Rel.ite] at h
    split at h
    · exact s.noBrk_den E hj.1 σ σ' h
    · exact r.noBrk_den E hj.2 σ σ' h
end

end Docc.IR
