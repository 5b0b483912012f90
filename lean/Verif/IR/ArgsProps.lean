import Verif.IR.Args
import Verif.IR.RangesLemmas
import Verif.IR.UsersProps

/-
C85: arguments and locals of a region.
-/
namespace Docc.IR
open Docc.Sym

/-! ### specification -/

mutual
/-- the program with the region at the path replaced by an empty block -/
def Node.without : Node → List Nat → Node
  | _, [] => .block []
  | .seq s, k :: p => .seq (s.without (k :: p))
  | .ifElse b, k :: p => .ifElse (b.without (k :: p))
  | .whileL s, 0 :: p => .whileL (s.without p)
  | .loop m i a c u s, 0 :: p => .loop m i a c u (s.without p)
  | n, _ => n
/-- the same for a sequence -/
def Seq.without : Seq → List Nat → Seq
  | _, [] => .nil
  | .nil, _ :: _ => .nil
  | .cons n t r, 0 :: p => .cons (n.without p) t r
  | .cons n t r, (k + 1) :: p => .cons n t (r.without (k :: p))
/-- the same for branches -/
def Brs.without : Brs → List Nat → Brs
  | b, [] => b
  | .nil, _ :: _ => .nil
  | .cons c s r, 0 :: p => .cons c (s.without p) r
  | .cons c s r, (k + 1) :: p => .cons c s (r.without (k :: p))
end

mutual
/-- the meaning of the program when the region at the path is executed as `R` -/
def Node.denWith (E : Env) (R : Rel) : Node → List Nat → Rel
  | _, [] => R
  | .seq s, k :: p => s.denWith E R (k :: p)
  | .ifElse b, k :: p => b.denWith E R (k :: p)
  | .whileL s, 0 :: p => .forever (s.denWith E R p)
  | .loop _ i a c u s, 0 :: p => .seq (.upd fun σ => σ.setS i (σ.ev E a))
      (.iter (fun σ => σ.cond E c) (fun σ => σ.setS i (σ.ev E u)) (s.denWith E R p))
  | n, _ => n.den E
/-- the same for a sequence -/
def Seq.denWith (E : Env) (R : Rel) : Seq → List Nat → Rel
  | _, [] => R
  | .nil, _ :: _ => .upd id
  | .cons n t r, 0 :: p => .seq (n.denWith E R p) (.seq (.upd (runTrans E t)) (r.den E))
  | .cons n t r, (k + 1) :: p => .seq (n.den E) (.seq (.upd (runTrans E t)) (r.denWith E R (k :: p)))
/-- the same for branches -/
def Brs.denWith (E : Env) (R : Rel) : Brs → List Nat → Rel
  | _, [] => R
  | .nil, _ :: _ => .upd id
  | .cons c s r, 0 :: p => .ite (fun σ => σ.cond E c) (s.denWith E R p) (r.den E)
  | .cons c s r, (k + 1) :: p => .ite (fun σ => σ.cond E c) (s.den E) (r.denWith E R (k :: p))
end

/-! ### locals are private -/

theorem Node.without_isRet (n : Node) (p : List Nat) (m : Node) (h : n.regionAt p = some m) : n.isRet = false ∧ (n.without p).isRet = false := by
  cases n with
  | ret d q => cases p <;> simp [Node.regionAt] at h
  | whileL s => match p with
    | [] => exact ⟨rfl, rfl⟩
    | 0 :: p => exact ⟨rfl, rfl⟩
    | (k + 1) :: p => exact ⟨rfl, rfl⟩
  | loop q i a c u s => match p with
    | [] => exact ⟨rfl, rfl⟩
    | 0 :: p => exact ⟨rfl, rfl⟩
    | (k + 1) :: p => exact ⟨rfl, rfl⟩
  | _ => cases p <;> exact ⟨rfl, rfl⟩

theorem Brs.without_atoms : (b : Brs) → ∀ p, (b.without p).condAtoms = b.condAtoms
  | .nil, p => by cases p <;> rfl
  | .cons c s r, [] => rfl
  | .cons c s r, 0 :: p => rfl
  | .cons c s r, (k + 1) :: p => by simp only [Brs.without, Brs.condAtoms]; rw [Brs.without_atoms r (k :: p)]

mutual
theorem Node.users_split : (n : Node) → ∀ p m, n.regionAt p = some m → n.users.Perm ((n.without p).users ++ m.users)
  | .block l, p, m, h => by
    cases p with
    | nil => simp only [Node.regionAt, Option.some.injEq] at h; subst h; simp [Node.without, Node.users]
    | cons k p => simp [Node.regionAt] at h
  | .seq s, p, m, h => by
    simp only [Node.regionAt] at h
    cases p with
    | nil =>
      have : m = .seq s := by cases s <;> simpa [Seq.regionAt] using h.symm
      subst this; simp [Node.without, Node.users]
    | cons k p => simp only [Node.without, Node.users]; exact Seq.users_split s _ m h
  | .ifElse b, p, m, h => by
    simp only [Node.regionAt] at h
    cases p with
    | nil =>
      have : m = .ifElse b := by cases b <;> simpa [Brs.regionAt] using h.symm
      subst this; simp [Node.without, Node.users]
    | cons k p =>
      simp only [Node.without, Node.users]
      rw [Brs.without_atoms, List.append_assoc]
      exact (Brs.users_split b k p m h).append_left _
  | .whileL s, p, m, h => by
    match p with
    | [] => simp only [Node.regionAt, Option.some.injEq] at h; subst h; simp [Node.without, Node.users]
    | 0 :: p => simp only [Node.regionAt] at h; simp only [Node.without, Node.users]; exact Seq.users_split s p m h
    | (k + 1) :: p => simp [Node.regionAt] at h
  | .loop q i a c u s, p, m, h => by
    match p with
    | [] => simp only [Node.regionAt, Option.some.injEq] at h; subst h; simp [Node.without, Node.users]
    | 0 :: p =>
      simp only [Node.regionAt] at h
      simp only [Node.without, Node.users]
      have := Seq.users_split s p m h
      refine List.perm_iff_count.2 fun x => ?_
      have := List.perm_iff_count.1 this x
      simp only [List.count_append] at this ⊢
      omega
    | (k + 1) :: p => simp [Node.regionAt] at h
  | .brk, p, m, h => by
    cases p with
    | nil => simp only [Node.regionAt, Option.some.injEq] at h; subst h; simp [Node.without, Node.users]
    | cons k p => simp [Node.regionAt] at h
  | .cont, p, m, h => by
    cases p with
    | nil => simp only [Node.regionAt, Option.some.injEq] at h; subst h; simp [Node.without, Node.users]
    | cons k p => simp [Node.regionAt] at h
  | .ret d q, p, m, h => by
    cases p <;> simp [Node.regionAt] at h
theorem Seq.users_split : (s : Seq) → ∀ p m, s.regionAt p = some m → s.users.Perm ((s.without p).users ++ m.users)
  | .nil, p, m, h => by
    cases p with
    | nil => simp only [Seq.regionAt, Option.some.injEq] at h; subst h; simp [Seq.without, Seq.users, Node.users]
    | cons k p => simp [Seq.regionAt] at h
  | .cons n t r, [], m, h => by
    simp only [Seq.regionAt, Option.some.injEq] at h; subst h; simp only [Seq.without, Node.users]; simp [Seq.users]
  | .cons n t r, 0 :: p, m, h => by
    simp only [Seq.regionAt] at h
    obtain ⟨h1, h2⟩ := Node.without_isRet n p m h
    simp only [Seq.without, Seq.users, h1, h2]
    refine List.perm_iff_count.2 fun x => ?_
    have := List.perm_iff_count.1 (Node.users_split n p m h) x
    simp only [Bool.false_eq_true, if_false, List.count_append] at this ⊢
    omega
  | .cons n t r, (k + 1) :: p, m, h => by
    simp only [Seq.regionAt] at h
    split at h
    · cases h
    · rename_i h1
      simp only [Seq.without, Seq.users, h1]
      refine List.perm_iff_count.2 fun x => ?_
      have := List.perm_iff_count.1 (Seq.users_split r (k :: p) m h) x
      simp only [Bool.false_eq_true, if_false, List.count_append] at this ⊢
      omega
theorem Brs.users_split : (b : Brs) → ∀ k p m, b.regionAt (k :: p) = some m → b.users.Perm ((b.without (k :: p)).users ++ m.users)
  | .nil, k, p, m, h => by simp [Brs.regionAt] at h
  | .cons c s r, 0, p, m, h => by
    simp only [Brs.regionAt] at h
    simp only [Brs.without, Brs.users]
    refine List.perm_iff_count.2 fun x => ?_
    have := List.perm_iff_count.1 (Seq.users_split s p m h) x
    simp only [List.count_append] at this ⊢
    omega
  | .cons c s r, k + 1, p, m, h => by
    simp only [Brs.regionAt] at h
    simp only [Brs.without, Brs.users]
    refine List.perm_iff_count.2 fun x => ?_
    have := List.perm_iff_count.1 (Brs.users_split r k p m h) x
    simp only [List.count_append] at this ⊢
    omega
end

/-- **C85 (locals are private).** A local of a region is neither a declared argument nor an external of the program, and the program outside the
region does not use it; for all programs and regions. -/
theorem locals_private (decl : String → Bool) (s : Seq) (p : List Nat) (n : Node) (h : s.regionAt p = some n) (x : String)
    (hx : (s.argCtx decl).isLocal n x = true) : decl x = false ∧ ∀ u, (u, x) ∉ (s.without p).users := by
  rw [ArgCtx.isLocal, Bool.and_eq_true, Bool.not_eq_true', Bool.or_eq_false_iff, decide_eq_false_iff_not] at hx
  change _ ∧ decl x = false ∧ ¬ (n.users.filter (·.2 == x)).length < (s.users.filter (·.2 == x)).length at hx
  refine ⟨hx.2.1, fun u hu => ?_⟩
  have := (Seq.users_split s p n h).filter (·.2 == x)
  have := this.length_eq
  rw [List.filter_append, List.length_append] at this
  have h1 : 0 < ((s.without p).users.filter (·.2 == x)).length := List.length_pos_of_mem (List.mem_filter.2 ⟨hu, by simp⟩)
  omega

/-- Conversely a container of the region that is declared or used outside is an argument, and no container is both. -/
theorem outside_is_argument (decl : String → Bool) (s : Seq) (p : List Nat) (n : Node) (h : s.regionAt p = some n) (x : String)
    (hn : ∃ u, (u, x) ∈ n.users) : ((s.argCtx decl).isArg n x = true ↔ decl x = true ∨ ∃ u, (u, x) ∈ (s.without p).users) ∧
    (s.argCtx decl).isArg n x = !(s.argCtx decl).isLocal n x := by
  obtain ⟨v, hv⟩ := hn
  have hu : n.used x = true := by simp only [Node.used, List.any_eq_true]; exact ⟨_, hv, by simp⟩
  have := ((Seq.users_split s p n h).filter (·.2 == x)).length_eq
  rw [List.filter_append, List.length_append] at this
  refine ⟨?_, by simp [ArgCtx.isArg, ArgCtx.isLocal, hu]⟩
  rw [ArgCtx.isArg, hu, Bool.true_and, Bool.or_eq_true, decide_eq_true_iff]
  change decl x = true ∨ (n.users.filter (·.2 == x)).length < (s.users.filter (·.2 == x)).length ↔ _
  refine or_congr Iff.rfl ⟨fun hlt => ?_, fun ⟨u, hu⟩ => ?_⟩
  · have h1 : 0 < ((s.without p).users.filter (·.2 == x)).length := by omega
    obtain ⟨⟨u, y⟩, hy⟩ := List.exists_mem_of_length_pos h1
    simp only [List.mem_filter, beq_iff_eq] at hy
    exact ⟨u, hy.2 ▸ hy.1⟩
  · have h1 : 0 < ((s.without p).users.filter (·.2 == x)).length := List.length_pos_of_mem (List.mem_filter.2 ⟨hu, by simp⟩)
    omega

/-! ### the flags -/

theorem flags_fold (l : List Flags) : ∀ a : Flags, ((l.foldl Flags.merge a).explicitIn = true ↔ a.explicitIn = true ∨ ∃ f ∈ l, f.explicitIn = true) ∧
    ((l.foldl Flags.merge a).isIn = true ↔ a.isIn = true ∨ ∃ f ∈ l, f.isIn = true) ∧
    ((l.foldl Flags.merge a).isOut = true ↔ a.isOut = true ∨ ∃ f ∈ l, f.isOut = true) := by
  induction l with
  | nil => intro a; simp
  | cons f l ih =>
    intro a
    rw [List.foldl_cons]
    obtain ⟨h1, h2, h3⟩ := ih (a.merge f)
    refine ⟨h1.trans ?_, h2.trans ?_, h3.trans ?_⟩ <;> simp [Flags.merge, or_assoc]

/-- **C85 (flags).** A container is flagged as explicitly read, as input, as output of a region exactly if the region reads it, uses it, writes it. -/
theorem argument_flags (n : Node) (x : String) : ((n.flags x).explicitIn = true ↔ reads n.users x) ∧
    ((n.flags x).isIn = true ↔ ∃ u, (u, x) ∈ n.users) ∧ ((n.flags x).isOut = true ↔ writes n.users x) := by
  have h := flags_fold ((n.users.filter (·.2 == x)).map fun u => u.1.flags) {}
  simp only [Node.flags]
  refine ⟨h.1.trans ?_, h.2.1.trans ?_, h.2.2.trans ?_⟩
  · simp only [Bool.false_eq_true, false_or, List.mem_map, List.mem_filter, beq_iff_eq]
    constructor
    · rintro ⟨f, ⟨⟨u, y⟩, ⟨h1, rfl⟩, rfl⟩, h2⟩
      cases u
      · exact h1
      · cases h2
    · intro h; exact ⟨_, ⟨_, ⟨h, rfl⟩, rfl⟩, rfl⟩
  · simp only [Bool.false_eq_true, false_or, List.mem_map, List.mem_filter, beq_iff_eq]
    constructor
    · rintro ⟨f, ⟨⟨u, y⟩, ⟨h1, rfl⟩, rfl⟩, h2⟩
      exact ⟨u, h1⟩
    · rintro ⟨u, h⟩
      refine ⟨_, ⟨_, ⟨h, rfl⟩, rfl⟩, ?_⟩
      cases u <;> rfl
  · simp only [Bool.false_eq_true, false_or, List.mem_map, List.mem_filter, beq_iff_eq]
    constructor
    · rintro ⟨f, ⟨⟨u, y⟩, ⟨h1, rfl⟩, rfl⟩, h2⟩
      cases u
      · cases h2
      · exact h1
    · intro h; exact ⟨_, ⟨_, ⟨h, rfl⟩, rfl⟩, rfl⟩

theorem ArgCtx.cases (C : ArgCtx) (n : Node) {x : String} {u : Use} (h : (u, x) ∈ n.users) : C.isArg n x = true ∨ C.isLocal n x = true := by
  have hu : n.used x = true := by simp only [Node.used, List.any_eq_true]; exact ⟨_, h, by simp⟩
  simp only [ArgCtx.isArg, ArgCtx.isLocal, hu, Bool.true_and]
  cases (C.declared x || decide ((n.users.filter (·.2 == x)).length < (C.uses.filter (·.2 == x)).length)) <;> simp

theorem ArgCtx.isArg_used {C : ArgCtx} {n : Node} {x : String} (h : C.isArg n x = true) : n.used x = true := by
  simp only [ArgCtx.isArg, Bool.and_eq_true] at h; exact h.1
theorem ArgCtx.isLocal_used {C : ArgCtx} {n : Node} {x : String} (h : C.isLocal n x = true) : n.used x = true := by
  simp only [ArgCtx.isLocal, Bool.and_eq_true] at h; exact h.1
theorem Node.not_used {n : Node} {x : String} (h : n.used x = false) (u : Use) : (u, x) ∉ n.users := fun hm => by
  have : n.used x = true := by simp only [Node.used, List.any_eq_true]; exact ⟨_, hm, by simp⟩
  rw [h] at this; cases this

/-- **C85 (arguments suffice).** Every execution of a region changes only arguments flagged as outputs and locals, and depends only on arguments flagged
as explicit inputs and locals: from any memory with the same contents of these it finishes in the same way, and containers with the same contents before
have the same contents after. -/
theorem arguments_suffice (E : Env) (C : ArgCtx) (n : Node) (σ : St) (c : Ctl) (σ' : St) (h : n.den E σ c σ') :
    (∀ x, σ' x ≠ σ x → (C.isArg n x = true ∧ (n.flags x).isOut = true) ∨ C.isLocal n x = true) ∧
    ∀ τ : St, (∀ x, (C.isArg n x = true ∧ (n.flags x).explicitIn = true) ∨ C.isLocal n x = true → τ x = σ x) →
      ∃ τ', n.den E τ c τ' ∧ ∀ x, τ x = σ x → τ' x = σ' x := by
  constructor
  · intro x hx
    have hw : writes n.users x := Classical.byContradiction fun hw => hx (users_write_complete E n x hw σ c σ' h)
    rcases C.cases n hw with ha | ha
    · exact Or.inl ⟨ha, (argument_flags n x).2.2.2 hw⟩
    · exact Or.inr ha
  · intro τ hτ
    obtain ⟨τ', h1, h2, _⟩ := users_read_complete E n (fun x => τ x ≠ σ x) (fun x hx hr => hx (by
      rcases C.cases n hr with ha | ha
      · exact hτ x (Or.inl ⟨ha, (argument_flags n x).1.2 hr⟩)
      · exact hτ x (Or.inr ha))) σ τ (fun x hx => (Classical.not_not.1 hx).symm) c σ' h
    exact ⟨τ', h1, fun x hx => (h2 x (Classical.not_not.2 hx)).symm⟩

/-! ### replacing a region in a program -/

mutual
theorem Node.with_sim (E : Env) (X : String → Prop) (R : Rel) : (m : Node) → ∀ (p : List Nat) (n : Node), m.regionAt p = some n →
    (∀ x, X x → ¬ reads (m.without p).users x) → ∀ σ τ,
    (∀ ρ ρ' k ρ2, m.vis E p σ ρ → AgreeOff X ρ ρ' → n.den E ρ k ρ2 → ∃ ρ2', R ρ' k ρ2' ∧ AgreeOff X ρ2 ρ2') →
    AgreeOff X σ τ → ∀ k σ', m.den E σ k σ' → ∃ τ', m.denWith E R p τ k τ' ∧ AgreeOff X σ' τ'
  | .block l, p, n, h, hX, σ, τ, hR, hA, k, σ', hd => by
    cases p with
    | nil =>
      simp only [Node.regionAt, Option.some.injEq] at h
      subst h
      exact hR σ τ k σ' (by simp [Node.vis]) hA hd
    | cons j p => simp [Node.regionAt] at h
  | .seq s, p, n, h, hX, σ, τ, hR, hA, k, σ', hd => by
    simp only [Node.regionAt] at h
    cases p with
    | nil =>
      have : n = .seq s := by cases s <;> simpa [Seq.regionAt] using h.symm
      subst this
      exact hR σ τ k σ' (by cases s <;> simp [Node.vis, Seq.vis]) hA hd
    | cons j p =>
      rw [Node.den] at hd
      simp only [Node.denWith]
      exact Seq.with_sim E X R s (j :: p) n h (by simpa only [Node.without, Node.users] using hX) σ τ
        (fun ρ ρ' k ρ2 hv => hR ρ ρ' k ρ2 (by simpa only [Node.vis] using hv)) hA k σ' hd
  | .ifElse b, p, n, h, hX, σ, τ, hR, hA, k, σ', hd => by
    simp only [Node.regionAt] at h
    cases p with
    | nil =>
      have : n = .ifElse b := by cases b <;> simpa [Brs.regionAt] using h.symm
      subst this
      exact hR σ τ k σ' (by cases b <;> simp [Node.vis, Brs.vis]) hA hd
    | cons j p =>
      rw [Node.den] at hd
      simp only [Node.denWith]
      simp only [Node.without, Node.users, reads_append, reads_readsOf, not_or, Brs.without_atoms] at hX
      exact Brs.with_sim E X R b j p n h (fun x hx => (hX x hx).1) (fun x hx => (hX x hx).2) σ τ
        (fun ρ ρ' k ρ2 hv => hR ρ ρ' k ρ2 (by simpa only [Node.vis] using hv)) hA k σ' hd
  | .whileL s, p, n, h, hX, σ, τ, hR, hA, k, σ', hd => by
    match p with
    | [] =>
      simp only [Node.regionAt, Option.some.injEq] at h
      subst h
      exact hR σ τ k σ' (by simp [Node.vis]) hA hd
    | (j + 1) :: p => simp [Node.regionAt] at h
    | 0 :: p =>
      rw [Node.den] at hd
      simp only [Node.regionAt] at h
      simp only [Node.denWith]
      refine Rel.forever_two hd hA fun σ1 h1 τ1 k σ2 hq hr => Seq.with_sim E X R s p n h (by simpa only [Node.without, Node.users] using hX) σ1 τ1
        (fun ρ ρ' k ρ2 hv => hR ρ ρ' k ρ2 (by simp only [Node.vis]; exact ⟨σ1, h1, hv⟩)) hq k σ2 hr
  | .loop q i a c u s, p, n, h, hX, σ, τ, hR, hA, k, σ', hd => by
    match p with
    | [] =>
      simp only [Node.regionAt, Option.some.injEq] at h
      subst h
      exact hR σ τ k σ' (by simp [Node.vis]) hA hd
    | (j + 1) :: p => simp [Node.regionAt] at h
    | 0 :: p =>
      rw [Node.den] at hd
      simp only [Node.regionAt] at h
      simp only [Node.denWith]
      simp only [Node.without, Node.users, reads_append, reads_readsOf, not_or] at hX
      have ha : ∀ ρ ρ', AgreeOff X ρ ρ' → ∀ e : Expr, (∀ x ∈ e.atoms, ¬ X x) → ρ.ev E e = ρ'.ev E e := fun ρ ρ' hq e he => hq.ev E he
      have e1 : ∀ x ∈ a.atoms, ¬ X x := fun x hx hX' => (hX x hX').1.1.1.1.1 hx
      have e2 : ∀ x ∈ c.atoms, ¬ X x := fun x hx hX' => (hX x hX').1.1.1.2 hx
      have e3 : ∀ x ∈ u.atoms, ¬ X x := fun x hx hX' => (hX x hX').1.2 hx
      simp only [Rel.seq, Rel.upd] at hd ⊢
      rcases hd with ⟨σ0, ⟨_, rfl⟩, hd⟩ | ⟨hk, hn, _⟩
      · have hq0 : AgreeOff X (σ.setS i (σ.ev E a)) (τ.setS i (τ.ev E a)) := by rw [ha _ _ hA a e1]; exact hA.setS i _
        obtain ⟨τ', h1, h2⟩ := Rel.iter_two (S := s.denWith E R p) hd hq0 (fun ρ ρ' hr => hr.cond E e2)
          (fun ρ ρ' hr => by rw [ha _ _ hr u e3]; exact hr.setS i _)
          fun σ1 h1 hc τ1 k σ2 hq1 hr => Seq.with_sim E X R s p n h (fun x hx => (hX x hx).1.1.2) σ1 τ1
            (fun ρ ρ' k ρ2 hv => hR ρ ρ' k ρ2 (by simp only [Node.vis]; exact ⟨σ1, h1, hc, hv⟩)) hq1 k σ2 hr
        exact ⟨τ', Or.inl ⟨_, ⟨trivial, rfl⟩, h1⟩, h2⟩
      · exact absurd hn hk
  | .brk, p, n, h, hX, σ, τ, hR, hA, k, σ', hd => by
    cases p with
    | nil =>
      simp only [Node.regionAt, Option.some.injEq] at h
      subst h
      exact hR σ τ k σ' (by simp [Node.vis]) hA hd
    | cons j p => simp [Node.regionAt] at h
  | .cont, p, n, h, hX, σ, τ, hR, hA, k, σ', hd => by
    cases p with
    | nil =>
      simp only [Node.regionAt, Option.some.injEq] at h
      subst h
      exact hR σ τ k σ' (by simp [Node.vis]) hA hd
    | cons j p => simp [Node.regionAt] at h
  | .ret _ _, p, n, h, _, _, _, _, _, _, _, _ => by cases p <;> simp [Node.regionAt] at h
theorem Seq.with_sim (E : Env) (X : String → Prop) (R : Rel) : (s : Seq) → ∀ (p : List Nat) (n : Node), s.regionAt p = some n →
    (∀ x, X x → ¬ reads (s.without p).users x) → ∀ σ τ,
    (∀ ρ ρ' k ρ2, s.vis E p σ ρ → AgreeOff X ρ ρ' → n.den E ρ k ρ2 → ∃ ρ2', R ρ' k ρ2' ∧ AgreeOff X ρ2 ρ2') →
    AgreeOff X σ τ → ∀ k σ', s.den E σ k σ' → ∃ τ', s.denWith E R p τ k τ' ∧ AgreeOff X σ' τ'
  | .nil, p, n, h, hX, σ, τ, hR, hA, k, σ', hd => by
    cases p with
    | nil =>
      simp only [Seq.regionAt, Option.some.injEq] at h
      subst h
      exact hR σ τ k σ' (by simp [Seq.vis]) hA (by rw [Node.den]; exact hd)
    | cons j p => simp [Seq.regionAt] at h
  | .cons m t r, [], n, h, hX, σ, τ, hR, hA, k, σ', hd => by
    simp only [Seq.regionAt, Option.some.injEq] at h
    subst h
    exact hR σ τ k σ' (by simp [Seq.vis]) hA (by rw [Node.den]; exact hd)
  | .cons m t r, 0 :: p, n, h, hX, σ, τ, hR, hA, k, σ', hd => by
    simp only [Seq.regionAt] at h
    rw [Seq.den] at hd
    simp only [Seq.denWith]
    simp only [Seq.without, Seq.users, (Node.without_isRet m p n h).2, Bool.false_eq_true, if_false, reads_append, not_or] at hX
    have hn := Node.with_sim E X R m p n h (fun x hx => (hX x hx).1.1) σ τ
      (fun ρ ρ' k ρ2 hv => hR ρ ρ' k ρ2 (by simp only [Seq.vis]; exact hv)) hA
    rcases hd with ⟨σ1, h1, h2⟩ | ⟨hk, h1⟩
    · obtain ⟨τ1, a1, a2⟩ := hn _ _ h1
      obtain ⟨τ', b1, b2⟩ := Rel.seq_sim (Rel.upd_sim fun σ τ hA => runTrans_agree E X t (fun x hx => (hX x hx).1.2) σ τ hA)
        (r.agree_sim E X fun x hx => (hX x hx).2) σ1 τ1 k σ' a2 h2
      exact ⟨τ', Or.inl ⟨τ1, a1, b1⟩, b2⟩
    · obtain ⟨τ1, a1, a2⟩ := hn _ _ h1
      exact ⟨τ1, Or.inr ⟨hk, a1⟩, a2⟩
  | .cons m t r, (j + 1) :: p, n, h, hX, σ, τ, hR, hA, k, σ', hd => by
    simp only [Seq.regionAt] at h
    split at h
    · cases h
    · rename_i hm
      rw [Seq.den] at hd
      simp only [Seq.denWith]
      simp only [Seq.without, Seq.users, hm, Bool.false_eq_true, if_false, reads_append, not_or] at hX
      have hn := m.agree_sim E X (fun x hx => (hX x hx).1.1) σ τ
      rcases hd with ⟨σ1, h1, h2⟩ | ⟨hk, h1⟩
      · obtain ⟨τ1, a1, a2⟩ := hn _ _ hA h1
        simp only [Rel.seq, Rel.upd] at h2
        rcases h2 with ⟨σ2, ⟨_, rfl⟩, h3⟩ | ⟨hk, hn', _⟩
        · obtain ⟨τ', b1, b2⟩ := Seq.with_sim E X R r (j :: p) n h (fun x hx => (hX x hx).2) _ (runTrans E t τ1)
            (fun ρ ρ' k ρ2 hv => hR ρ ρ' k ρ2 (by simp only [Seq.vis]; exact ⟨σ1, h1, hv⟩))
            (runTrans_agree E X t (fun x hx => (hX x hx).1.2) σ1 τ1 a2) k σ' h3
          exact ⟨τ', Or.inl ⟨τ1, a1, Or.inl ⟨_, ⟨rfl, rfl⟩, b1⟩⟩, b2⟩
        · exact absurd hn' hk
      · obtain ⟨τ1, a1, a2⟩ := hn _ _ hA h1
        exact ⟨τ1, Or.inr ⟨hk, a1⟩, a2⟩
theorem Brs.with_sim (E : Env) (X : String → Prop) (R : Rel) : (b : Brs) → ∀ (j : Nat) (p : List Nat) (n : Node), b.regionAt (j :: p) = some n →
    (∀ x, X x → x ∉ b.condAtoms) → (∀ x, X x → ¬ reads (b.without (j :: p)).users x) → ∀ σ τ,
    (∀ ρ ρ' k ρ2, b.vis E (j :: p) σ ρ → AgreeOff X ρ ρ' → n.den E ρ k ρ2 → ∃ ρ2', R ρ' k ρ2' ∧ AgreeOff X ρ2 ρ2') →
    AgreeOff X σ τ → ∀ k σ', b.den E σ k σ' → ∃ τ', b.denWith E R (j :: p) τ k τ' ∧ AgreeOff X σ' τ'
  | .nil, j, p, n, h, _, _, _, _, _, _, _, _, _ => by simp [Brs.regionAt] at h
  | .cons c s r, 0, p, n, h, hc, hX, σ, τ, hR, hA, k, σ', hd => by
    simp only [Brs.regionAt] at h
    rw [Brs.den] at hd
    simp only [Brs.denWith]
    simp only [Brs.without, Brs.users, reads_append, not_or] at hX
    simp only [Brs.condAtoms, List.mem_append, not_or] at hc
    have e : τ.cond E c = σ.cond E c := (hA.cond E fun x hx hX' => (hc x hX').1 hx).symm
    simp only [Rel.ite, e] at hd ⊢
    split at hd
    · rename_i ht
      simp only [ht, if_true]
      exact Seq.with_sim E X R s p n h (fun x hx => (hX x hx).1) σ τ
        (fun ρ ρ' k ρ2 hv => hR ρ ρ' k ρ2 (by simp only [Brs.vis]; exact ⟨ht, hv⟩)) hA k σ' hd
    · rename_i ht
      simp only [ht]
      exact r.agree_sim E X (fun x hx => (hc x hx).2) (fun x hx => (hX x hx).2) σ τ k σ' hA hd
  | .cons c s r, j + 1, p, n, h, hc, hX, σ, τ, hR, hA, k, σ', hd => by
    simp only [Brs.regionAt] at h
    rw [Brs.den] at hd
    simp only [Brs.denWith]
    simp only [Brs.without, Brs.users, reads_append, not_or] at hX
    simp only [Brs.condAtoms, List.mem_append, not_or] at hc
    have e : τ.cond E c = σ.cond E c := (hA.cond E fun x hx hX' => (hc x hX').1 hx).symm
    simp only [Rel.ite, e] at hd ⊢
    split at hd
    · rename_i ht
      simp only [ht, if_true]
      exact s.agree_sim E X (fun x hx => (hX x hx).1) σ τ k σ' hA hd
    · rename_i ht
      simp only [ht]
      exact Brs.with_sim E X R r j p n h (fun x hx => (hc x hx).2) (fun x hx => (hX x hx).2) σ τ
        (fun ρ ρ' k ρ2 hv => hR ρ ρ' k ρ2 (by simp only [Brs.vis]; exact ⟨by simpa using ht, hv⟩)) hA k σ' hd
end

/-! ### outlining -/

/-- The region as a function of its own: it is called with the contents of the arguments, everything else has the contents `junk`, and the contents of
the arguments flagged as outputs are handed back. -/
def Node.outlined (E : Env) (C : ArgCtx) (n : Node) (junk : St) : Rel := fun σ c σ' =>
  ∃ κ', n.den E (fun x => if C.isArg n x then σ x else junk x) c κ' ∧ σ' = fun x => if C.isArg n x && (n.flags x).isOut then κ' x else σ x

/-- the initial contents of the locals do not influence the execution of the region that starts in `ρ` -/
def Node.LocalsDead (E : Env) (C : ArgCtx) (n : Node) (ρ : St) : Prop :=
  ∀ k ρ', n.den E ρ k ρ' → ∀ κ : St, (∀ x, ¬ C.isLocal n x = true → κ x = ρ x) →
    ∃ κ', n.den E κ k κ' ∧ ∀ x, ¬ C.isLocal n x = true → κ' x = ρ' x

/-- one execution of the region -/
theorem outline_region {E : Env} {C : ArgCtx} {n : Node} {junk ρ ρ' ρ2 : St} {k : Ctl} (hL : n.LocalsDead E C ρ)
    (hA : AgreeOff (fun x => C.isLocal n x = true) ρ ρ') (hd : n.den E ρ k ρ2) :
    ∃ ρ2', n.outlined E C junk ρ' k ρ2' ∧ AgreeOff (fun x => C.isLocal n x = true) ρ2 ρ2' := by
  obtain ⟨κ1, h1, h2⟩ := hL k ρ2 hd (fun x => if C.isLocal n x then junk x else ρ x) (fun x hx => by simp [hx])
  obtain ⟨κ2, h3, h4, _⟩ := users_read_complete E n (fun x => n.used x = false) (fun x hx hr => Node.not_used hx _ hr)
    (fun x => if C.isLocal n x then junk x else ρ x) (fun x => if C.isArg n x then ρ' x else junk x) (fun x hx => by
      have hx : n.used x = true := by simpa using hx
      simp only [Node.used, List.any_eq_true] at hx
      obtain ⟨⟨u, y⟩, hu, e⟩ := hx
      have e : y = x := by simpa using e
      subst e
      have hc : C.isArg n y = !C.isLocal n y := by simp only [ArgCtx.isArg, ArgCtx.isLocal, show n.used y = true from by
        simp only [Node.used, List.any_eq_true]; exact ⟨_, hu, by simp⟩, Bool.true_and, Bool.not_not]
      simp only [hc]
      cases hl : C.isLocal n y
      · simp only [Bool.not_false, if_true]; exact hA y (by simp [hl])
      · simp) k κ1 h1
  refine ⟨_, ⟨κ2, h3, rfl⟩, fun x hx => ?_⟩
  have hx' : ¬ C.isLocal n x = true := hx
  by_cases ho : (C.isArg n x && (n.flags x).isOut) = true
  · simp only [ho, if_true]
    rw [Bool.and_eq_true] at ho
    rw [← h4 x (by simp [ArgCtx.isArg_used ho.1]), h2 x hx']
  · simp only [ho]
    have hw : ¬ writes n.users x := fun hw => ho (by
      rw [Bool.and_eq_true]
      exact ⟨(C.cases n hw).resolve_right hx', (argument_flags n x).2.2.2 hw⟩)
    rw [users_write_complete E n x hw ρ k ρ2 hd]
    exact hA x hx

mutual
theorem Node.denWith_det (E : Env) {R : Rel} (hR : Rel.Det R) : (n : Node) → ∀ p, Rel.Det (n.denWith E R p)
  | .block _, p => by cases p with
    | nil => exact hR
    | cons _ _ => simp only [Node.denWith]; exact Node.den_det E _
  | .seq s, p => by cases p with
    | nil => exact hR
    | cons k p => simp only [Node.denWith]; exact s.denWith_det E hR (k :: p)
  | .ifElse b, p => by cases p with
    | nil => exact hR
    | cons k p => simp only [Node.denWith]; exact b.denWith_det E hR (k :: p)
  | .whileL s, p => by
    match p with
    | [] => exact hR
    | 0 :: p => simp only [Node.denWith]; exact Rel.forever_det (s.denWith_det E hR p)
    | (k + 1) :: p => simp only [Node.denWith]; exact Node.den_det E _
  | .loop q i a c u s, p => by
    match p with
    | [] => exact hR
    | 0 :: p => simp only [Node.denWith]; exact Rel.seq_det (Rel.upd_det _) (Rel.iter_det (s.denWith_det E hR p))
    | (k + 1) :: p => simp only [Node.denWith]; exact Node.den_det E _
  | .brk, p => by cases p with
    | nil => exact hR
    | cons _ _ => simp only [Node.denWith]; exact Node.den_det E _
  | .cont, p => by cases p with
    | nil => exact hR
    | cons _ _ => simp only [Node.denWith]; exact Node.den_det E _
  | .ret _ _, p => by cases p with
    | nil => exact hR
    | cons _ _ => simp only [Node.denWith]; exact Node.den_det E _
theorem Seq.denWith_det (E : Env) {R : Rel} (hR : Rel.Det R) : (s : Seq) → ∀ p, Rel.Det (s.denWith E R p)
  | .nil, p => by cases p with
    | nil => exact hR
    | cons _ _ => simp only [Seq.denWith]; exact Rel.upd_det _
  | .cons n t r, p => by
    match p with
    | [] => exact hR
    | 0 :: p => simp only [Seq.denWith]; exact Rel.seq_det (n.denWith_det E hR p) (Rel.seq_det (Rel.upd_det _) (r.den_det E))
    | (k + 1) :: p => simp only [Seq.denWith]; exact Rel.seq_det (n.den_det E) (Rel.seq_det (Rel.upd_det _) (r.denWith_det E hR (k :: p)))
theorem Brs.denWith_det (E : Env) {R : Rel} (hR : Rel.Det R) : (b : Brs) → ∀ p, Rel.Det (b.denWith E R p)
  | .nil, p => by cases p with
    | nil => exact hR
    | cons _ _ => simp only [Brs.denWith]; exact Rel.upd_det _
  | .cons c s r, p => by
    match p with
    | [] => exact hR
    | 0 :: p => simp only [Brs.denWith]; exact Rel.ite_det (s.denWith_det E hR p) (r.den_det E)
    | (k + 1) :: p => simp only [Brs.denWith]; exact Rel.ite_det (s.den_det E) (r.denWith_det E hR (k :: p))
end

theorem Node.outlined_det (E : Env) (C : ArgCtx) (n : Node) (junk : St) : Rel.Det (n.outlined E C junk) := by
  rintro σ c1 σ1 c2 σ2 ⟨κ1, h1, rfl⟩ ⟨κ2, h2, rfl⟩
  obtain ⟨e1, e2⟩ := n.den_det E _ _ _ _ _ h1 h2
  exact ⟨e1, by rw [e2]⟩

/-- **C85 (partial, outlining).** Turning a region of a program into a function that receives the contents of the arguments only and hands back the
contents of the outputs only, as the kernels, captured and instrumented regions are, changes neither the outcome of the program nor the final contents
of any container but the locals of the region, provided that in no execution of the region the contents its locals have at entry matter.  Missing: the
analysis classifies containers as locals whose contents survive from one execution of the region to the next (`ArgsViol`). -/
theorem outline_partial (E : Env) (decl : String → Bool) (s : Seq) (p : List Nat) (n : Node) (h : s.regionAt p = some n) (junk σ : St)
    (hL : ∀ ρ, s.vis E p σ ρ → n.LocalsDead E (s.argCtx decl) ρ) (k : Ctl) (σ' : St) (hd : s.den E σ k σ') :
    (∃ τ', s.denWith E (n.outlined E (s.argCtx decl) junk) p σ k τ') ∧
    ∀ k' τ', s.denWith E (n.outlined E (s.argCtx decl) junk) p σ k' τ' → k' = k ∧ ∀ x, ¬ (s.argCtx decl).isLocal n x = true → τ' x = σ' x := by
  obtain ⟨τ', h1, h2⟩ := Seq.with_sim E (fun x => (s.argCtx decl).isLocal n x = true) (n.outlined E (s.argCtx decl) junk) s p n h
    (fun x hx => (locals_private decl s p n h x hx).2 _) σ σ
    (fun ρ ρ' k ρ2 hv hA hr => outline_region (hL ρ hv) hA hr) (fun _ _ => rfl) k σ' hd
  refine ⟨⟨τ', h1⟩, fun k2 τ2 h3 => ?_⟩
  obtain ⟨rfl, rfl⟩ := s.denWith_det E (n.outlined_det E _ junk) p _ _ _ _ _ h1 h3
  exact ⟨rfl, fun x hx => (h2 x hx).symm⟩

end Docc.IR
