import Verif.IR.AllocMain

/-! C95: AllocationManagement keeps what a function computes: the theorems. -/
namespace Docc.IR
open Docc.Sym

/-- **C95.** Managing an allocation.  For every function, with whatever managed containers it has already (not `A`), and every execution: the function
with the allocation of `A` at its entry ends as the original does, by the same return or at the end, in the same state; only where the original
returns before it reaches the allocation, `A`, which it has not touched then, is different: it holds a block the original does not allocate.
Missing: sizes whose symbols are assigned before the allocation (false, see `allocation_size_changes`), For loops without symbol in the condition or with
break or continue (the dominance analysis is wrong there). -/
theorem allocation_managed_partial {E : Env} {C : Brs → Bool} (hC : CompleteSound E C) {args : List String} {z : Site} {op : String} {size : List String}
    {A : String} (ha : AllocAccepted C args z op size A) (hf : z.whole.forsOk = true)
    (hs : ∀ x ∈ size, ¬ writes z.pre.users x ∧ ¬ writes (z.l1.flatMap Stmt.users) x)
    {p : MProg} (hp : p.body = z.whole) (hx : Without A (p.exit.flatMap Stmt.users)) (σ : St) (c : Ctl) :
    (∀ σ', p.den E σ c σ' → ∃ τ', (p.alloc z).den E σ c τ' ∧
      (τ' = σ' ∨ (c ≠ .normal ∧ σ' A = runBlock E p.entry σ A ∧ τ' = σ'.put A (z.m.run E (runBlock E p.entry σ) A)))) ∧
    (∀ τ', (p.alloc z).den E σ c τ' → ∃ σ', p.den E σ c σ' ∧
      (τ' = σ' ∨ (c ≠ .normal ∧ σ' A = runBlock E p.entry σ A ∧ τ' = σ'.put A (z.m.run E (runBlock E p.entry σ) A)))) := by
  obtain ⟨h1, h2⟩ := ha.avoids hC hf
  obtain ⟨h3, h4⟩ := alloc_core E ha.node h1 h2 hs (runBlock E p.entry σ) c
  have hrel : ∀ σ' τ', z.Entry E A (runBlock E p.entry σ) c σ' τ' → runBlock E p.exit τ' = runBlock E p.exit σ' ∨ (c ≠ .normal ∧
      runBlock E p.exit σ' A = runBlock E p.entry σ A ∧ runBlock E p.exit τ' = (runBlock E p.exit σ').put A (z.m.run E (runBlock E p.entry σ) A)) := by
    rintro σ' τ' (⟨h, _⟩ | ⟨a1, _, a3, rfl⟩)
    · exact Or.inl (by rw [h])
    · exact Or.inr ⟨a1, ((blind_block E hx σ' fun _ => 0).2).trans a3, (blind_block E hx σ' _).1⟩
  constructor
  · rintro _ ⟨σ', hd, rfl⟩
    rw [hp] at hd
    obtain ⟨τ', a1, a2⟩ := h3 σ' hd
    refine ⟨_, ⟨τ', ?_, rfl⟩, hrel _ _ a2⟩
    simp only [MProg.alloc, block_append]; exact a1
  · rintro _ ⟨τ', hd, rfl⟩
    simp only [MProg.alloc, block_append] at hd
    obtain ⟨σ', a1, a2⟩ := h4 τ' hd
    exact ⟨_, ⟨σ', by rw [hp]; exact a1, rfl⟩, hrel _ _ a2⟩

/-- **C95.** If nothing before the allocation returns, managing it changes nothing at all. -/
theorem allocation_managed_same_partial {E : Env} {C : Brs → Bool} (hC : CompleteSound E C) {args : List String} {z : Site} {op : String}
    {size : List String} {A : String} (ha : AllocAccepted C args z op size A) (hf : z.whole.forsOk = true)
    (hs : ∀ x ∈ size, ¬ writes z.pre.users x ∧ ¬ writes (z.l1.flatMap Stmt.users) x) (hn : ∀ σ c σ', z.pre.den E σ c σ' → c = .normal)
    {p : MProg} (hp : p.body = z.whole) : (p.alloc z).den E = p.den E := by
  obtain ⟨h1, h2⟩ := ha.avoids hC hf
  have hrel : ∀ σ c σ' τ', z.Entry E A σ c σ' τ' → τ' = σ' := by
    rintro σ c σ' τ' (⟨h, _⟩ | ⟨a1, a2, _, _⟩)
    · exact h
    · exact absurd (hn _ _ _ a2) a1
  funext σ c σ''
  apply propext
  obtain ⟨h3, h4⟩ := alloc_core E ha.node h1 h2 hs (runBlock E p.entry σ) c
  constructor
  · rintro ⟨τ', hd, rfl⟩
    simp only [MProg.alloc, block_append] at hd
    obtain ⟨σ', a1, a2⟩ := h4 τ' hd
    exact ⟨σ', by rw [hp]; exact a1, by rw [hrel _ _ _ _ a2]; rfl⟩
  · rintro ⟨σ', hd, rfl⟩
    rw [hp] at hd
    obtain ⟨τ', a1, a2⟩ := h3 σ' hd
    refine ⟨τ', ?_, by rw [hrel _ _ _ _ a2]; rfl⟩
    simp only [MProg.alloc, block_append]; exact a1

/-- **C95.** Managing a deallocation.  Every execution ends in the same way and in the same state, except where the original returns before the
deallocation: the managed function then also frees `A`; and the original has not touched `A` in that execution, so it is the value `A` had at the
entry that is freed.  Missing: programs with break or continue or with loops whose condition has no symbol. -/
theorem deallocation_managed_partial {E : Env} {C : Brs → Bool} (hC : CompleteSound E C) {z : Site} {op : String} {A : String}
    (ha : DeallocAccepted C z op A) (hf : z.whole.flowOk = true) {p : MProg} (hp : p.body = z.whole) (σ : St) (c : Ctl) :
    (∀ σ'', p.den E σ c σ'' → ∃ τ'', (p.dealloc z).den E σ c τ'' ∧ (τ'' = σ'' ∨ (c ≠ .normal ∧ ∃ σ', σ'' = runBlock E p.exit σ' ∧
      σ' A = runBlock E p.entry σ A ∧ τ'' = runBlock E p.exit (z.m.run E σ')))) ∧
    (∀ τ'', (p.dealloc z).den E σ c τ'' → ∃ σ'', p.den E σ c σ'' ∧ (τ'' = σ'' ∨ (c ≠ .normal ∧ ∃ σ', σ'' = runBlock E p.exit σ' ∧
      σ' A = runBlock E p.entry σ A ∧ τ'' = runBlock E p.exit (z.m.run E σ')))) := by
  obtain ⟨h3, h4⟩ := dealloc_core E (z := z) ha.node (fun σ σ1 h => ha.rest hC.nonEmpty (Seq.noRet_of_normal E _ h)) (runBlock E p.entry σ) c
  have hrel : ∀ σ' τ', z.Exit E (runBlock E p.entry σ) c σ' τ' → runBlock E p.exit (z.m.run E τ') = runBlock E p.exit σ' ∨ (c ≠ .normal ∧
      ∃ σ1, runBlock E p.exit σ' = runBlock E p.exit σ1 ∧ σ1 A = runBlock E p.entry σ A ∧ runBlock E p.exit (z.m.run E τ') = runBlock E p.exit (z.m.run E σ1)) := by
    rintro σ' τ' (⟨h, _⟩ | ⟨a1, a2, rfl⟩)
    · exact Or.inl (by rw [h])
    · refine Or.inr ⟨a1, σ', rfl, ?_, rfl⟩
      rw [← Seq.tr_rel E z.pre 2] at a2
      obtain ⟨l, hl⟩ := a2
      exact (Seq.insens E A z.pre 2 _ l _ hl (ha.ret hC hf hl a1) fun _ => 0).2 _ rfl
  constructor
  · rintro _ ⟨σ', hd, rfl⟩
    rw [hp] at hd
    obtain ⟨τ', a1, a2⟩ := h3 σ' hd
    exact ⟨_, ⟨τ', a1, rfl⟩, hrel _ _ a2⟩
  · rintro _ ⟨τ', hd, rfl⟩
    obtain ⟨σ', a1, a2⟩ := h4 τ' hd
    exact ⟨_, ⟨σ', by rw [hp]; exact a1, rfl⟩, hrel _ _ a2⟩

/-- a function that allocates in one block of its root and frees in a later one -/
structure Owned where
  pre : Seq
  l1 : List Stmt
  m : Stmt
  l2 : List Stmt
  t : Trans
  mid : Seq
  l3 : List Stmt
  f : Stmt
  l4 : List Stmt
  t' : Trans
  post : Seq

/-- the place of the allocation -/
def Owned.allocSite (o : Owned) : Site := ⟨o.pre, o.l1, o.m, o.l2, o.t, o.mid ++ .cons (.block (o.l3 ++ o.f :: o.l4)) o.t' o.post⟩
/-- the place of the deallocation -/
def Owned.freeSite (o : Owned) : Site := ⟨o.pre ++ .cons (.block (o.l1 ++ o.m :: o.l2)) o.t o.mid, o.l3, o.f, o.l4, o.t', o.post⟩
/-- the function -/
def Owned.body (o : Owned) : Seq :=
  o.pre ++ .cons (.block (o.l1 ++ o.m :: o.l2)) o.t (o.mid ++ .cons (.block (o.l3 ++ o.f :: o.l4)) o.t' o.post)
/-- allocation_management.cpp:204-221 `accept`, on both nodes: the function with `A` managed -/
def Owned.managed (o : Owned) : MProg :=
  ⟨[o.m], o.pre ++ .cons (.block (o.l1 ++ o.l2)) o.t (o.mid ++ .cons (.block (o.l3 ++ o.l4)) o.t' o.post), [o.f]⟩

theorem Seq.append_assoc' : (a b c : Seq) → a ++ b ++ c = a ++ (b ++ c)
  | .nil, b, c => by rw [Seq.nil_append, Seq.nil_append]
  | .cons n t r, b, c => by rw [Seq.cons_append, Seq.cons_append, Seq.cons_append, Seq.append_assoc' r b c]

theorem Owned.allocSite_whole (o : Owned) : o.allocSite.whole = o.body := rfl
theorem Owned.freeSite_whole (o : Owned) : o.freeSite.whole = o.body := by
  simp only [Site.whole, Owned.freeSite, Owned.body, Seq.append_assoc', Seq.cons_append]

/-- **C95.** The container is allocated at the entry and freed at every exit: every execution ends in the same way and in the same state as the original; if the
original returns before it allocates, the managed function has allocated and freed a block in addition, and nothing else is different. -/
theorem owned_managed_partial {E : Env} {C : Brs → Bool} (hC : CompleteSound E C) {args : List String} {o : Owned} {op op' : String} {size : List String}
    {A : String} (ha : AllocAccepted C args o.allocSite op size A) (hd : DeallocAccepted C o.freeSite op' A) (hf : o.body.flowOk = true)
    (hs : ∀ x ∈ size, ¬ writes o.pre.users x ∧ ¬ writes (o.l1.flatMap Stmt.users) x) (σ : St) (c : Ctl) :
    (∀ σ', o.body.den E σ c σ' → ∃ τ', o.managed.den E σ c τ' ∧
      (τ' = σ' ∨ (c ≠ .normal ∧ σ' A = σ A ∧ τ' = σ'.put A (o.f.run E (o.m.run E σ) A)))) ∧
    (∀ τ', o.managed.den E σ c τ' → ∃ σ', o.body.den E σ c σ' ∧
      (τ' = σ' ∨ (c ≠ .normal ∧ σ' A = σ A ∧ τ' = σ'.put A (o.f.run E (o.m.run E σ) A)))) := by
  have hfm : o.f = .lib op' [A] [A] := hd.node
  obtain ⟨h1, h2⟩ := ha.avoids hC (o.body.flowOk_forsOk hf)
  -- the function without the deallocation
  have hcl : o.freeSite.cleared = (⟨o.pre, o.l1, o.m, o.l2, o.t, o.mid ++ .cons (.block (o.l3 ++ o.l4)) o.t' o.post⟩ : Site).whole := by
    simp only [Site.whole, Site.cleared, Owned.freeSite, Seq.append_assoc', Seq.cons_append]
  obtain ⟨f1, f2⟩ := dealloc_core E (z := o.freeSite) hd.node (fun σ σ1 h => hd.rest hC.nonEmpty (Seq.noRet_of_normal E _ h)) σ c
  obtain ⟨a1, a2⟩ := alloc_core E (z := ⟨o.pre, o.l1, o.m, o.l2, o.t, o.mid ++ .cons (.block (o.l3 ++ o.l4)) o.t' o.post⟩) ha.node h1 h2 hs σ c
  rw [o.freeSite_whole, hcl] at f1
  rw [o.freeSite_whole, hcl] at f2
  have hrel : ∀ σ' τ' υ', o.freeSite.Exit E σ c σ' τ' →
      (⟨o.pre, o.l1, o.m, o.l2, o.t, o.mid ++ .cons (.block (o.l3 ++ o.l4)) o.t' o.post⟩ : Site).Entry E A σ c τ' υ' →
      (o.f.run E υ' = σ' ∨ (c ≠ .normal ∧ σ' A = σ A ∧ o.f.run E υ' = σ'.put A (o.f.run E (o.m.run E σ) A))) := by
    rintro σ' τ' υ' (⟨e1, σ1, e2⟩ | ⟨e1, e2, rfl⟩) (⟨rfl, σ2, g2⟩ | ⟨g1, g2, g3, rfl⟩)
    · exact Or.inl e1.symm
    · -- the original passed the deallocation, so it did not leave before the allocation
      exfalso
      dsimp only [Owned.freeSite] at e2
      rw [Seq.den_append] at e2
      rcases e2 with ⟨σ3, e3, _⟩ | ⟨e3, _⟩
      · exact g1 (Seq.den_det E _ _ _ _ _ _ e3 g2).1.symm
      · exact e3 rfl
    · -- the original passed the allocation, which is a use of `A`: the deallocation follows
      exfalso
      dsimp only [Owned.freeSite] at e2
      rw [← Seq.tr_rel E _ 2] at e2
      obtain ⟨l, hl⟩ := e2
      have hno := hd.ret hC (by rw [o.freeSite_whole]; exact hf) hl e1
      have g2 : o.pre.den E σ .normal σ2 := g2
      rw [Seq.tr_append] at hl
      rcases hl with ⟨l1, l2, σ3, _, h4, rfl⟩ | ⟨h3, _⟩
      · rw [Seq.tr, Node.tr] at h4
        rcases h4 with ⟨m1, m2, σ4, h5 | h5, _, rfl⟩ | ⟨h5, h6⟩
        · have : Without A ((o.l1 ++ o.m :: o.l2).flatMap Stmt.users) := by
            refine evs_without (k := 2 + o.pre.kn + 2) fun v hv => hno v ?_
            rw [h5.1]; simp only [List.mem_append]; exact Or.inr (Or.inl hv)
          refine this (.write, A) ?_ rfl
          have hm : o.m = .lib op size [A] := ha.node
          rw [hm]; simp [Stmt.users]
        · cases h5.2
        · rcases h5 with h5 | h5
          · exact h6 _ h5.2
          · cases h5.2
      · rw [← Seq.tr_rel E _ 2] at g2
        obtain ⟨x, g3⟩ : ∃ x, o.pre.den E σ c x := ⟨_, by rw [← Seq.tr_rel E _ 2]; exact ⟨l, h3⟩⟩
        rw [Seq.tr_rel] at g2
        exact e1 (Seq.den_det E _ _ _ _ _ _ g3 g2).1
    · refine Or.inr ⟨e1, g3, ?_⟩
      rw [hfm, lib_put, lib_put]
      simp only [St.put_put, List.map_cons, List.map_nil, St.put_same]
  constructor
  · intro σ' h
    obtain ⟨τ', b1, b2⟩ := f1 σ' h
    obtain ⟨υ', b3, b4⟩ := a1 τ' b1
    exact ⟨_, ⟨υ', b3, rfl⟩, hrel _ _ _ b2 b4⟩
  · rintro _ ⟨υ', b3, rfl⟩
    obtain ⟨τ', b1, b4⟩ := a2 υ' b3
    obtain ⟨σ', b5, b2⟩ := f2 τ' b1
    exact ⟨σ', b5, hrel _ _ _ b2 b4⟩

end Docc.IR
