import Verif.IR.DeadRef
import Verif.IR.Replace

/-
C90: removing dead references preserves the program.
-/
namespace Docc.IR
open Docc.Sym

theorem Stmt.move_run (E : Env) {s : Stmt} (h : s.isMove = true) (σ : St) : ∃ v, s.run E σ = σ.setS s.target v := by
  unfold Stmt.isMove at h
  split at h
  · exact ⟨_, rfl⟩
  · cases h

section
variable (E : Env) (d : String → Bool)

/-- dropping moves of unread containers -/
theorem AgreeS.dropMoves (l : List Stmt) (h : ∀ x, d x = true → ¬ reads (l.flatMap Stmt.users) x) {σ τ : St} (hA : AgreeS (fun x => d x = true) σ τ) :
    AgreeS (fun x => d x = true) (IR.runBlock E l σ) (IR.runBlock E (l.filter fun s => !(s.isMove && d s.target)) τ) := by
  unfold IR.runBlock
  induction l generalizing σ τ with
  | nil => exact hA
  | cons s r ih =>
    simp only [List.flatMap_cons, reads_append, not_or] at h
    rw [List.filter_cons]
    split
    · exact ih (fun x hx => (h x hx).2) (AgreeS.runStmt E s (fun x hx => (h x hx).1) hA)
    · rename_i hs
      simp only [Bool.not_eq_true', Bool.not_eq_false, Bool.and_eq_true] at hs
      obtain ⟨v, hv⟩ := Stmt.move_run E hs.1 σ
      rw [List.foldl_cons, hv]
      exact ih (fun x hx => (h x hx).2) (hA.setS_left hs.2 v)

mutual
theorem Node.dropMoves_bis : (n : Node) → (∀ x, d x = true → ¬ reads n.users x) → (∀ x ∈ n.stores, d x = false) →
    Rel.bis (AgreeS fun x => d x = true) (n.den E) ((n.dropMoves d).den E)
  | .block l, h, _ => by
    rw [Node.dropMoves, Node.den, Node.den]
    exact Rel.upd_bis fun σ τ hA => AgreeS.dropMoves E d l h hA
  | .seq s, h, w => by rw [Node.dropMoves, Node.den, Node.den]; exact s.dropMoves_bis h w
  | .ifElse b, h, w => by
    rw [Node.dropMoves, Node.den, Node.den]
    refine b.dropMoves_bis (fun x hx hm => ?_) (fun x hx hm => ?_) w <;> apply h x hx <;>
      rw [Node.users, reads_append, reads_readsOf]
    · exact Or.inl hm
    · exact Or.inr hm
  | .whileL s, h, w => by rw [Node.dropMoves, Node.den, Node.den]; exact Rel.forever_bis (s.dropMoves_bis h w)
  | .loop m i a k u s, h, w => by
    simp only [Node.users, reads_append, reads_readsOf, not_or] at h
    simp only [Node.stores, List.mem_cons] at w
    have hi : ¬ d i = true := by rw [w i (Or.inl rfl)]; decide
    rw [Node.dropMoves]
    have hs := s.dropMoves_bis (fun x hx => (h x hx).1.1.2) (fun x hx => w x (Or.inr hx))
    have hX : (fun x => d x = true ∧ (x ≠ i ∨ False)) = fun x => d x = true := by
      funext x
      exact propext ⟨fun q => q.1, fun q => ⟨q, Or.inl fun e => hi (e ▸ q)⟩⟩
    refine loop_bisS E (fun x => d x = true) m m i a k u s _ False False.elim False.elim (fun x hx => (h x hx).1.1.1.1.1)
      (fun x hx _ => (h x hx).1.1.1.2) (fun x hx _ => (h x hx).1.2) ?_
    rw [hX]
    exact hs
  | .brk, _, _ => by rw [Node.dropMoves, Node.den]; exact Rel.exit_bis _ _
  | .cont, _, _ => by rw [Node.dropMoves, Node.den]; exact Rel.exit_bis _ _
  | .ret _ _, _, _ => by rw [Node.dropMoves, Node.den]; exact Rel.exit_bis _ _
theorem Seq.dropMoves_bis : (s : Seq) → (∀ x, d x = true → ¬ reads s.users x) → (∀ x ∈ s.stores, d x = false) →
    Rel.bis (AgreeS fun x => d x = true) (s.den E) ((s.dropMoves d).den E)
  | .nil, _, _ => by rw [Seq.dropMoves, Seq.den]; exact Rel.upd_bis fun _ _ h => h
  | .cons n t r, h, w => by
    rw [Seq.dropMoves]
    by_cases hr : n.isRet = true
    · rw [if_pos hr]
      cases n <;> simp [Node.isRet] at hr
      rw [Seq.den, Node.den, Rel.exit_seq _ (by simp)]; exact Rel.exit_bis _ _
    · rw [if_neg hr, Seq.den, Seq.den]
      simp only [Seq.users, hr, Bool.false_eq_true, if_false, reads_append, not_or] at h
      simp only [Seq.stores, hr, Bool.false_eq_true, if_false, List.mem_append] at w
      exact Rel.seq_bis (n.dropMoves_bis (fun x hx => (h x hx).1.1) fun x hx => w x (Or.inl (Or.inl hx)))
        (Rel.seq_bis (Rel.upd_bis fun σ τ hA => AgreeS.runTrans E t (fun x hx => (h x hx).1.2) hA)
          (r.dropMoves_bis (fun x hx => (h x hx).2) fun x hx => w x (Or.inr hx)))
theorem Brs.dropMoves_bis : (b : Brs) → (∀ x, d x = true → x ∉ b.condAtoms) → (∀ x, d x = true → ¬ reads b.users x) →
    (∀ x ∈ b.stores, d x = false) → Rel.bis (AgreeS fun x => d x = true) (b.den E) ((b.dropMoves d).den E)
  | .nil, _, _, _ => by rw [Brs.dropMoves, Brs.den]; exact Rel.upd_bis fun _ _ h => h
  | .cons c s r, hc, h, w => by
    simp only [Brs.users, reads_append, not_or, Brs.condAtoms, List.mem_append] at h hc
    simp only [Brs.stores, List.mem_append] at w
    rw [Brs.dropMoves, Brs.den, Brs.den]
    exact Rel.ite_bis (fun σ τ hA => hA.cond E fun x hx hX => (hc x hX).1 hx)
      (s.dropMoves_bis (fun x hx => (h x hx).1) fun x hx => w x (Or.inl hx))
      (r.dropMoves_bis (fun x hx => (hc x hx).2) (fun x hx => (h x hx).2) fun x hx => w x (Or.inr hx))
end

/-! ### the new users -/

theorem mem_users_dropMoves_block (l : List Stmt) (u : User) (hu : u ∈ (l.filter fun s => !(s.isMove && d s.target)).flatMap Stmt.users) :
    u ∈ l.flatMap Stmt.users := by
  obtain ⟨s, hs, h⟩ := List.mem_flatMap.1 hu
  exact List.mem_flatMap.2 ⟨s, (List.mem_filter.1 hs).1, h⟩

theorem Node.dropMoves_isRet (n : Node) : (n.dropMoves d).isRet = n.isRet := by cases n <;> rfl

theorem Brs.dropMoves_condAtoms : (b : Brs) → (b.dropMoves d).condAtoms = b.condAtoms
  | .nil => rfl
  | .cons c s r => by rw [Brs.dropMoves, Brs.condAtoms, Brs.condAtoms, Brs.dropMoves_condAtoms r]

mutual
theorem Node.dropMoves_users : (n : Node) → (∀ u ∈ (n.dropMoves d).users, u ∈ n.users) ∧
    ((∀ x ∈ n.stores, d x = false) → ∀ x, d x = true → ¬ writes (n.dropMoves d).users x)
  | .block l => by
    rw [Node.dropMoves, Node.users, Node.users, Node.stores]
    refine ⟨mem_users_dropMoves_block d l, fun w x hx hw => ?_⟩
    obtain ⟨s, hs, h⟩ := List.mem_flatMap.1 hw
    obtain ⟨hs1, hs2⟩ := List.mem_filter.1 hs
    have ws : ∀ y ∈ s.stores, d y = false := fun y hy => w y (List.mem_flatMap.2 ⟨s, hs1, hy⟩)
    cases s with
    | tasklet op ins out sub =>
      have hxo : x = out := by
        simpa [Stmt.users, readsOf] using h
      subst hxo
      simp only [Stmt.target, hx, Bool.and_true, Bool.not_eq_true'] at hs2
      have := ws x (by rw [Stmt.stores, hs2]; simp)
      rw [hx] at this
      cases this
    | lib op rs wr =>
      have hxo : x ∈ wr := by
        simpa [Stmt.users, readsOf] using h
      have := ws x (by simpa [Stmt.stores, Stmt.isMove] using hxo)
      rw [hx] at this
      cases this
  | .seq s => by rw [Node.dropMoves, Node.users, Node.users, Node.stores]; exact s.dropMoves_users
  | .ifElse b => by
    rw [Node.dropMoves, Node.users, Node.users, Node.stores, Brs.dropMoves_condAtoms]
    obtain ⟨h1, h2⟩ := b.dropMoves_users
    refine ⟨fun u hu => ?_, fun w x hx hw => ?_⟩
    · rw [List.mem_append] at hu ⊢
      exact hu.imp id (h1 u)
    · rw [writes_append] at hw
      exact h2 w x hx (hw.resolve_left fun q => writes_readsOf q)
  | .whileL s => by rw [Node.dropMoves, Node.users, Node.users, Node.stores]; exact s.dropMoves_users
  | .loop m i a k u s => by
    obtain ⟨h1, h2⟩ := s.dropMoves_users
    rw [Node.dropMoves, Node.users, Node.users, Node.stores]
    refine ⟨fun v hv => ?_, fun w x hx hw => ?_⟩
    · simp only [List.mem_append] at hv ⊢
      rcases hv with ((hv | hv) | hv) | hv
      · exact Or.inl (Or.inl (Or.inl hv))
      · exact Or.inl (Or.inl (Or.inr (h1 v hv)))
      · exact Or.inl (Or.inr hv)
      · exact Or.inr hv
    · have hi : x ≠ i := by
        rintro rfl
        rw [w x (by simp)] at hx
        cases hx
      have hone : ¬ writes [(Use.write, i)] x := by
        simp [writes, hi]
      simp only [writes_append, writes_readsOf, hone, or_false, false_or] at hw
      exact h2 (fun y hy => w y (List.mem_cons_of_mem _ hy)) x hx hw
  | .brk => ⟨fun _ h => h, fun _ x _ h => by cases h⟩
  | .cont => ⟨fun _ h => h, fun _ x _ h => by cases h⟩
  | .ret y q => by
    rw [Node.dropMoves]
    refine ⟨fun _ h => h, fun _ x _ h => ?_⟩
    rw [Node.users] at h
    split at h
    · cases h
    · simp [writes] at h
theorem Seq.dropMoves_users : (s : Seq) → (∀ u ∈ (s.dropMoves d).users, u ∈ s.users) ∧
    ((∀ x ∈ s.stores, d x = false) → ∀ x, d x = true → ¬ writes (s.dropMoves d).users x)
  | .nil => ⟨fun _ h => h, fun _ x _ h => by cases h⟩
  | .cons n t r => by
    rw [Seq.dropMoves]
    by_cases hr : n.isRet = true
    · rw [if_pos hr]
      refine ⟨fun _ h => h, fun w x hx h => ?_⟩
      cases n <;> simp [Node.isRet] at hr
      simp only [Seq.users, Node.isRet, if_true, Node.users] at h
      split at h
      · cases h
      · simp [writes] at h
    · obtain ⟨h1, h2⟩ := n.dropMoves_users
      obtain ⟨h3, h4⟩ := r.dropMoves_users
      rw [if_neg hr, Seq.users, Node.dropMoves_isRet, if_neg hr, Seq.users, if_neg hr, Seq.stores, if_neg hr]
      refine ⟨fun u hu => ?_, fun w x hx hw => ?_⟩
      · simp only [List.mem_append] at hu ⊢
        rcases hu with (hu | hu) | hu
        · exact Or.inl (Or.inl (h1 u hu))
        · exact Or.inl (Or.inr hu)
        · exact Or.inr (h3 u hu)
      · simp only [List.mem_append] at w
        rw [writes_append, writes_append] at hw
        rcases hw with (hw | hw) | hw
        · exact h2 (fun y hy => w y (Or.inl (Or.inl hy))) x hx hw
        · rw [transUsers, writes_append] at hw
          replace hw := hw.resolve_left fun q => writes_readsOf q
          have hm : x ∈ t.map (·.1) := by
            obtain ⟨a, ha, he⟩ := List.mem_map.1 hw
            exact List.mem_map.2 ⟨a, ha, (Prod.mk.inj he).2⟩
          rw [w x (Or.inl (Or.inr hm))] at hx
          cases hx
        · exact h4 (fun y hy => w y (Or.inr hy)) x hx hw
theorem Brs.dropMoves_users : (b : Brs) → (∀ u ∈ (b.dropMoves d).users, u ∈ b.users) ∧
    ((∀ x ∈ b.stores, d x = false) → ∀ x, d x = true → ¬ writes (b.dropMoves d).users x)
  | .nil => ⟨fun _ h => h, fun _ x _ h => by cases h⟩
  | .cons c s r => by
    obtain ⟨h1, h2⟩ := s.dropMoves_users
    obtain ⟨h3, h4⟩ := r.dropMoves_users
    rw [Brs.dropMoves, Brs.users, Brs.users, Brs.stores]
    refine ⟨fun u hu => ?_, fun w x hx hw => ?_⟩
    · rw [List.mem_append] at hu ⊢
      exact hu.imp (h1 u) (h3 u)
    · simp only [List.mem_append] at w
      rw [writes_append] at hw
      rcases hw with hw | hw
      · exact h2 (fun y hy => w y (Or.inl hy)) x hx hw
      · exact h4 (fun y hy => w y (Or.inr hy)) x hx hw
end

/-! ### what is reported -/

mutual
theorem Node.dropMoves_eq : (n : Node) → (n.moves.any d = false ↔ n.dropMoves d = n)
  | .block l => by
    rw [Node.dropMoves, Node.moves, Node.block.injEq, List.filter_eq_self, List.any_eq_false]
    constructor
    · intro h s hs
      cases hm : s.isMove with
      | false => rfl
      | true =>
        have := h s.target (List.mem_map.2 ⟨s, List.mem_filter.2 ⟨hs, hm⟩, rfl⟩)
        simp [this]
    · intro h x hx
      obtain ⟨s, hs, rfl⟩ := List.mem_map.1 hx
      obtain ⟨h1, h2⟩ := List.mem_filter.1 hs
      have := h s h1
      simpa [h2] using this
  | .seq s => by rw [Node.dropMoves, Node.moves, Node.seq.injEq]; exact s.dropMoves_eq
  | .ifElse b => by rw [Node.dropMoves, Node.moves, Node.ifElse.injEq]; exact b.dropMoves_eq
  | .whileL s => by rw [Node.dropMoves, Node.moves, Node.whileL.injEq]; exact s.dropMoves_eq
  | .loop m i a k u s => by
    rw [Node.dropMoves, Node.moves, Node.loop.injEq]
    rw [s.dropMoves_eq]
    simp
  | .brk => by simp [Node.dropMoves, Node.moves]
  | .cont => by simp [Node.dropMoves, Node.moves]
  | .ret _ _ => by simp [Node.dropMoves, Node.moves]
theorem Seq.dropMoves_eq : (s : Seq) → (s.moves.any d = false ↔ s.dropMoves d = s)
  | .nil => by simp [Seq.dropMoves, Seq.moves]
  | .cons n t r => by
    rw [Seq.dropMoves, Seq.moves]
    by_cases hr : n.isRet = true
    · rw [if_pos hr, if_pos hr]
      cases n <;> simp [Node.isRet] at hr
      simp [Node.moves]
    · rw [if_neg hr, if_neg hr, Seq.cons.injEq, List.any_append, Bool.or_eq_false_iff, n.dropMoves_eq, r.dropMoves_eq]
      simp
theorem Brs.dropMoves_eq : (b : Brs) → (b.moves.any d = false ↔ b.dropMoves d = b)
  | .nil => by simp [Brs.dropMoves, Brs.moves]
  | .cons c s r => by
    rw [Brs.dropMoves, Brs.moves, Brs.cons.injEq, List.any_append, Bool.or_eq_false_iff, s.dropMoves_eq, r.dropMoves_eq]
    simp
end

end

theorem RefProg.dead_facts (P : RefProg) {x : String} (h : P.dead x = true) : ¬ reads P.body.users x ∧ x ∉ P.body.stores := by
  obtain ⟨c, _, hc⟩ := List.any_eq_true.1 h
  simp only [Bool.and_eq_true, Bool.not_eq_true', decide_eq_false_iff_not, List.contains_eq_mem] at hc
  exact ⟨hc.1.2, hc.2⟩

theorem RefProg.stores_live (P : RefProg) : ∀ x ∈ P.body.stores, P.dead x = false := by
  intro x hx
  cases h : P.dead x with
  | false => rfl
  | true => exact absurd hx (P.dead_facts h).2

/-- **C90 (behaviour).** For every function: started in the same memory, the function before and after the pass have the same executions: one ends (with the same
outcome) exactly if the other does, and then every container that was not deleted has the same final contents. -/
theorem dead_references_preserve (E : Env) (P : RefProg) (σ : St) (c : Ctl) :
    (∀ σ', P.body.den E σ c σ' → ∃ τ', P.deadReferences.1.body.den E σ c τ' ∧ ∀ x, P.dead x = false → τ' x = σ' x) ∧
    (∀ τ', P.deadReferences.1.body.den E σ c τ' → ∃ σ', P.body.den E σ c σ' ∧ ∀ x, P.dead x = false → τ' x = σ' x) := by
  have B := Seq.dropMoves_bis E P.dead P.body (fun x hx => (P.dead_facts hx).1) P.stores_live
  have off : ∀ {ρ ρ' : St}, AgreeS (fun x => P.dead x = true) ρ ρ' → ∀ x, P.dead x = false → ρ x = ρ' x :=
    fun h x hx => h.off x (by rw [hx]; decide)
  constructor
  · intro σ' hr
    obtain ⟨τ', h1, h2⟩ := B.1 σ σ c σ' (AgreeS.refl _ _) hr
    exact ⟨τ', h1, fun x hx => (off h2 x hx).symm⟩
  · intro τ' hr
    obtain ⟨σ', h1, h2⟩ := B.2 σ σ c τ' (AgreeS.refl _ _) hr
    exact ⟨σ', h1, fun x hx => (off h2 x hx).symm⟩

/-- **C90 (containers).** A container is deleted exactly if it is transient, an unmanaged pointer, and the users analysis lists no read, view or store of it; the
others stay, in order.  No use of a deleted container is left among the uses the analysis sees, and no use is new. -/
theorem dead_references_containers (P : RefProg) :
    (∀ c, c ∈ P.deadReferences.1.containers ↔ c ∈ P.containers ∧ P.dead c.1 = false) ∧
    (∀ x, P.dead x = true ↔ (∃ i : PtrInfo, (x, i) ∈ P.containers ∧ i.transient = true ∧ i.pointer = true ∧ i.managed = false) ∧
      ¬ reads P.body.users x ∧ x ∉ P.body.stores) ∧
    (∀ x, P.dead x = true → ¬ reads P.deadReferences.1.body.users x ∧ ¬ writes P.deadReferences.1.body.users x) ∧
    (∀ u ∈ P.deadReferences.1.body.users, u ∈ P.body.users) := by
  obtain ⟨h1, h2⟩ := Seq.dropMoves_users P.dead P.body
  refine ⟨fun c => ?_, fun x => ⟨fun h => ⟨?_, P.dead_facts h⟩, ?_⟩, fun x hx => ⟨fun hr => ?_, h2 P.stores_live x hx⟩, h1⟩
  · show c ∈ P.containers.filter _ ↔ _
    rw [List.mem_filter]
    simp
  · obtain ⟨⟨y, i⟩, hc, hc'⟩ := List.any_eq_true.1 h
    simp only [Bool.and_eq_true, Bool.not_eq_true', beq_iff_eq] at hc'
    obtain ⟨⟨⟨⟨⟨rfl, ht⟩, hp⟩, hm⟩, _⟩, _⟩ := hc'
    exact ⟨i, hc, ht, hp, hm⟩
  · rintro ⟨⟨i, hc, ht, hp, hm⟩, hr, hs⟩
    refine List.any_eq_true.2 ⟨(x, i), hc, ?_⟩
    simp [ht, hp, hm, hr, hs]
  · exact (P.dead_facts hx).1 (h1 _ hr)

/-- **C90 (report; partial).** The pass returns true exactly if the body of the function was changed.  Missing: deleted containers without any use are not reported
(`unused_pointer_unreported_violated`). -/
theorem dead_references_report_partial (P : RefProg) : P.deadReferences.2 = true ↔ P.deadReferences.1.body ≠ P.body := by
  have h := Seq.dropMoves_eq P.dead P.body
  show P.body.moves.any P.dead = true ↔ P.body.dropMoves P.dead ≠ P.body
  rw [Ne, ← h]
  simp

/-- `p = &A[i]; q = &A[0]; r = *q; x = q[i]`: `p` and `r` are dead, `q` is read, `A` is an argument -/
def exRefProg : RefProg :=
  ⟨[("p", ⟨true, true, false⟩), ("q", ⟨true, true, false⟩), ("r", ⟨true, true, false⟩), ("A", ⟨false, true, false⟩), ("x", ⟨false, false, false⟩)],
    .cons (.block [.tasklet "&" [("A", [.sym "i"])] "p" [], .tasklet "&" [("A", [.int 0])] "q" []]) []
      (.cons (.block [.tasklet "*" [("q", [])] "r" [], .tasklet "" [("q", [.sym "i"])] "x" []]) [] .nil)⟩

/-- Non-vacuity: exactly `p`, `r` and their assignments go, and this is reported. -/
example : exRefProg.dead "p" = true ∧ exRefProg.dead "r" = true ∧ exRefProg.dead "q" = false ∧ exRefProg.dead "A" = false ∧ exRefProg.deadReferences.2 = true ∧
    exRefProg.deadReferences.1.containers.map (·.1) = ["q", "A", "x"] ∧
    exRefProg.deadReferences.1.body.moves = ["q"] ∧ exRefProg.body.moves = ["p", "q", "r"] := by decide

/-- **C90, refuted (report).** A pointer without any use is deleted, but the pass returns false: a changed function is reported as unchanged (by C88
`unreported_change_stale` cached analyses of the old function stay valid then). -/
theorem unused_pointer_unreported_violated : ∃ P : RefProg, P.deadReferences.2 = false ∧
    P.deadReferences.1.containers.length < P.containers.length :=
  ⟨⟨[("p", ⟨true, true, false⟩)], .nil⟩, by decide, by decide⟩

/-- **C90, refuted (mentions).** A deleted pointer may still be assigned in the code behind a `Return`, which the users analysis does not visit: the function then
refers to a container it does not have. -/
theorem deleted_pointer_mentioned_violated : ∃ (P : RefProg) (x : String), x ∈ P.containers.map (·.1) ∧
    x ∉ P.deadReferences.1.containers.map (·.1) ∧ x ∈ P.deadReferences.1.body.names :=
  ⟨⟨[("p", ⟨true, true, false⟩), ("A", ⟨false, true, false⟩)],
    .cons (.ret "" false) [] (.cons (.block [.tasklet "&" [("A", [])] "p" []]) [] .nil)⟩, "p", by decide, by decide, by decide⟩

end Docc.IR
