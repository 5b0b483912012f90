import Verif.IR.UGraphLemmas
import Verif.IR.UsersProps
import Verif.IR.UView

/-
Executions that do not touch a container: they run the same whatever the container holds.  (Lemmas about the traces of
IR/UGraph.lean, used for the allocation pass and the escape analysis.)
-/
namespace Docc.IR
open Docc.Sym

/-- a use of container `A` -/
def V.of (A : String) : V → Bool
  | .nop _ => false
  | .ev _ u => u.2 == A

/-- the state with another value of container `A` -/
def St.put (σ : St) (A : String) (w : List Int → Int) : St := fun x => if x = A then w else σ x

theorem St.put_same (σ : St) (A : String) (w : List Int → Int) : σ.put A w A = w := by simp [St.put]
theorem St.put_other (σ : St) {A x : String} (w : List Int → Int) (h : x ≠ A) : σ.put A w x = σ x := by simp [St.put, h]
theorem St.put_put (σ : St) (A : String) (v w : List Int → Int) : (σ.put A v).put A w = σ.put A w := by
  funext x; unfold St.put; split <;> rfl
theorem St.put_self (σ : St) (A : String) : σ.put A (σ A) = σ := by
  funext x; unfold St.put; split
  · rename_i h; rw [h]
  · rfl
theorem St.put_agree (σ : St) (A : String) (w : List Int → Int) : AgreeOff (· = A) σ (σ.put A w) :=
  fun _ hx => (St.put_other σ w hx).symm
theorem St.put_of_agree {σ τ : St} {A : String} (h : AgreeOff (· = A) σ τ) : τ = σ.put A (τ A) := by
  funext x; unfold St.put; split
  · rename_i h; rw [h]
  · rename_i hx; exact (h x hx).symm

/-- a state change that neither reads nor writes `A` -/
def Blind (A : String) (f : St → St) : Prop := ∀ σ w, f (σ.put A w) = (f σ).put A w ∧ f σ A = σ A

theorem Blind.of_agree {A : String} {f : St → St} (h1 : ∀ σ τ, AgreeOff (· = A) σ τ → AgreeOff (· = A) (f σ) (f τ))
    (h2 : ∀ σ, f σ A = σ A) : Blind A f := fun σ w => by
  refine ⟨?_, h2 σ⟩
  have := St.put_of_agree (h1 _ _ (σ.put_agree A w))
  rw [h2 (σ.put A w), St.put_same] at this
  exact this

/-- no listed use is one of `A` -/
def Without (A : String) (us : List User) : Prop := ∀ u ∈ us, u.2 ≠ A

theorem without_reads {A : String} {us : List User} (h : Without A us) : ¬ reads us A := fun hr => h _ hr rfl
theorem without_writes {A : String} {us : List User} (h : Without A us) : ¬ writes us A := fun hr => h _ hr rfl

theorem evs_without {A : String} {k : Nat} {us : List User} (h : ∀ v ∈ evs k us, v.of A = false) : Without A us := by
  rintro u hu rfl
  obtain ⟨i, hi, rfl⟩ := List.mem_iff_getElem.mp hu
  have := h (.ev (k + i) us[i]) (by
    unfold evs
    refine List.mem_map.mpr ⟨(us[i], k + i), ?_, rfl⟩
    rw [List.mem_iff_getElem]
    exact ⟨i, by simpa using hi, by simp⟩)
  simp [V.of] at this

theorem blind_block (E : Env) {A : String} {l : List Stmt} (h : Without A (l.flatMap Stmt.users)) : Blind A (runBlock E l) :=
  .of_agree (fun σ τ hA => runBlock_agree E (· = A) l (fun x (hx : x = A) => hx ▸ without_reads h) σ τ hA)
    fun σ => runBlock_frame E l σ A (without_writes h)

theorem blind_trans (E : Env) {A : String} {t : Trans} (h : Without A (transUses t)) : Blind A (runTrans E t) := by
  have h' : Without A (transUsers t) := by
    intro u hu
    refine h u ?_
    unfold transUses transUsers readsOnce readsOf at *
    simpa using hu
  exact .of_agree (fun σ τ hA => runTrans_agree E (· = A) t (fun x (hx : x = A) => hx ▸ without_reads h') σ τ hA)
    fun σ => runTrans_frame E t σ A (without_writes h')

theorem blind_set (E : Env) {A i : String} {e : Expr} (h : Without A (readsOnce e.atoms ++ [(.write, i)])) :
    Blind A fun σ => σ.setS i (σ.ev E e) := by
  have h1 : i ≠ A := h (.write, i) (by simp)
  have h2 : A ∉ e.atoms := fun hm => h (.read, A) (by simp [readsOnce, readsOf, hm]) rfl
  refine .of_agree (fun σ τ hA => ?_) fun σ => St.setS_other _ _ fun h => h1 h.symm
  have : σ.ev E e = τ.ev E e := St.ev_congr E fun x hx => congrFun (hA x fun (hx' : x = A) => h2 (hx' ▸ hx)) []
  intro x hx
  by_cases hxi : x = i
  · subst hxi; rw [this]; funext j; simp [St.setS, St.set, hA x hx]
  · rw [St.setS_other _ _ hxi, St.setS_other _ _ hxi]; exact hA x hx

theorem blind_cond (E : Env) {A : String} {c : Cond} (h : A ∉ c.atoms) (σ : St) (w : List Int → Int) :
    (σ.put A w).cond E c = σ.cond E c :=
  St.cond_congr E fun x hx => congrFun (St.put_other σ w fun (hx' : x = A) => h (hx' ▸ hx)) []

/-- An execution that performs no use of `A` is the same whatever `A` holds, and keeps `A`. -/
def TR.Insens (A : String) (R : TR) : Prop := ∀ σ l o, R σ l o → (∀ v ∈ l, v.of A = false) → ∀ w,
  R (σ.put A w) l (o.map fun p => (p.1, p.2.put A w)) ∧ ∀ p, o = some p → p.2 A = σ A

theorem insens_emit {A : String} {us : List V} {f : St → St} (h : (∀ v ∈ us, v.of A = false) → Blind A f) :
    (TR.emit us f).Insens A := by
  rintro σ l o (⟨rfl, rfl⟩ | ⟨hl, rfl⟩) hv w
  · refine ⟨Or.inl ⟨rfl, ?_⟩, ?_⟩
    · simp only [Option.map_some, ((h hv) σ w).1]
    · rintro p h'; cases h'; exact ((h hv) σ w).2
  · exact ⟨Or.inr ⟨hl, rfl⟩, fun p hp => by cases hp⟩

theorem insens_jump {A : String} {us : List V} {c : Ctl} : (TR.jump us c).Insens A := by
  rintro σ l o (⟨rfl, rfl⟩ | ⟨hl, rfl⟩) hv w
  · exact ⟨Or.inl ⟨rfl, rfl⟩, fun p hp => by cases hp; rfl⟩
  · exact ⟨Or.inr ⟨hl, rfl⟩, fun p hp => by cases hp⟩

theorem insens_seq {A : String} {R S : TR} (h : R.Insens A) (h' : S.Insens A) : (TR.seq R S).Insens A := by
  rintro σ l o (⟨l1, l2, σ1, h1, h2, rfl⟩ | ⟨h1, h2⟩) hv w
  · obtain ⟨a1, a2⟩ := h _ _ _ h1 (fun v hv' => hv v (List.mem_append_left _ hv')) w
    obtain ⟨b1, b2⟩ := h' _ _ _ h2 (fun v hv' => hv v (List.mem_append_right _ hv')) w
    exact ⟨Or.inl ⟨l1, l2, _, a1, b1, rfl⟩, fun p hp => (b2 p hp).trans (a2 _ rfl)⟩
  · obtain ⟨a1, a2⟩ := h _ _ _ h1 hv w
    refine ⟨Or.inr ⟨a1, fun τ hτ => ?_⟩, a2⟩
    cases o with
    | none => cases hτ
    | some p => obtain ⟨c, σ'⟩ := p; simp only [Option.map_some, Option.some.injEq, Prod.mk.injEq] at hτ; exact h2 σ' (by rw [hτ.1])

theorem insens_ite {A : String} {b : St → Bool} {R S : TR} (hb : ∀ σ w, b (σ.put A w) = b σ) (h : R.Insens A) (h' : S.Insens A) :
    (TR.ite b R S).Insens A := by
  intro σ l o hr hv w
  unfold TR.ite at *
  rw [hb]
  split at hr
  · rename_i hc; simp only [hc, if_true]; exact h _ _ _ hr hv w
  · rename_i hc; simp only [hc]; exact h' _ _ _ hr hv w

theorem insens_forever {A : String} {R : TR} (h : R.Insens A) : (TR.forever R).Insens A := by
  intro σ l o hr
  induction hr with
  | cut h1 => intro hv w; exact ⟨.cut (h _ _ _ h1 hv w).1, fun p hp => by cases hp⟩
  | step k h1 hk _ ih =>
    intro hv w
    obtain ⟨a1, a2⟩ := h _ _ _ h1 (fun v hv' => hv v (List.mem_append_left _ hv')) w
    obtain ⟨b1, b2⟩ := ih (fun v hv' => hv v (List.mem_append_right _ hv')) w
    exact ⟨.step k a1 hk b1, fun p hp => (b2 p hp).trans (a2 _ rfl)⟩
  | stop h1 =>
    intro hv w
    obtain ⟨a1, a2⟩ := h _ _ _ h1 hv w
    exact ⟨.stop a1, fun p hp => by cases hp; exact a2 (.brk, _) rfl⟩
  | ret d q h1 =>
    intro hv w
    obtain ⟨a1, a2⟩ := h _ _ _ h1 hv w
    exact ⟨.ret d q a1, fun p hp => by cases hp; exact a2 _ rfl⟩

theorem insens_iter {A : String} {b : St → Bool} {u : St → St} {cs us : List V} {R : TR}
    (hb : (∀ v ∈ cs, v.of A = false) → ∀ σ w, b (σ.put A w) = b σ) (hu : (∀ v ∈ us, v.of A = false) → Blind A u) (h : R.Insens A) :
    (TR.iter b u cs us R).Insens A := by
  intro σ l o hr
  induction hr with
  | cut h1 => intro hv w; exact ⟨.cut h1, fun p hp => by cases hp⟩
  | done h1 => intro hv w; exact ⟨.done (by rw [hb hv]; exact h1), fun p hp => by cases hp; rfl⟩
  | cutBody hc h1 =>
    intro hv w
    simp only [List.mem_append] at hv
    exact ⟨.cutBody (by rw [hb fun v h => hv v (Or.inl h)]; exact hc) (h _ _ _ h1 (fun v h => hv v (Or.inr h)) w).1, fun p hp => by cases hp⟩
  | cutUpd k hc h1 hk h2 =>
    intro hv w
    simp only [List.mem_append] at hv
    exact ⟨.cutUpd k (by rw [hb fun v h => hv v (Or.inl h)]; exact hc) (h _ _ _ h1 (fun v h => hv v (Or.inr (Or.inl h))) w).1 hk h2,
      fun p hp => by cases hp⟩
  | step k hc h1 hk _ ih =>
    intro hv w
    simp only [List.mem_append] at hv
    obtain ⟨a1, a2⟩ := h _ _ _ h1 (fun v h => hv v (Or.inr (Or.inl h))) w
    obtain ⟨b1, b2⟩ := ih (fun v h => hv v (Or.inr (Or.inr (Or.inr h)))) w
    have hu' := hu fun v h => hv v (Or.inr (Or.inr (Or.inl h)))
    refine ⟨.step k (by rw [hb fun v h => hv v (Or.inl h)]; exact hc) a1 hk ?_, fun p hp => ?_⟩
    · simp only; rw [(hu' _ w).1]; exact b1
    · rw [b2 p hp, (hu' _ w).2]; exact a2 _ rfl
  | stop hc h1 =>
    intro hv w
    simp only [List.mem_append] at hv
    obtain ⟨a1, a2⟩ := h _ _ _ h1 (fun v h => hv v (Or.inr h)) w
    exact ⟨.stop (by rw [hb fun v h => hv v (Or.inl h)]; exact hc) a1, fun p hp => by cases hp; exact a2 (.brk, _) rfl⟩
  | ret d q hc h1 =>
    intro hv w
    simp only [List.mem_append] at hv
    obtain ⟨a1, a2⟩ := h _ _ _ h1 (fun v h => hv v (Or.inr h)) w
    exact ⟨.ret d q (by rw [hb fun v h => hv v (Or.inl h)]; exact hc) a1, fun p hp => by cases hp; exact a2 _ rfl⟩

/-- as `insens_seq`, when the uses of the first part decide about the second -/
theorem insens_emit_seq {A : String} {us : List V} {S : TR} (h : (∀ v ∈ us, v.of A = false) → S.Insens A) :
    (TR.seq (TR.emit us id) S).Insens A := by
  intro σ l o hr hv w
  by_cases hu : ∀ v ∈ us, v.of A = false
  · exact insens_seq (insens_emit fun _ => fun σ w => ⟨rfl, rfl⟩) (h hu) σ l o hr hv w
  · rcases hr with ⟨l1, l2, σ1, h1 | h1, h2, rfl⟩ | ⟨h1 | h1, h2⟩
    · exact absurd (fun v hv' => hv v (List.mem_append_left _ (h1.1 ▸ hv'))) hu
    · cases h1.2
    · exact absurd h1.2 (h2 _)
    · obtain ⟨h1, rfl⟩ := h1; exact ⟨Or.inr ⟨Or.inr ⟨h1, rfl⟩, fun τ h => by cases h⟩, fun p hp => by cases hp⟩

mutual
theorem Node.insens (E : Env) (A : String) : (n : Node) → ∀ k, (n.tr E k).Insens A
  | .block l, k => by rw [Node.tr]; exact insens_emit fun h => blind_block E (evs_without h)
  | .seq s, k => by rw [Node.tr]; exact s.insens E A _
  | .ifElse b, k => by
    rw [Node.tr]
    refine insens_emit_seq fun h => b.insens E A (fun hm => evs_without h (.read, A) ?_ rfl) _
    simp [readsOnce, readsOf, hm]
  | .whileL s, k => by rw [Node.tr]; exact insens_forever (s.insens E A _)
  | .loop _ i init cond upd s, k => by
    rw [Node.tr]
    refine insens_seq (insens_emit fun h => blind_set E (evs_without h)) (insens_iter (fun h σ w => ?_) (fun h => blind_set E (evs_without h)) (s.insens E A _))
    exact blind_cond E (fun hm => evs_without h (.read, A) (by simp [condUses, readsOnce, readsOf, hm]) rfl) σ w
  | .brk, k => by rw [Node.tr]; exact insens_jump
  | .cont, k => by rw [Node.tr]; exact insens_jump
  | .ret d q, k => by rw [Node.tr]; exact insens_jump
/-- An execution that performs no use of `A` is the same whatever `A` holds. -/
theorem Seq.insens (E : Env) (A : String) : (s : Seq) → ∀ k, (s.tr E k).Insens A
  | .nil, k => by rw [Seq.tr]; exact insens_emit fun _ σ w => ⟨rfl, rfl⟩
  | .cons n t r, k => by
    rw [Seq.tr]
    exact insens_seq (n.insens E A k) (insens_seq (insens_emit fun h => blind_trans E (evs_without h)) (r.insens E A _))
theorem Brs.insens (E : Env) (A : String) : (b : Brs) → A ∉ b.condAtoms → ∀ k, (b.tr E k).Insens A
  | .nil, _, k => by rw [Brs.tr]; exact insens_emit fun _ σ w => ⟨rfl, rfl⟩
  | .cons c s r, h, k => by
    rw [Brs.condAtoms, List.mem_append, not_or] at h
    rw [Brs.tr]
    exact insens_ite (fun σ w => blind_cond E h.1 σ w) (s.insens E A _) (r.insens E A h.2 _)
end

end Docc.IR
