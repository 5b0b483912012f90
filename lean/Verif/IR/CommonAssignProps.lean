import Verif.IR.CommonAssign
import Verif.IR.TransProps
import Verif.IR.DeadCFGProps

/-
C16: CommonAssignmentElimination.
-/
namespace Docc.IR
open Docc.Sym

/-- Side conditions for adding `h` behind the if-else `b` with transition `t`: in every state some case applies; the
assignments that end each branch, and those behind the if-else, are independent of each other; an assignment of an added
symbol does not read that symbol. -/
def HoistOk (E : Env) (b : Brs) (t h : Trans) : Prop :=
  h = [] ∨ ((∀ σ : St, ∃ c ∈ b.conds, σ.cond E c = true) ∧ Indep (h ++ t) ∧
    ∀ s ∈ b.branches, ∀ l, s.lastT = some l → Indep l ∧ ∀ e ∈ l, e.1 ∈ h.map (·.1) → e.1 ∉ e.2.atoms)

mutual
/-- the side conditions hold at every if-else of the program -/
def Node.hoistOk (E : Env) (C : CAE) : Node → Prop
  | .block _ => True
  | .seq s => s.hoistOk E C
  | .ifElse b => b.hoistOk E C
  | .whileL s => s.hoistOk E C
  | .loop _ _ _ _ _ s => s.hoistOk E C
  | .brk => True
  | .cont => True
  | .ret _ _ => True
/-- of a sequence -/
def Seq.hoistOk (E : Env) (C : CAE) : Seq → Prop
  | .nil => True
  | .cons n t r => n.hoistOk E C ∧ r.hoistOk E C ∧ ∀ b, n = .ifElse b → HoistOk E b t (C.hoists b t)
/-- of the cases -/
def Brs.hoistOk (E : Env) (C : CAE) : Brs → Prop
  | .nil => True
  | .cons _ s r => s.hoistOk E C ∧ r.hoistOk E C
end

/-- after its last transition a sequence has run that transition -/
theorem Seq.lastT_den {E : Env} {s : Seq} {l : Trans} (h : s.lastT = some l) {σ σ' : St} (hr : s.den E σ .normal σ') :
    ∃ σ1, σ' = runTrans E l σ1 := by
  match s with
  | .nil => simp [Seq.lastT] at h
  | .cons n t .nil =>
    simp only [Seq.lastT, Option.some.injEq] at h
    subst h
    rw [Seq.den, Seq.den, Rel.seq_skip] at hr
    rcases hr with ⟨σ1, _, _, h2⟩ | ⟨hc, _⟩
    · exact ⟨σ1, h2⟩
    · exact absurd rfl hc
  | .cons n t (.cons n' t' r) =>
    rw [Seq.lastT] at h
    · rw [Seq.den, Rel.upd_seq] at hr
      rcases hr with ⟨σ1, _, h2⟩ | ⟨hc, _⟩
      · exact Seq.lastT_den h h2
      · exact absurd rfl hc
    · simp

/-- a normal execution of an exhaustive if-else is one of a branch -/
theorem Brs.den_branch {E : Env} {b : Brs} {σ σ' : St} {k : Ctl} (hc : ∃ c ∈ b.conds, σ.cond E c = true) (hr : b.den E σ k σ') :
    ∃ s ∈ b.branches, s.den E σ k σ' := by
  match b with
  | .nil => simp [Brs.conds] at hc
  | .cons c s r =>
    rw [Brs.den] at hr
    simp only [Rel.ite] at hr
    split at hr
    · exact ⟨s, by simp [Brs.branches], hr⟩
    · rename_i hf
      obtain ⟨d, hd, ht⟩ := hc
      rw [Brs.conds, List.mem_cons] at hd
      rcases hd with rfl | hd
      · exact absurd ht hf
      · obtain ⟨s', h1, h2⟩ := Brs.den_branch ⟨d, hd, ht⟩ hr
        exact ⟨s', by simp [Brs.branches, h1], h2⟩

theorem addAll_perm {C : CAE} (hC : C.Sound) (t h : Trans) : (C.addAll t h).Perm (h ++ t) := by
  unfold CAE.addAll
  induction h generalizing t with
  | nil => exact List.Perm.refl _
  | cons a r ih =>
    simp only [List.foldl_cons, List.cons_append]
    refine (ih _).trans ?_
    exact ((List.Perm.refl r).append (hC.2 t a)).trans List.perm_middle

/-- every branch ends by assigning the added symbols their values -/
theorem hoists_branch {C : CAE} (hC : C.Sound) {b : Brs} {t : Trans} {a : String × Expr} (ha : a ∈ C.hoists b t) {s : Seq}
    (hs : s ∈ b.branches) : ∃ l e, s.lastT = some l ∧ (a.1, e) ∈ l ∧ ∀ ρ, a.2.eval ρ = e.eval ρ := by
  unfold CAE.hoists at ha
  split at ha
  · rename_i s0 s1 bs hb
    rw [hb] at hs
    split at ha
    · simp at ha
    · rename_i l hl
      simp only [List.mem_filter, Bool.and_eq_true] at ha
      obtain ⟨hal, _, hall⟩ := ha
      rcases List.mem_cons.1 hs with rfl | hs
      · exact ⟨l, a.2, hl, hal, fun _ => rfl⟩
      · rw [CAE.allSame, List.all_eq_true] at hall
        have := hall s hs
        split at this
        · simp at this
        · rename_i l' hl'
          split at this
          · simp at this
          · rename_i e he
            have hm := List.mem_of_find?_eq_some he
            have hk := List.find?_some he
            simp only [beq_iff_eq] at hk
            exact ⟨l', e.2, hl', by rw [← hk]; exact hm, fun ρ => hC.1 _ _ this ρ⟩
  · simp at ha

theorem St.ev_eq_of_eval {E : Env} {a b : Expr} (h : ∀ ρ, a.eval ρ = b.eval ρ) (σ : St) : σ.ev E a = σ.ev E b := by
  simp only [St.ev, h]

/-- what a branch ends with holds afterwards -/
theorem hoists_post {E : Env} {C : CAE} (hC : C.Sound) {b : Brs} {t : Trans} (hok : HoistOk E b t (C.hoists b t)) {σ σ' : St}
    (hr : b.den E σ .normal σ') {a : String × Expr} (ha : a ∈ C.hoists b t) : σ' a.1 [] = σ'.ev E a.2 := by
  rcases hok with h0 | ⟨hc, hI, hl⟩
  · rw [h0] at ha; simp at ha
  · obtain ⟨s, hs, hden⟩ := Brs.den_branch (hc σ) hr
    obtain ⟨l, e, h1, h2, h3⟩ := hoists_branch hC ha hs
    obtain ⟨σ1, rfl⟩ := Seq.lastT_den h1 hden
    obtain ⟨hIl, hself⟩ := hl s hs l h1
    rw [runTrans_mem E l σ1 hIl _ h2, St.ev_eq_of_eval h3]
    refine St.ev_congr E fun y hy => ?_
    rw [runTrans_notin]
    rintro b hb rfl
    by_cases hk : b.1 = a.1
    · exact hself _ h2 (List.mem_map.2 ⟨a, ha, rfl⟩) (hk ▸ hy)
    · exact hIl.2 _ h2 b hb hk hy

/-- assignments of values the symbols already have change nothing -/
theorem runTrans_noop (E : Env) (h : Trans) (σ : St) (hh : ∀ a ∈ h, σ a.1 [] = σ.ev E a.2) : runTrans E h σ = σ := by
  induction h with
  | nil => rfl
  | cons a r ih =>
    rw [runTrans_cons, ← hh a (by simp), St.setS_self]
    exact ih fun b hb => hh b (List.mem_cons_of_mem _ hb)

/-- running `S` after `R` only depends on what `S` does in the final states of `R` -/
theorem Rel.seq_upd_congr {R S : Rel} {f g : St → St} (h : ∀ σ σ', R σ .normal σ' → f σ' = g σ') :
    Rel.seq R (Rel.seq (Rel.upd f) S) = Rel.seq R (Rel.seq (Rel.upd g) S) := by
  rw [Rel.upd_seq, Rel.upd_seq]
  funext σ c σ'
  apply propext
  simp only [Rel.seq]
  constructor
  · rintro (⟨σ1, h1, h2⟩ | h1)
    · exact Or.inl ⟨σ1, h1, by rw [← h _ _ h1]; exact h2⟩
    · exact Or.inr h1
  · rintro (⟨σ1, h1, h2⟩ | h1)
    · exact Or.inl ⟨σ1, h1, by rw [h _ _ h1]; exact h2⟩
    · exact Or.inr h1

theorem cae_trans {E : Env} {C : CAE} (hC : C.Sound) (n : Node) (t : Trans)
    (hok : ∀ b, n = .ifElse b → HoistOk E b t (C.hoists b t)) (σ σ' : St) (hr : n.den E σ .normal σ') :
    runTrans E (C.trans n t) σ' = runTrans E t σ' := by
  unfold CAE.trans
  split
  · rename_i b
    rw [Node.den] at hr
    have hok := hok b rfl
    have hno := runTrans_noop E (C.hoists b t) σ' fun a ha => hoists_post hC hok hr ha
    rcases hok with h0 | ⟨_, hI, _⟩
    · rw [h0]; rfl
    · rw [← transition_order_partial E _ _ hI (addAll_perm hC t _).symm, runTrans_append, hno]
  · rfl

mutual
theorem CAE.node_den (E : Env) (C : CAE) (hC : C.Sound) : (n : Node) → n.hoistOk E C → (C.node n).den E = n.den E
  | .block l, _ => rfl
  | .seq s, h => by rw [CAE.node, Node.den, Node.den]; exact C.seq_den E hC s h
  | .ifElse b, h => by rw [CAE.node, Node.den, Node.den]; exact C.cases_den E hC b h
  | .whileL s, h => by rw [CAE.node, Node.den, Node.den, C.seq_den E hC s h]
  | .loop m i a k u s, h => by rw [CAE.node, Node.den, Node.den, C.seq_den E hC s h]
  | .brk, _ => rfl
  | .cont, _ => rfl
  | .ret _ _, _ => rfl
theorem CAE.seq_den (E : Env) (C : CAE) (hC : C.Sound) : (s : Seq) → s.hoistOk E C → (C.seq s).den E = s.den E
  | .nil, _ => rfl
  | .cons n t r, h => by
    rw [Seq.hoistOk] at h
    rw [CAE.seq, Seq.den, Seq.den, C.node_den E hC n h.1, C.seq_den E hC r h.2.1]
    exact Rel.seq_upd_congr fun σ σ' hr => cae_trans hC n t h.2.2 σ σ' hr
theorem CAE.cases_den (E : Env) (C : CAE) (hC : C.Sound) : (b : Brs) → b.hoistOk E C → (C.cases b).den E = b.den E
  | .nil, _ => rfl
  | .cons c s r, h => by
    rw [Brs.hoistOk] at h
    rw [CAE.cases, Brs.den, Brs.den, C.seq_den E hC s h.1, C.cases_den E hC r h.2]
end

/-- **C16** (partial): the pass leaves every execution unchanged (the same outcomes and final memories), for every program in
which each if-else that receives an assignment is exhaustive, the assignments ending its branches and those behind it
are independent, and the added assignments do not read their own symbol. -/
theorem commonAssign_preserves_partial (E : Env) (C : CAE) (hC : C.Sound) (root : Seq) (h : root.hoistOk E C) :
    (C.seq root).den E = root.den E := C.seq_den E hC root h

/-- structural equality and insertion in front -/
def exCAE : CAE := ⟨fun a b => decide (a = b), fun t a => a :: t⟩
theorem exCAE_sound : exCAE.Sound :=
  ⟨fun a b h ρ => by simp only [exCAE, decide_eq_true_eq] at h; rw [h], fun _ _ => List.Perm.refl _⟩

/-- `if (c0) { k := e } else if (c1) { y := 1, k := e }; y := 2` (order of the second branch's entries as listed) -/
def exCommon (c0 c1 : Cond) (e : Expr) : Seq := .cons (.ifElse (.cons c0 (.cons (.block []) [("k", e)] .nil)
  (.cons c1 (.cons (.block []) [("z", .int 1), ("k", e)] .nil) .nil))) [("y", .int 2)] .nil

/-- hypotheses of `commonAssign_preserves_partial` hold, and an assignment is added -/
example : (exCommon (.lt (.sym "p") (.int 0)) (.le (.int 0) (.sym "p")) (.add [.sym "n", .int 1])).hoistOk exEnv exCAE ∧
    exCAE.seq (exCommon (.lt (.sym "p") (.int 0)) (.le (.int 0) (.sym "p")) (.add [.sym "n", .int 1])) ≠
      exCommon (.lt (.sym "p") (.int 0)) (.le (.int 0) (.sym "p")) (.add [.sym "n", .int 1]) := by
  refine ⟨⟨⟨⟨trivial, trivial, ?_⟩, ⟨trivial, trivial, ?_⟩, trivial⟩, trivial, ?_⟩, ?_⟩
  · intro b h; simp at h
  · intro b h; simp at h
  · intro b h
    simp only [Node.ifElse.injEq] at h
    subst h
    refine Or.inr ⟨fun σ => ?_, by decide, ?_⟩
    · by_cases h : σ "p" [] < 0
      · exact ⟨_, by simp [Brs.conds]; exact Or.inl rfl, by
          simp [St.cond, Cond.eval, St.ev, Expr.eval, St.val, h]⟩
      · refine ⟨.le (.int 0) (.sym "p"), by simp [Brs.conds], ?_⟩
        have h' : 0 ≤ σ "p" [] := by omega
        simp [St.cond, Cond.eval, St.ev, Expr.eval, St.val, h']
    · intro s hs l hl
      simp only [Brs.branches, List.mem_cons, List.not_mem_nil, or_false] at hs
      rcases hs with rfl | rfl <;> simp only [Seq.lastT, Option.some.injEq] at hl <;> subst hl <;> decide
  · simp [exCommon, CAE.seq, CAE.trans, CAE.addAll, exCAE, CAE.hoists, Brs.branches, Seq.lastT, CAE.allSame]

/-- **C16 fails** for self-referencing assignments: in `if (p < 0) { k := k + 1 } else if (p >= 0) { z := 1, k := k + 1 }` the
increment is executed twice after the pass. -/
theorem commonAssign_self_violated : ∃ (E : Env) (C : CAE) (root : Seq) (σ σ' : St), C.Sound ∧
    root.den E σ .normal σ' ∧ ∀ c τ', (C.seq root).den E σ c τ' → τ' "k" [] ≠ σ' "k" [] := by
  obtain ⟨σ', h1, h2⟩ := Seq.run_obs (E := exEnv) (σ := fun _ _ => 0) 20 (x := "k") (j := []) (c := .normal) (v := 1)
    (s := exCommon (.lt (.sym "p") (.int 0)) (.le (.int 0) (.sym "p")) (.add [.sym "k", .int 1])) (by decide)
  refine ⟨exEnv, exCAE, _, _, σ', exCAE_sound, h1, ?_⟩
  intro c τ' h
  have := (Seq.run_obs_all 20 (x := "k") (j := []) (c := .normal) (v := 2) (by decide) h).2
  rw [this, h2]; decide

/-- **C16 fails** for an if-else without else: with `p = 0`, `if (p < 0) { k := 7 } else if (p > 0) { z := 1, k := 7 }` leaves `k`
alone; after the pass `k` is 7. -/
theorem commonAssign_incomplete_violated : ∃ (E : Env) (C : CAE) (root : Seq) (σ σ' : St), C.Sound ∧
    root.den E σ .normal σ' ∧ ∀ c τ', (C.seq root).den E σ c τ' → τ' "k" [] ≠ σ' "k" [] := by
  obtain ⟨σ', h1, h2⟩ := Seq.run_obs (E := exEnv) (σ := fun _ _ => 0) 20 (x := "k") (j := []) (c := .normal) (v := 0)
    (s := exCommon (.lt (.sym "p") (.int 0)) (.lt (.int 0) (.sym "p")) (.int 7)) (by decide)
  refine ⟨exEnv, exCAE, _, _, σ', exCAE_sound, h1, ?_⟩
  intro c τ' h
  have := (Seq.run_obs_all 20 (x := "k") (j := []) (c := .normal) (v := 7) (by decide) h).2
  rw [this, h2]; decide

end Docc.IR
