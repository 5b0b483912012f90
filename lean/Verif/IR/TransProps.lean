import Verif.IR.UsersProps
import Verif.IR.Sem

/-
C24: the code of a transition (sequence_dispatcher.cpp:32-42: one C assignment per entry, in the iteration order of an
`unordered_map`) and the simultaneous assignment it stands for.
-/
namespace Docc.IR
open Docc.Sym

/-- Specification: all right-hand sides are evaluated in the old memory, then all symbols are assigned. -/
def simul (E : Env) (t : Trans) (σ : St) : St := fun x j =>
  match t.find? (fun a => a.1 == x) with
  | some a => if j = [] then σ.ev E a.2 else σ x j
  | none => σ x j

/-- Each symbol is assigned once and no right-hand side reads a symbol another entry assigns. -/
def Indep (t : Trans) : Prop := (t.map (·.1)).Nodup ∧ ∀ a ∈ t, ∀ b ∈ t, b.1 ≠ a.1 → b.1 ∉ a.2.atoms

instance (t : Trans) : Decidable (Indep t) := inferInstanceAs (Decidable (_ ∧ _))

theorem Indep.tail {a : String × Expr} {t : Trans} (h : Indep (a :: t)) : Indep t :=
  ⟨(List.nodup_cons.1 h.1).2, fun b hb c hc => h.2 b (List.mem_cons_of_mem _ hb) c (List.mem_cons_of_mem _ hc)⟩

theorem Indep.perm {t t' : Trans} (hp : t.Perm t') (h : Indep t) : Indep t' :=
  ⟨(hp.map _).nodup_iff.1 h.1, fun a ha b hb => h.2 a (hp.mem_iff.2 ha) b (hp.mem_iff.2 hb)⟩

theorem runTrans_cons (E : Env) (a : String × Expr) (t : Trans) (σ : St) :
    runTrans E (a :: t) σ = runTrans E t (σ.setS a.1 (σ.ev E a.2)) := rfl
theorem runTrans_append (E : Env) (t t' : Trans) (σ : St) : runTrans E (t ++ t') σ = runTrans E t' (runTrans E t σ) := by
  simp [runTrans]

theorem runTrans_notin (E : Env) (t : Trans) (σ : St) (x : String) (h : ∀ a ∈ t, a.1 ≠ x) : runTrans E t σ x = σ x := by
  refine runTrans_frame E t σ x ?_
  simp only [transUsers, writes_append, writes_readsOf, false_or]
  simp only [writes, List.mem_map, not_exists, not_and]
  intro a ha he
  simp only [Prod.mk.injEq, true_and] at he
  exact h a ha he

theorem runTrans_index (E : Env) (t : Trans) (σ : St) (x : String) (j : List Int) (h : j ≠ []) : runTrans E t σ x j = σ x j := by
  induction t generalizing σ with
  | nil => rfl
  | cons a r ih =>
    rw [runTrans_cons, ih]; simp [St.setS, St.set, h]

theorem runTrans_mem (E : Env) (t : Trans) (σ : St) (hI : Indep t) (a : String × Expr) (ha : a ∈ t) :
    runTrans E t σ a.1 [] = σ.ev E a.2 := by
  induction t generalizing σ with
  | nil => simp at ha
  | cons b r ih =>
    have hnd := List.nodup_cons.1 hI.1
    rw [runTrans_cons]
    rcases List.mem_cons.1 ha with rfl | ha'
    · rw [runTrans_notin, St.setS_same]
      intro c hc he
      exact hnd.1 (List.mem_map.2 ⟨c, hc, he⟩)
    · rw [ih _ hI.tail ha']
      refine St.ev_congr E fun y hy => ?_
      have hne : b.1 ≠ a.1 := fun he => hnd.1 (List.mem_map.2 ⟨a, ha', he.symm⟩)
      have : y ≠ b.1 := fun he => hI.2 a ha b (by simp) hne (he ▸ hy)
      rw [St.setS_other _ _ this]

/-- **C24** (partial): the emitted assignments, in whatever order, have the effect of the simultaneous assignment — when
each symbol is assigned once and no right-hand side reads a symbol assigned by another entry. -/
theorem transition_simultaneous_partial (E : Env) (t t' : Trans) (hI : Indep t) (hp : t.Perm t') (σ : St) :
    runTrans E t' σ = simul E t σ := by
  funext x j
  have hI' := hI.perm hp
  unfold simul
  cases hf : t.find? (fun a => a.1 == x) with
  | none =>
    simp only [List.find?_eq_none, beq_iff_eq] at hf
    simp only
    rw [runTrans_notin E t' σ x fun a ha => hf a (hp.mem_iff.2 ha)]
  | some a =>
    have hm := List.mem_of_find?_eq_some hf
    have he := List.find?_some hf
    simp only [beq_iff_eq] at he
    subst he
    simp only
    split
    · rename_i hj; subst hj; exact runTrans_mem E t' σ hI' a (hp.mem_iff.1 hm)
    · rename_i hj; exact runTrans_index E t' σ _ j hj

/-- the order of independent assignments does not matter -/
theorem transition_order_partial (E : Env) (t t' : Trans) (hI : Indep t) (hp : t.Perm t') (σ : St) :
    runTrans E t σ = runTrans E t' σ := by
  rw [transition_simultaneous_partial E t t' hI hp, transition_simultaneous_partial E t t hI (List.Perm.refl t)]

/-- hypotheses of `transition_simultaneous_partial`: `i := i + 1, s := n`, in the other order -/
example : Indep [("i", .add [.sym "i", .int 1]), ("s", .sym "n")] ∧
    [("i", Expr.add [.sym "i", .int 1]), ("s", .sym "n")].Perm [("s", .sym "n"), ("i", .add [.sym "i", .int 1])] := by
  refine ⟨by decide, List.Perm.swap _ _ _⟩

/-- **C24 fails** without independence: `i := j, j := i` (accepted by `Transition::validate`) gives different memories in
its two orders, and neither is the simultaneous swap. -/
theorem transition_order_violated : ∃ (E : Env) (t t' : Trans) (σ : St), (t.map (·.1)).Nodup ∧ t.Perm t' ∧
    runTrans E t σ "i" [] ≠ runTrans E t' σ "i" [] ∧ runTrans E t σ ≠ simul E t σ ∧ runTrans E t' σ ≠ simul E t σ := by
  refine ⟨exEnv, [("i", .sym "j"), ("j", .sym "i")], [("j", .sym "i"), ("i", .sym "j")],
    fun x _ => if x = "i" then 1 else 2, by decide, List.Perm.swap _ _ _, by decide, ?_, ?_⟩
  · intro h
    have := congrFun (congrFun h "j") []
    exact absurd this (by decide)
  · intro h
    have := congrFun (congrFun h "i") []
    exact absurd this (by decide)

end Docc.IR
