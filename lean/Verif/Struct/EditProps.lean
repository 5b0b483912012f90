import Verif.Struct.Edit
import Verif.Struct.UnifyProps
import Verif.Sym.CNFProps

/-
C80: inserting states and loops into an unstructured SDFG.
-/
namespace Docc.Struct
open Docc.Sym Docc.IR

/-! ### states of the edited machine -/

theorem at_modify (M : Mach) (k : Nat) (f : MState → MState) (j : Nat) :
    (M.modify k f).at j = if j = k ∧ j < M.states.length then f (M.at j) else M.at j := by
  unfold Mach.modify Mach.at
  simp only [List.getD_eq_getElem?_getD, List.getElem?_modify]
  by_cases hk : j = k
  · subst hk
    by_cases hj : j < M.states.length
    · simp [hj]
    · simp [hj]
  · have : ¬ k = j := fun h => hk h.symm
    simp only [hk, this, if_false, false_and]
    cases M.states[j]? <;> rfl

@[simp] theorem length_modify (M : Mach) (k : Nat) (f : MState → MState) : (M.modify k f).states.length = M.states.length := by
  simp [Mach.modify]

theorem at_addState (M : Mach) (s : MState) (b : Bool) (j : Nat) :
    (addState M s b).at j = if j = M.states.length then s else M.at j := by
  unfold addState Mach.at
  simp only [List.getD_eq_getElem?_getD]
  rcases Nat.lt_trichotomy j M.states.length with h | h | h
  · rw [List.getElem?_append_left h, if_neg (by omega)]
  · subst h; rw [if_pos rfl, List.getElem?_append_right (Nat.le_refl _)]; simp
  · rw [if_neg (by omega), List.getElem?_eq_none (by simp; omega), List.getElem?_eq_none (by omega)]

@[simp] theorem length_addState (M : Mach) (s : MState) (b : Bool) : (addState M s b).states.length = M.states.length + 1 := by
  simp [addState]

theorem at_out_lt {M : Mach} {k : Nat} (h : M.states.length ≤ k) : M.at k = {} := by
  unfold Mach.at
  rw [List.getD_eq_getElem?_getD, List.getElem?_eq_none h]; rfl

theorem at_before (M : Mach) (k : Nat) (b : Bool) (j : Nat) : (addStateBefore M k b).at j =
    if j = M.states.length then { out := [⟨k, .tt, []⟩] } else { M.at j with out := redirectTo k M.states.length (M.at j).out } := by
  unfold addStateBefore Mach.at
  simp only [List.getD_eq_getElem?_getD]
  rcases Nat.lt_trichotomy j M.states.length with h | h | h
  · rw [List.getElem?_append_left (by simpa using h), if_neg (by omega), List.getElem?_map, List.getElem?_eq_getElem h]; rfl
  · subst h; rw [if_pos rfl, List.getElem?_append_right (by simp)]; simp
  · rw [if_neg (by omega), List.getElem?_eq_none (by simp; omega), List.getElem?_eq_none (by omega)]; rfl

theorem mem_redirectTo {k n : Nat} {out : List MEdge} {f : MEdge} :
    f ∈ redirectTo k n out ↔ (f ∈ out ∧ f.dst ≠ k) ∨ ∃ e ∈ out, e.dst = k ∧ f = ⟨n, e.cond, []⟩ := by
  unfold redirectTo
  simp only [List.mem_append, List.mem_filter, List.mem_map, bne_iff_ne, ne_eq, beq_iff_eq]
  constructor
  · rintro (h | ⟨e, ⟨h1, h2⟩, rfl⟩)
    · exact Or.inl h
    · exact Or.inr ⟨e, h1, h2, rfl⟩
  · rintro (h | ⟨e, h1, h2, rfl⟩)
    · exact Or.inl h
    · exact Or.inr ⟨e, ⟨h1, h2⟩, rfl⟩

theorem redirectTo_nil {k n : Nat} {out : List MEdge} : redirectTo k n out = [] ↔ out = [] := by
  constructor
  · intro h
    rw [List.eq_nil_iff_forall_not_mem] at h ⊢
    intro e he
    by_cases hd : e.dst = k
    · exact h _ (mem_redirectTo.2 (Or.inr ⟨e, he, hd, rfl⟩))
    · exact h _ (mem_redirectTo.2 (Or.inl ⟨he, hd⟩))
  · rintro rfl; rfl

theorem cond_tt (E : Env) (σ : St) : σ.cond E .tt = true := rfl

/-! ### a state before another one -/

section
variable {E : Env} {M : Mach} {k : Nat} {b : Bool}

theorem before_forward (hM : M.Closed) (hA : ∀ j, ∀ e ∈ (M.at j).out, e.dst = k → e.asg = []) {d : String} {q : Bool} {τ : St} {n j : Nat} {σ : St}
    (h : M.EndsIn E d q τ n j σ) : j < M.states.length → ∃ m, (addStateBefore M k b).EndsIn E d q τ m j σ := by
  induction h with
  | @ret j σ h1 h2 h3 =>
    intro hj
    have hat := at_before M k b j
    rw [if_neg (by omega)] at hat
    exact ⟨0, .ret (by rw [hat]; exact redirectTo_nil.2 h1) (by rw [hat]; exact h2) (by rw [hat]; exact h3)⟩
  | @step n j σ j1 σ1 h1 _ ih =>
    intro hj
    obtain ⟨e, he, hc, rfl, rfl⟩ := h1
    have hat := at_before M k b j
    rw [if_neg (by omega)] at hat
    obtain ⟨m, hm⟩ := ih (hM.dst j e he)
    by_cases hk : e.dst = k
    · refine ⟨m + 1 + 1, .step (k' := M.states.length) (σ' := runBlock E (M.at j).stmts σ) ⟨⟨M.states.length, e.cond, []⟩, ?_, ?_, rfl, ?_⟩
        (.step ⟨⟨k, .tt, []⟩, ?_, rfl, hk, ?_⟩ hm)⟩
      · rw [hat]; exact mem_redirectTo.2 (Or.inr ⟨e, he, hk, rfl⟩)
      · rw [hat]; exact hc
      · rw [hat]; rfl
      · rw [at_before, if_pos rfl]; simp
      · rw [at_before, if_pos rfl, hA j e he hk]; rfl
    · exact ⟨m + 1, .step ⟨e, by rw [hat]; exact mem_redirectTo.2 (Or.inl ⟨he, hk⟩), by rw [hat]; exact hc, rfl, by rw [hat]⟩ hm⟩

theorem before_backward (hM : M.Closed) (hA : ∀ j, ∀ e ∈ (M.at j).out, e.dst = k → e.asg = []) {d : String} {q : Bool} {τ : St} (m : Nat) :
    ∀ j σ, (addStateBefore M k b).EndsIn E d q τ m j σ → j < M.states.length → ∃ n, M.EndsIn E d q τ n j σ := by
  induction m using Nat.strongRecOn with
  | _ m ih =>
    intro j σ h hj
    have hat := at_before M k b j
    rw [if_neg (by omega)] at hat
    cases h with
    | ret h1 h2 h3 =>
      rw [hat] at h1 h2 h3
      exact ⟨0, .ret (redirectTo_nil.1 h1) h2 h3⟩
    | @step m _ _ j1 σ1 h1 h2 =>
      obtain ⟨f, hf, hc, rfl, rfl⟩ := h1
      rw [hat] at hf hc h2
      rcases mem_redirectTo.1 hf with ⟨hf', _⟩ | ⟨e, he, hd, rfl⟩
      · obtain ⟨n, hn⟩ := ih m (by omega) _ _ h2 (hM.dst j f hf')
        exact ⟨n + 1, .step ⟨f, hf', hc, rfl, rfl⟩ hn⟩
      · cases h2 with
        | ret h3 _ _ => rw [at_before, if_pos rfl] at h3; cases h3
        | @step m _ _ j1 σ1 h3 h4 =>
          obtain ⟨g, hg, _, rfl, rfl⟩ := h3
          rw [at_before, if_pos rfl] at hg h4
          simp only [List.mem_cons, List.not_mem_nil, or_false] at hg
          subst hg
          have hlt : k < M.states.length := hd ▸ hM.dst j e he
          obtain ⟨n, hn⟩ := ih m (by omega) _ _ h4 hlt
          refine ⟨n + 1, .step ⟨e, he, hc, hd.symm, ?_⟩ hn⟩
          rw [hA j e he hd]; rfl

end

/-- **C80 (state before; proved part).** Inserting an empty state before state `k` does not change what the machine returns,
provided that the edges into `k` have no assignments (they are lost otherwise, `add_state_before_violated`); the new state
becomes the start state only if `k` was the start state. -/
theorem add_state_before_partial {E : Env} {M : Mach} (hM : M.Closed) {k : Nat} {isStart : Bool} (hs : isStart = true → k = M.start)
    (hA : ∀ j, ∀ e ∈ (M.at j).out, e.dst = k → e.asg = []) : SameReturns E M (addStateBefore M k isStart) := by
  intro σ d q τ
  cases hb : isStart with
  | false =>
    constructor
    · rintro ⟨n, h⟩; exact before_forward hM hA h hM.start
    · rintro ⟨m, h⟩; exact before_backward hM hA m _ _ h hM.start
  | true =>
    have hk := hs hb
    subst hk
    constructor
    · rintro ⟨n, h⟩
      obtain ⟨m, hm⟩ := before_forward (b := true) hM hA h hM.start
      refine ⟨m + 1, .step ⟨⟨M.start, .tt, []⟩, ?_, rfl, rfl, rfl⟩ ?_⟩
      · show _ ∈ ((addStateBefore M M.start true).at M.states.length).out
        rw [at_before, if_pos rfl]; simp
      · show Mach.EndsIn _ _ _ _ _ _ _ (runTrans E [] (runBlock E ((addStateBefore M M.start true).at M.states.length).stmts σ))
        rw [at_before, if_pos rfl]; exact hm
    · rintro ⟨m, h⟩
      have hst : (addStateBefore M M.start true).start = M.states.length := rfl
      rw [hst] at h
      cases h with
      | ret h3 _ _ => rw [at_before, if_pos rfl] at h3; cases h3
      | @step m _ _ j1 σ1 h3 h4 =>
        obtain ⟨g, hg, _, rfl, rfl⟩ := h3
        rw [at_before, if_pos rfl] at hg h4
        simp only [List.mem_cons, List.not_mem_nil, or_false] at hg
        subst hg
        exact before_backward hM hA m _ _ h4 hM.start

/-! ### a state after another one -/

theorem at_addEdge {M M' : Mach} {j : Nat} {e : MEdge} (h : addEdge M j e = some M') (hj : j < M.states.length) (k : Nat) :
    M'.at k = if k = j then { M.at j with out := (M.at j).out ++ [e] } else M.at k := by
  unfold addEdge at h
  split at h
  · cases h
  · cases h
    rw [at_modify]
    by_cases hk : k = j
    · subst hk; simp [hj]
    · simp [hk]

theorem start_addEdge {M M' : Mach} {j : Nat} {e : MEdge} (h : addEdge M j e = some M') : M'.start = M.start := by
  unfold addEdge at h
  split at h <;> cases h
  rfl

theorem length_addEdge {M M' : Mach} {j : Nat} {e : MEdge} (h : addEdge M j e = some M') : M'.states.length = M.states.length := by
  unfold addEdge at h
  split at h <;> cases h
  simp

theorem ret_addEdge {M M' : Mach} {j : Nat} {e : MEdge} (h : addEdge M j e = some M') : (M.at j).ret = none := by
  unfold addEdge at h
  split at h
  · cases h
  · rename_i hn; simpa using hn

theorem at_after {M M' : Mach} {k : Nat} {b : Bool} (h : addStateAfter M k b = some M') (hk : k < M.states.length) (j : Nat) :
    M'.at j = if j = k then { M.at k with out := if b then [⟨M.states.length, .tt, []⟩] else [] }
      else if j = M.states.length then { out := moved (M.at k).out } else M.at j := by
  unfold addStateAfter at h
  have h1 : ∀ i, ((addState M { out := moved (M.at k).out } false).modify k fun s => { s with out := [] }).at i =
      if i = k then { M.at k with out := [] } else if i = M.states.length then { out := moved (M.at k).out } else M.at i := by
    intro i
    rw [at_modify, at_addState]
    by_cases hi : i = k
    · subst hi
      have : i ≠ M.states.length := by omega
      simp [this]
      omega
    · simp [hi]
  cases b with
  | false =>
    simp only [Bool.false_eq_true, if_false, Option.some.injEq] at h
    subst h
    rw [h1]; rfl
  | true =>
    simp only [if_true] at h
    rw [at_addEdge h (by simp; omega), h1, h1]
    by_cases hi : j = k
    · subst hi; simp
    · simp [hi]

theorem start_after {M M' : Mach} {k : Nat} {b : Bool} (h : addStateAfter M k b = some M') : M'.start = M.start := by
  unfold addStateAfter at h
  cases b with
  | false => simp only [Bool.false_eq_true, if_false, Option.some.injEq] at h; subst h; rfl
  | true => simp only [if_true] at h; rw [start_addEdge h]; rfl

theorem length_after {M M' : Mach} {k : Nat} {b : Bool} (h : addStateAfter M k b = some M') : M'.states.length = M.states.length + 1 := by
  unfold addStateAfter at h
  cases b with
  | false => simp only [Bool.false_eq_true, if_false, Option.some.injEq] at h; subst h; simp
  | true => simp only [if_true] at h; rw [length_addEdge h]; simp

theorem ret_after {M M' : Mach} {k : Nat} (h : addStateAfter M k true = some M') (hk : k < M.states.length) : (M.at k).ret = none := by
  unfold addStateAfter at h
  simp only [if_true] at h
  have := ret_addEdge h
  rw [at_modify, at_addState] at this
  have hn : k ≠ M.states.length := by omega
  simp only [hn, if_false, length_addState] at this
  split at this <;> exact this

theorem mem_moved {out : List MEdge} {f : MEdge} : f ∈ moved out ↔ ∃ e ∈ out, f = ⟨e.dst, e.cond, []⟩ := by
  unfold moved
  rw [List.mem_map]
  constructor
  · rintro ⟨e, he, rfl⟩; exact ⟨e, he, rfl⟩
  · rintro ⟨e, he, rfl⟩; exact ⟨e, he, rfl⟩

section
variable {E : Env} {M M' : Mach} {k : Nat}

theorem after_forward (hM : M.Closed) (hk : k < M.states.length) (h' : addStateAfter M k true = some M')
    (hA : ∀ e ∈ (M.at k).out, e.asg = []) {d : String} {q : Bool} {τ : St} {n j : Nat} {σ : St}
    (h : M.EndsIn E d q τ n j σ) : j < M.states.length → ∃ m, M'.EndsIn E d q τ m j σ := by
  have hn : M.states.length ≠ k := by omega
  have hnew := at_after h' hk M.states.length
  rw [if_neg hn, if_pos rfl] at hnew
  have hkk := at_after h' hk k
  rw [if_pos rfl, if_pos rfl] at hkk
  induction h with
  | @ret j σ h1 h2 h3 =>
    intro hj
    by_cases hjk : j = k
    · subst hjk; rw [ret_after h' hk] at h2; cases h2
    · have hat := at_after h' hk j
      rw [if_neg hjk, if_neg (by omega)] at hat
      exact ⟨0, .ret (by rw [hat]; exact h1) (by rw [hat]; exact h2) (by rw [hat]; exact h3)⟩
  | @step n j σ j1 σ1 h1 _ ih =>
    intro hj
    obtain ⟨e, he, hc, rfl, rfl⟩ := h1
    obtain ⟨m, hm⟩ := ih (hM.dst j e he)
    by_cases hjk : j = k
    · subst hjk
      refine ⟨m + 1 + 1, .step (k' := M.states.length) (σ' := runBlock E (M.at j).stmts σ) ⟨⟨M.states.length, .tt, []⟩, ?_, rfl, rfl, ?_⟩
        (.step ⟨⟨e.dst, e.cond, []⟩, ?_, ?_, rfl, ?_⟩ hm)⟩
      · rw [hkk]; simp
      · rw [hkk]; rfl
      · rw [hnew]; exact mem_moved.2 ⟨e, he, rfl⟩
      · rw [hnew]; exact hc
      · rw [hnew, hA e he]; rfl
    · have hat := at_after h' hk j
      rw [if_neg hjk, if_neg (by omega)] at hat
      exact ⟨m + 1, .step ⟨e, by rw [hat]; exact he, by rw [hat]; exact hc, rfl, by rw [hat]⟩ hm⟩

theorem after_backward (hM : M.Closed) (hk : k < M.states.length) (h' : addStateAfter M k true = some M')
    (hA : ∀ e ∈ (M.at k).out, e.asg = []) {d : String} {q : Bool} {τ : St} (m : Nat) :
    ∀ j σ, M'.EndsIn E d q τ m j σ → j < M.states.length → ∃ n, M.EndsIn E d q τ n j σ := by
  have hn : M.states.length ≠ k := by omega
  have hnew := at_after h' hk M.states.length
  rw [if_neg hn, if_pos rfl] at hnew
  have hkk := at_after h' hk k
  rw [if_pos rfl, if_pos rfl] at hkk
  induction m using Nat.strongRecOn with
  | _ m ih =>
    intro j σ h hj
    by_cases hjk : j = k
    · subst hjk
      cases h with
      | ret h1 _ _ => rw [hkk] at h1; cases h1
      | @step m _ _ j1 σ1 h1 h2 =>
        obtain ⟨f, hf, _, rfl, rfl⟩ := h1
        rw [hkk] at hf h2
        simp only [List.mem_cons, List.not_mem_nil, or_false] at hf
        subst hf
        cases h2 with
        | ret _ h3 _ => rw [hnew] at h3; cases h3
        | @step m _ _ j1 σ1 h3 h4 =>
          obtain ⟨g, hg, hc, rfl, rfl⟩ := h3
          rw [hnew] at hg hc h4
          obtain ⟨e, he, rfl⟩ := mem_moved.1 hg
          obtain ⟨n, hn⟩ := ih m (by omega) _ _ h4 (hM.dst _ e he)
          refine ⟨n + 1, .step ⟨e, he, hc, rfl, ?_⟩ hn⟩
          rw [hA e he]; rfl
    · have hat := at_after h' hk j
      rw [if_neg hjk, if_neg (by omega)] at hat
      cases h with
      | ret h1 h2 h3 => rw [hat] at h1 h2 h3; exact ⟨0, .ret h1 h2 h3⟩
      | @step m _ _ j1 σ1 h1 h2 =>
        obtain ⟨f, hf, hc, rfl, rfl⟩ := h1
        rw [hat] at hf hc h2
        obtain ⟨n, hn⟩ := ih m (by omega) _ _ h2 (hM.dst j f hf)
        exact ⟨n + 1, .step ⟨f, hf, hc, rfl, rfl⟩ hn⟩

end

/-- **C80 (state after; proved part).** Inserting a connected empty state after state `k` does not change what the machine
returns, provided that the edges out of `k` have no assignments (they are lost otherwise, `add_state_after_violated`). -/
theorem add_state_after_partial {E : Env} {M M' : Mach} (hM : M.Closed) {k : Nat} (hk : k < M.states.length)
    (h : addStateAfter M k true = some M') (hA : ∀ e ∈ (M.at k).out, e.asg = []) : SameReturns E M M' := by
  intro σ d q τ
  unfold Mach.Returns
  rw [start_after h]
  constructor
  · rintro ⟨n, hn⟩; exact after_forward hM hk h hA hn hM.start
  · rintro ⟨m, hm⟩; exact after_backward hM hk h hA m _ _ hm hM.start

/-! ### a loop -/

theorem cond_neg (E : Env) (σ : St) (c : Cond) : σ.cond E c.neg = !σ.cond E c := neg_eval _ c

/-- the states of the machine after `add_loop` -/
theorem at_addLoop {M M' : Mach} {k : Nat} {i : String} {init : Expr} {c : Cond} {u : Expr} (hk : k < M.states.length)
    (h : addLoop M k i init c u = some M') :
    M'.start = M.start ∧ M'.states.length = M.states.length + 6 ∧
    M'.at k = { M.at k with out := [⟨M.states.length, .tt, [(i, init)]⟩] } ∧
    M'.at M.states.length = { out := [⟨M.states.length + 2, c.neg, []⟩, ⟨M.states.length + 3, c, []⟩] } ∧
    M'.at (M.states.length + 1) = { out := moved (M.at k).out } ∧
    M'.at (M.states.length + 2) = { out := [⟨M.states.length + 1, .tt, []⟩] } ∧
    M'.at (M.states.length + 3) = { out := [⟨M.states.length + 4, .tt, []⟩] } ∧
    M'.at (M.states.length + 4) = { out := [⟨M.states.length + 5, .tt, [(i, u)]⟩] } ∧
    M'.at (M.states.length + 5) = { out := [⟨M.states.length + 3, c, []⟩, ⟨M.states.length + 1, c.neg, []⟩] } ∧
    ∀ j, j < M.states.length → j ≠ k → M'.at j = M.at j := by
  unfold addLoop at h
  simp only [Option.bind_eq_bind, Option.bind_eq_some_iff] at h
  obtain ⟨M1, h1, M2, h2, M3, h3, M4, h4, M5, h5, M6, h6, M7, h7, M8, h8, h9⟩ := h
  have l1 := length_after h1
  have l2 := length_after h2
  have l3 := length_addEdge h3
  have l4 := length_addEdge h4
  have l5 := length_addEdge h5
  have l6 := length_addEdge h6
  have l7 := length_addEdge h7
  have l8 := length_addEdge h8
  have l9 := length_addEdge h9
  simp only [length_modify, length_addState] at l1 l2 l3 l4 l5 l6 l7 l8 l9
  have hat : ∀ j, M'.at j = _ := fun j => at_addEdge h9 (by omega) j
  have a8 : ∀ j, M8.at j = _ := fun j => at_addEdge h8 (by omega) j
  have a7 : ∀ j, M7.at j = _ := fun j => at_addEdge h7 (by simp only [length_addState]; omega) j
  have a6 : ∀ j, M6.at j = _ := fun j => at_addEdge h6 (by simp only [length_addState]; omega) j
  have a5 : ∀ j, M5.at j = _ := fun j => at_addEdge h5 (by simp only [length_addState]; omega) j
  have a4 : ∀ j, M4.at j = _ := fun j => at_addEdge h4 (by omega) j
  have a3 : ∀ j, M3.at j = _ := fun j => at_addEdge h3 (by simp only [length_addState]; omega) j
  have a2 : ∀ j, M2.at j = _ := fun j => at_after h2 (by simp only [length_modify]; omega) j
  have a1 : ∀ j, M1.at j = _ := fun j => at_after h1 hk j
  refine ⟨?_, by omega, ?_⟩
  · rw [start_addEdge h9, start_addEdge h8, start_addEdge h7]
    show M6.start = _
    rw [start_addEdge h6]
    show M5.start = _
    rw [start_addEdge h5]
    show M4.start = _
    rw [start_addEdge h4, start_addEdge h3]
    show M2.start = _
    rw [start_after h2]
    show M1.start = _
    rw [start_after h1]
  generalize hn : M.states.length = n at *
  have m2 : M2.states.length = n + 2 := by omega
  have m3 : M3.states.length = n + 3 := by omega
  have m4 : M4.states.length = n + 3 := by omega
  have m5 : M5.states.length = n + 4 := by omega
  have m6 : M6.states.length = n + 5 := by omega
  simp only [at_addState, at_modify, length_modify, l1, m2, m3, m4, m5, m6] at hat a8 a7 a6 a5 a4 a3 a2 a1
  have e0 : ∀ j, j < n → j ≠ k → M'.at j = M.at j := by
    intro j hj hjk
    have : j ≠ n := by omega
    have : j ≠ n + 1 := by omega
    have : j ≠ n + 2 := by omega
    have : j ≠ n + 3 := by omega
    have : j ≠ n + 4 := by omega
    have : j ≠ n + 5 := by omega
    simp [hat, a8, a7, a6, a5, a4, a3, a2, a1, *]
  have kn : k ≠ n := by omega
  have k1 : k ≠ n + 1 := by omega
  have k2 : k ≠ n + 2 := by omega
  have k3 : k ≠ n + 3 := by omega
  have k4 : k ≠ n + 4 := by omega
  have k5 : k ≠ n + 5 := by omega
  have kl : k < n + 1 := by omega
  refine ⟨?_, ?_, ?_, ?_, ?_, ?_, ?_, e0⟩
  · simp [hat, a8, a7, a6, a5, a4, a3, a2, a1, kn, k1, k2, k3, k4, k5, kl]
  all_goals
    have n0 : ¬ n = k := by omega
    have n1 : ¬ n + 1 = k := by omega
    have n2 : ¬ n + 2 = k := by omega
    have n3 : ¬ n + 3 = k := by omega
    have n4 : ¬ n + 4 = k := by omega
    have n5 : ¬ n + 5 = k := by omega
    simp [hat, a8, a7, a6, a5, a4, a3, a2, a1, n0, n1, n2, n3, n4, n5, moved]

/-- put computations into the dataflow graph of a state -/
def fill (M : Mach) (k : Nat) (l : List Stmt) : Mach := M.modify k fun s => { s with stmts := l }

/-- `for (i = init; c; i = u) { l }` -/
def forLoop (i : String) (init : Expr) (c : Cond) (u : Expr) (l : List Stmt) : Node := .loop false i init c u (.one (.block l))

theorem one_block_den (E : Env) (l : List Stmt) : (Seq.one (.block l)).den E = Rel.upd (runBlock E l) := by
  show Rel.seq (Node.den E (.block l)) (Rel.seq (Rel.upd (runTrans E [])) (Rel.upd id)) = _
  rw [Node.den, Rel.upd_upd, Rel.upd_upd]
  rfl

theorem forLoop_den (E : Env) (i : String) (init : Expr) (c : Cond) (u : Expr) (l : List Stmt) (σ : St) (k : Ctl) (τ : St) :
    (forLoop i init c u l).den E σ k τ ↔
      Rel.iter (fun σ => σ.cond E c) (fun σ => σ.setS i (σ.ev E u)) (Rel.upd (runBlock E l)) (σ.setS i (σ.ev E init)) k τ := by
  unfold forLoop
  rw [Node.den, Rel.upd_seq, one_block_den]

/-- **C80 (loop).** `add_loop` inserts the loop it is asked for: when the dataflow graph of the returned body state is filled with
the computations `l`, then from state `k` the machine comes to the returned final state exactly with the memories in which
the dataflow of `k` followed by `for (i = init; c; i = u) { l }` finishes; the final state has the edges which `k` had, without
their assignments, and the other states are unchanged. -/
theorem add_loop_partial {E : Env} {M M' : Mach} {k : Nat} {i : String} {init : Expr} {c : Cond} {u : Expr} (hk : k < M.states.length)
    (h : addLoop M k i init c u = some M') (l : List Stmt) :
    (∀ σ τ, (fill M' (M.states.length + 4) l).Until E (M.states.length + 1) τ k σ ↔
      (forLoop i init c u l).den E (runBlock E (M.at k).stmts σ) .normal τ) ∧
    (fill M' (M.states.length + 4) l).start = M.start ∧
    ((fill M' (M.states.length + 4) l).at (M.states.length + 1)).stmts = [] ∧
    (∀ f, f ∈ ((fill M' (M.states.length + 4) l).at (M.states.length + 1)).out ↔ ∃ e ∈ (M.at k).out, f = ⟨e.dst, e.cond, []⟩) ∧
    ∀ j, j < M.states.length → j ≠ k → (fill M' (M.states.length + 4) l).at j = M.at j := by
  obtain ⟨hs, hl, ak, a0, a1, a2, a3, a4, a5, ao⟩ := at_addLoop hk h
  generalize hn : M.states.length = n at *
  have hat : ∀ j, (fill M' (n + 4) l).at j = if j = n + 4 then { out := [⟨n + 5, .tt, [(i, u)]⟩], stmts := l } else M'.at j := by
    intro j
    unfold fill
    rw [at_modify, hl]
    by_cases hj : j = n + 4
    · subst hj; simp [a4]
    · simp [hj]
  have bk := hat k
  rw [if_neg (by omega), ak] at bk
  have b0 := hat n
  rw [if_neg (by omega), a0] at b0
  have b1 := hat (n + 1)
  rw [if_neg (by omega), a1] at b1
  have b2 := hat (n + 2)
  rw [if_neg (by omega), a2] at b2
  have b3 := hat (n + 3)
  rw [if_neg (by omega), a3] at b3
  have b4 := hat (n + 4)
  rw [if_pos rfl] at b4
  have b5 := hat (n + 5)
  rw [if_neg (by omega), a5] at b5
  refine ⟨fun σ τ => ?_, hs, by rw [b1], fun f => by rw [b1]; exact mem_moved, fun j hj hjk => ?_⟩
  · rw [forLoop_den]
    generalize hM : fill M' (n + 4) l = M2 at *
    have iterR : ∀ {a z}, Rel.iter (fun σ => σ.cond E c) (fun σ => σ.setS i (σ.ev E u)) (Rel.upd (runBlock E l)) a .normal z →
        M2.Until E (n + 1) z (n + 5) a ∧ M2.Until E (n + 1) z n a := by
      intro a z hit
      generalize hc : Ctl.normal = ct at hit
      induction hit with
      | @done a hb =>
        have hb' : a.cond E c.neg = true := by rw [cond_neg]; simpa using hb
        exact ⟨.step (by omega) ⟨⟨n + 1, c.neg, []⟩, by rw [b5]; simp, by rw [b5]; exact hb', rfl, by rw [b5]; rfl⟩ .here,
          .step (σ' := a) (by omega) ⟨⟨n + 2, c.neg, []⟩, by rw [b0]; simp, by rw [b0]; exact hb', rfl, by rw [b0]; rfl⟩
            (.step (k := n + 2) (by omega) ⟨⟨n + 1, .tt, []⟩, by rw [b2]; simp, rfl, rfl, by rw [b2]; rfl⟩ .here)⟩
      | @step a a1 ct z kk hb hR hkk _ ih =>
        obtain ⟨rfl, rfl⟩ := hR
        obtain ⟨h5, _⟩ := ih hc
        have h3 : M2.Until E (n + 1) z (n + 3) a :=
          .step (σ' := a) (by omega) ⟨⟨n + 4, .tt, []⟩, by rw [b3]; simp, rfl, rfl, by rw [b3]; rfl⟩
            (.step (k := n + 4) (by omega) ⟨⟨n + 5, .tt, [(i, u)]⟩, by rw [b4]; simp, rfl, rfl, by rw [b4]; rfl⟩ h5)
        exact ⟨.step (by omega) ⟨⟨n + 3, c, []⟩, by rw [b5]; simp, by rw [b5]; exact hb, rfl, by rw [b5]; rfl⟩ h3,
          .step (by omega) ⟨⟨n + 3, c, []⟩, by rw [b0]; simp, by rw [b0]; exact hb, rfl, by rw [b0]; rfl⟩ h3⟩
      | stop _ hR => cases hR.1
      | ret _ _ _ hR => cases hc
    have back : ∀ {j a}, M2.Until E (n + 1) τ j a →
        (j = n + 1 ∨ j = n + 2 → τ = a) ∧
        (j = n ∨ j = n + 5 → Rel.iter (fun σ => σ.cond E c) (fun σ => σ.setS i (σ.ev E u)) (Rel.upd (runBlock E l)) a .normal τ) ∧
        (j = n + 3 ∨ j = n + 4 → Rel.iter (fun σ => σ.cond E c) (fun σ => σ.setS i (σ.ev E u)) (Rel.upd (runBlock E l))
          ((runBlock E l a).setS i ((runBlock E l a).ev E u)) .normal τ) := by
      intro j a hu
      induction hu with
      | here => exact ⟨fun _ => rfl, fun h => by omega, fun h => by omega⟩
      | @step j j1 a a1 hj hst _ ih =>
        obtain ⟨e, he, hc, rfl, rfl⟩ := hst
        refine ⟨?_, ?_, ?_⟩
        · rintro (rfl | rfl)
          · exact absurd rfl hj
          · rw [b2] at he ih
            simp only [List.mem_cons, List.not_mem_nil, or_false] at he
            subst he
            exact ih.1 (Or.inl rfl)
        · have key : ∀ e : MEdge, e.asg = [] → (e.dst = n + 1 ∨ e.dst = n + 2) ∧ e.cond = c.neg ∨ e.dst = n + 3 ∧ e.cond = c →
              a.cond E e.cond = true → (e.dst = n + 1 ∨ e.dst = n + 2 → τ = a) →
              (e.dst = n + 3 ∨ e.dst = n + 4 → Rel.iter (fun σ => σ.cond E c) (fun σ => σ.setS i (σ.ev E u)) (Rel.upd (runBlock E l))
                ((runBlock E l a).setS i ((runBlock E l a).ev E u)) .normal τ) →
              Rel.iter (fun σ => σ.cond E c) (fun σ => σ.setS i (σ.ev E u)) (Rel.upd (runBlock E l)) a .normal τ := by
            rintro e _ (⟨hd, hce⟩ | ⟨hd, hce⟩) hc h1 h2
            · rw [hce, cond_neg] at hc
              rw [h1 hd]
              exact .done (by simpa using hc)
            · rw [hce] at hc
              exact .step .normal hc ⟨rfl, rfl⟩ (Or.inl rfl) (h2 (Or.inl hd))
          rintro (rfl | rfl)
          · rw [b0] at he hc ih
            simp only [List.mem_cons, List.not_mem_nil, or_false] at he
            rcases he with rfl | rfl
            · exact key _ rfl (Or.inl ⟨Or.inr rfl, rfl⟩) hc ih.1 ih.2.2
            · exact key _ rfl (Or.inr ⟨rfl, rfl⟩) hc ih.1 ih.2.2
          · rw [b5] at he hc ih
            simp only [List.mem_cons, List.not_mem_nil, or_false] at he
            rcases he with rfl | rfl
            · exact key _ rfl (Or.inr ⟨rfl, rfl⟩) hc ih.1 ih.2.2
            · exact key _ rfl (Or.inl ⟨Or.inl rfl, rfl⟩) hc ih.1 ih.2.2
        · rintro (rfl | rfl)
          · rw [b3] at he ih
            simp only [List.mem_cons, List.not_mem_nil, or_false] at he
            subst he
            exact ih.2.2 (Or.inr rfl)
          · rw [b4] at he ih
            simp only [List.mem_cons, List.not_mem_nil, or_false] at he
            subst he
            exact ih.2.1 (Or.inr rfl)
    constructor
    · intro hu
      cases hu with
      | here => omega
      | step _ hst hu =>
        obtain ⟨e, he, _, rfl, rfl⟩ := hst
        rw [bk] at he hu
        simp only [List.mem_cons, List.not_mem_nil, or_false] at he
        subst he
        exact (back hu).2.1 (Or.inl rfl)
    · intro hit
      exact .step (by omega) ⟨⟨n, .tt, [(i, init)]⟩, by rw [bk]; simp, rfl, rfl, by rw [bk]; rfl⟩ (iterR hit).2
  · rw [hat, if_neg (by omega), ao j hj hjk]

end Docc.Struct
