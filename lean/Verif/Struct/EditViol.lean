import Verif.Struct.EditProps

/-
C80 fails: the builder loses the assignments of the edges it redirects.
-/
namespace Docc.Struct
open Docc.Sym Docc.IR

/-- `x = 1; return x` -/
def exAssign : Mach := ⟨[goto (1, put "x" 1), ret "x"], 0⟩

theorem exec_det {M : Mach} {E : Env} (hD : M.Deterministic E) {d : String} {q : Bool} {τ : St} {n k : Nat} {σ : St}
    (h : M.EndsIn E d q τ n k σ) : M.exec E (n + 1) k σ = some (d, q, τ) := by
  induction h with
  | ret h1 h2 h3 => rw [Mach.exec]; rw [h1]; simp [h2, h3]
  | @step n k σ k1 σ1 h1 h2 ih =>
    obtain ⟨e, he, hc, rfl, rfl⟩ := h1
    rw [Mach.exec]
    split
    · rename_i ho; rw [ho] at he; cases he
    · rename_i e0 es ho
      split
      · rename_i hf
        have := List.find?_eq_none.1 hf e (ho ▸ he)
        exact absurd hc (by simpa using this)
      · rename_i f hf
        have hfm : f ∈ (M.at k).out := ho ▸ List.mem_of_find?_eq_some hf
        have := hD.unique k _ e he f hfm hc (by simpa using List.find?_some hf)
        subst this
        exact ih

theorem exec_mono {M : Mach} {E : Env} {r : String × Bool × St} : ∀ f g k σ, M.exec E f k σ = some r → f ≤ g → M.exec E g k σ = some r
  | 0, _, _, _, h, _ => by cases h
  | f + 1, 0, _, _, _, h => by omega
  | f + 1, g + 1, k, σ, h, hl => by
    rw [Mach.exec] at h ⊢
    split at h
    · rename_i ho; split at h
      · cases h
      · exact h
    · rename_i e0 es ho
      split at h
      · cases h
      · exact exec_mono f g _ _ h (by omega)

/-- the outcome of a deterministic machine is unique -/
theorem returns_eq {M : Mach} {E : Env} (hD : M.Deterministic E) {σ : St} {f : Nat} {r : String × Bool × St} (h : M.exec E f M.start σ = some r)
    {d : String} {q : Bool} {τ : St} (hr : M.Returns E σ d q τ) : (d, q, τ) = r := by
  obtain ⟨n, hn⟩ := hr
  have h1 := exec_mono (n + 1) (max f (n + 1)) _ _ (exec_det hD hn) (Nat.le_max_right ..)
  have h2 := exec_mono f (max f (n + 1)) _ _ h (Nat.le_max_left ..)
  rw [h1] at h2
  exact Option.some.inj h2

theorem not_same {M M' : Mach} {E : Env} (hD : M'.Deterministic E) {σ : St} {d : String} {q : Bool} {x : String} {v w : Int} {f g : Nat}
    (h1 : (M.exec E f M.start σ).map (fun r => (r.1, r.2.1, r.2.2 x [])) = some (d, q, v))
    (h2 : (M'.exec E g M'.start σ).map (fun r => r.2.2 x []) = some w) (hne : v ≠ w) : ¬ SameReturns E M M' := by
  intro hs
  obtain ⟨τ, hr, hv⟩ := Mach.exec_obs f h1
  have hr' := (hs σ d q τ).1 hr
  cases hx : M'.exec E g M'.start σ with
  | none => rw [hx] at h2; cases h2
  | some r =>
    have := returns_eq hD hx hr'
    subst this
    rw [hx] at h2
    simp only [Option.map_some, Option.some.injEq] at h2
    exact hne (hv.symm.trans h2)

/-- **C80 fails for `add_state_before`.** Before: `x = 1; return x` returns 1.  After inserting a state before the return state
the assignment `x = 1` is gone. -/
theorem add_state_before_violated : ∃ (E : Env) (M : Mach) (k : Nat), M.Closed ∧ M.Deterministic E ∧ k < M.states.length ∧
    ¬ SameReturns E M (addStateBefore M k false) := by
  refine ⟨exEnv, exAssign, 1, ⟨by decide, fun k e he => ?_⟩, deterministic_of_simple _ ?_, by decide,
    not_same (σ := fun _ _ => 0) (x := "x") (d := "x") (q := false) (v := 1) (w := 0) (f := 9) (g := 9) (deterministic_of_simple _ ?_)
      (by decide) (by decide) (by decide)⟩
  · have : k = 0 ∨ k = 1 := by
      have := at_lt he
      have h2 : exAssign.states.length = 2 := rfl
      omega
    rcases this with rfl | rfl <;> simp [exAssign, Mach.at, goto, ret] at he
    subst he; decide
  · intro s hs
    simp only [exAssign, List.mem_cons, List.not_mem_nil, or_false] at hs
    rcases hs with rfl | rfl
    · exact goto_simple _
    · exact ret_simple _
  · intro s hs
    have : (addStateBefore exAssign 1 false).states = [{ out := [⟨2, .tt, []⟩] }, ret "x", { out := [⟨1, .tt, []⟩] }] := rfl
    rw [this] at hs
    simp only [List.mem_cons, List.not_mem_nil, or_false] at hs
    rcases hs with rfl | rfl | rfl
    · exact Or.inr (Or.inl ⟨_, rfl⟩)
    · exact ret_simple _
    · exact Or.inr (Or.inl ⟨_, rfl⟩)

/-- the machine after inserting a state behind the first one -/
def exAssignAfter : Mach := ⟨[{ out := [⟨2, .tt, []⟩] }, ret "x", { out := [⟨1, .tt, []⟩] }], 0⟩

theorem exAssignAfter_eq : addStateAfter exAssign 0 true = some exAssignAfter := rfl

/-- **C80 fails for `add_state_after`.** Before: `x = 1; return x` returns 1.  After inserting a state after the first state the
assignment is gone. -/
theorem add_state_after_violated : ∃ (E : Env) (M M' : Mach) (k : Nat), M.Closed ∧ M.Deterministic E ∧ k < M.states.length ∧
    addStateAfter M k true = some M' ∧ ¬ SameReturns E M M' := by
  refine ⟨exEnv, exAssign, exAssignAfter, 0, ⟨by decide, fun k e he => ?_⟩, deterministic_of_simple _ ?_, by decide, exAssignAfter_eq,
    not_same (σ := fun _ _ => 0) (x := "x") (d := "x") (q := false) (v := 1) (w := 0) (f := 9) (g := 9) (deterministic_of_simple _ ?_)
      (by decide) (by decide) (by decide)⟩
  · have : k = 0 ∨ k = 1 := by
      have := at_lt he
      have h2 : exAssign.states.length = 2 := rfl
      omega
    rcases this with rfl | rfl <;> simp [exAssign, Mach.at, goto, ret] at he
    subst he; decide
  · intro s hs
    simp only [exAssign, List.mem_cons, List.not_mem_nil, or_false] at hs
    rcases hs with rfl | rfl
    · exact goto_simple _
    · exact ret_simple _
  · intro s hs
    simp only [exAssignAfter, List.mem_cons, List.not_mem_nil, or_false] at hs
    rcases hs with rfl | rfl | rfl
    · exact Or.inr (Or.inl ⟨_, rfl⟩)
    · exact ret_simple _
    · exact Or.inr (Or.inl ⟨_, rfl⟩)

/-- **C80 fails for `add_return_state_after`.** A return state cannot be inserted after a state that has a successor: the
builder tries to move the edges to the return state and throws. -/
theorem add_return_after_violated : ∀ (M : Mach) (k : Nat) (d : String) (q : Bool), (M.at k).out ≠ [] → addReturnAfter M k d q = none := by
  intro M k d q h
  unfold addReturnAfter
  rw [if_neg h]

/-- **C80 (return state; proved part).** After a state without successors that is not a return state, a return state is
inserted: the machine then returns the data, with the memory behind the dataflow of that state, where it was stuck
before; all other states are unchanged. -/
theorem add_return_after_partial {E : Env} {M : Mach} {k : Nat} (hk : k < M.states.length) (ho : (M.at k).out = []) (hr : (M.at k).ret = none)
    (d : String) (q : Bool) : ∃ M', addReturnAfter M k d q = some M' ∧ M'.start = M.start ∧
      (∀ j, j < M.states.length → j ≠ k → M'.at j = M.at j) ∧
      ∀ σ d' q' τ n, M'.EndsIn E d' q' τ n k σ ↔ n = 1 ∧ d' = d ∧ q' = q ∧ τ = runBlock E (M.at k).stmts σ := by
  have hkn : k ≠ M.states.length := by omega
  have ha : ((addState M { ret := some (d, q) } false).at k) = M.at k := by rw [at_addState, if_neg hkn]
  have hret : ((addState M { ret := some (d, q) } false).at k).ret.isSome = false := by rw [ha, hr]; rfl
  obtain ⟨M', h⟩ : ∃ M', addEdge (addState M { ret := some (d, q) } false) k ⟨M.states.length, .tt, []⟩ = some M' := by
    unfold addEdge
    rw [hret]; exact ⟨_, rfl⟩
  have hat := fun j => at_addEdge h (by simp; omega) j
  refine ⟨M', by unfold addReturnAfter; rw [if_pos ho]; exact h, (start_addEdge h).trans rfl, fun j hj hjk => ?_, fun σ d' q' τ n => ?_⟩
  · rw [hat, if_neg hjk, at_addState, if_neg (by omega)]
  have hk' : M'.at k = { M.at k with out := [⟨M.states.length, .tt, []⟩] } := by
    rw [hat, if_pos rfl, ha, ho]; rfl
  have hn' : M'.at M.states.length = { ret := some (d, q) } := by
    rw [hat, if_neg (Ne.symm hkn), at_addState, if_pos rfl]
  constructor
  · intro he
    cases he with
    | ret h1 _ _ => rw [hk'] at h1; cases h1
    | @step m _ _ k1 σ1 h1 h2 =>
      obtain ⟨e, he, _, rfl, rfl⟩ := h1
      rw [hk'] at he h2
      simp only [List.mem_cons, List.not_mem_nil, or_false] at he
      subst he
      cases h2 with
      | ret h3 h4 h5 =>
        rw [hn'] at h4 h5
        simp only [Option.some.injEq, Prod.mk.injEq] at h4
        exact ⟨rfl, h4.1.symm, h4.2.symm, h5⟩
      | step h3 _ =>
        obtain ⟨e, he, _⟩ := h3
        rw [hn'] at he; cases he
  · rintro ⟨rfl, rfl, rfl, rfl⟩
    exact .step ⟨⟨M.states.length, .tt, []⟩, by rw [hk']; simp, rfl, rfl, rfl⟩
      (.ret (by rw [hn']) (by rw [hn']) (by rw [hn', hk']; rfl))

/-! ### the hypotheses can be met -/

/-- `if (x < 5) goto 1 else goto 2` without assignments -/
def exPlain : Mach := ⟨[sw (.lt (.sym "x") (.int 5)) (1, []) (2, []), goto (2, []), ret "x"], 0⟩

theorem exPlain_asg (j : Nat) : ∀ e ∈ (exPlain.at j).out, e.asg = [] := by
  intro e he
  have : j = 0 ∨ j = 1 ∨ j = 2 := by
    have := at_lt he
    have h2 : exPlain.states.length = 3 := rfl
    omega
  rcases this with rfl | rfl | rfl <;> simp [exPlain, Mach.at, sw, goto, ret] at he
  · rcases he with rfl | rfl <;> rfl
  · subst he; rfl

theorem exPlain_closed : exPlain.Closed := by
  refine ⟨by decide, fun j e he => ?_⟩
  have : j = 0 ∨ j = 1 ∨ j = 2 := by
    have := at_lt he
    have h2 : exPlain.states.length = 3 := rfl
    omega
  rcases this with rfl | rfl | rfl <;> simp [exPlain, Mach.at, sw, goto, ret] at he
  · rcases he with rfl | rfl <;> decide
  · subst he; decide

example (E : Env) : SameReturns E exPlain (addStateBefore exPlain 2 false) :=
  add_state_before_partial exPlain_closed (by intro h; cases h) fun j e he _ => exPlain_asg j e he

/-- `for (i = 0; i < 3; i = i + 1)` after the first state; the machine that results -/
def exLooped : Option Mach := addLoop exPlain 1 "i" (.int 0) (.lt (.sym "i") (.int 3)) (.add [.sym "i", .int 1])

example : exLooped.isSome = true := rfl
/-- the loop runs three times -/
example : exLooped.bind (fun M => ((fill M 7 [.tasklet "+" [("x", []), ("i", [])] "x" []]).exec exEnv 60 0 (fun y _ => if y = "x" then 1 else 0)).map (fun r => r.2.2 "x" []))
    = some 4 := by decide

end Docc.Struct
