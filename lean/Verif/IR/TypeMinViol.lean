import Verif.IR.TypeMinProps
import Verif.IR.AssumAnViol

/-
C81: a case that meets the hypotheses of `type_minimization_partial`, and one where the pass changes the result.
-/
namespace Docc.IR
open Docc.Sym

/-- the user declares `0 <= n <= 100` -/
def exTmAdd : Assums := fun x =>
  if x = "n" then some { lower := .int 0, upper := .int 100, lowers := [.int 0], uppers := [.int 100], tightLower := some (.int 0),
                         tightUpper := some (.int 100) }
  else none

/-- `A[trunc_i32(n)] = f(); for (i = 0; i < trunc_i32(n); i++) {}` -/
def exTmOk : Seq :=
  .cons (.block [.tasklet "f" [] "A" [truncOf (.sym "n")]]) []
    (.one (exLoop (.int 0) (.lt (.sym "i") (truncOf (.sym "n"))) exInc1 .nil))

theorem exTm_root : rootAssums exTmAdd (fun _ => none) = (exTmAdd, exTmAdd) := rfl

theorem exTm_hold (E : Env) (σ : St) (h : 0 ≤ σ "n" [] ∧ σ "n" [] ≤ 100) : exTmAdd.Hold (σ.val E) := by
  intro x a ha
  unfold exTmAdd at ha
  split at ha
  · subst x
    simp only [Option.some.injEq] at ha
    subst ha
    simp [Expr.eval, V.le_def, V.le, St.val, h]
  · cases ha

theorem exTm_safe : safeTrunc exTmAdd (.sym "n") = true := by decide

/-- the pass drops both truncations -/
theorem exTmOk_result : exTmOk.typeMin (exCtx exTmOk fun _ => []) id (rootAssums exTmAdd fun _ => none) =
    .cons (.block [.tasklet "f" [] "A" [.sym "n"]]) [] (.one (exLoop (.int 0) (.lt (.sym "i") (.sym "n")) exInc1 .nil)) := by
  have h1 : blockRepl id exTmAdd [.tasklet "f" [] "A" [truncOf (.sym "n")]] = [.sym "n"] := by decide
  have h2 : loopRepl id exTmAdd (.lt (.sym "i") (truncOf (.sym "n"))) = [.sym "n"] := by decide
  rw [exTm_root]
  simp only [exTmOk, Seq.one, exLoop, Seq.typeMin, Node.typeMin, h1, h2]
  rfl

/-- the hypotheses of `type_minimization_partial` are met -/
example (σ : St) (h : 0 ≤ σ "n" [] ∧ σ "n" [] ≤ 100) (k : Ctl) (τ : St) :
    exTmOk.den exEnv σ k τ ↔ (exTmOk.typeMin (exCtx exTmOk fun _ => []) id (rootAssums exTmAdd fun _ => none)).den exEnv σ k τ := by
  have hn : ¬ writes exTmOk.users "n" := by decide
  have hN : ∀ p τ, exTmOk.vis exEnv p σ τ → τ "n" [] = σ "n" [] := fun p τ hv => by
    rw [(Seq.vis_inv exEnv "n" (σ "n") exTmOk hn p σ τ rfl hv).1]
  have cases : ∀ p B n, exTmOk.assums (exCtx exTmOk fun _ => []) (exTmAdd, exTmAdd) p = some B → exTmOk.elem p = some n →
      B = (exTmAdd, exTmAdd) ∧ (n = .block [.tasklet "f" [] "A" [truncOf (.sym "n")]] ∨
        n = exLoop (.int 0) (.lt (.sym "i") (truncOf (.sym "n"))) exInc1 .nil) := by
    intro p B n hB hn
    match p with
    | [] => simp [exTmOk, Seq.elem] at hn
    | [0] =>
      simp only [exTmOk, Seq.elem, Node.elem, Seq.assums, Node.assums, Option.some.injEq] at hB hn
      exact ⟨hB.symm, Or.inl hn.symm⟩
    | 0 :: _ :: _ => simp [exTmOk, Seq.elem, Node.elem] at hn
    | [1] =>
      simp only [exTmOk, Seq.one, exLoop, Seq.elem, Node.elem, Seq.assums, Node.assums, Option.some.injEq] at hB hn
      exact ⟨hB.symm, Or.inr hn.symm⟩
    | 1 :: 0 :: [] => simp [exTmOk, Seq.one, exLoop, Seq.elem, Node.elem] at hn
    | 1 :: 0 :: _ :: _ => simp [exTmOk, Seq.one, exLoop, Seq.elem, Node.elem] at hn
    | 1 :: (_ + 1) :: _ => simp [exTmOk, Seq.one, exLoop, Seq.elem, Node.elem] at hn
    | (_ + 2) :: _ => simp [exTmOk, Seq.one, Seq.elem] at hn
  refine type_minimization_partial exEnv _ id (fun l => .refl l) exTmAdd _ exTmOk σ ?_ ?_ ?_ k τ
  · intro p B τ n hB hv hn
    obtain ⟨rfl, _⟩ := cases p B n hB hn
    exact exTm_hold exEnv τ (by rw [hN p τ hv]; exact h)
  · intro p B τ l hB hv hn
    obtain ⟨rfl, h1 | h1⟩ := cases p B _ hB hn
    · simp only [Node.block.injEq] at h1
      subst h1
      intro a ha
      have : a = .sym "n" := by
        rw [show blockRepl id exTmAdd [.tasklet "f" [] "A" [truncOf (.sym "n")]] = [.sym "n"] by decide] at ha
        simpa using ha
      subst this
      exact Or.inl (by decide)
    · cases h1
  · intro p B τ i a c u b hB hv hn
    obtain ⟨rfl, h1 | h1⟩ := cases p B _ hB hn
    · cases h1
    · simp only [exLoop, Node.loop.injEq] at h1
      obtain ⟨_, rfl, rfl, rfl, rfl, rfl⟩ := h1
      intro e he
      have : e = .sym "n" := by
        rw [show loopRepl id exTmAdd (.lt (.sym "i") (truncOf (.sym "n"))) = [.sym "n"] by decide] at he
        simpa using he
      subst this
      exact Or.inl (by decide)

/-- the inner loop `for (i = 1; trunc_i32(i) < 3; i += 2^32 + 1) {}`: the truncated values are 1, 2, 3 -/
def exTmInner : Node := exLoop (.int 1) (.lt (truncOf (.sym "i")) (.int 3)) (.add [.sym "i", .int (2 ^ 32 + 1)]) .nil

/-- the body of the outer loop: the inner loop, `k = i; i = 9` -/
def exTmBody : Seq := .cons exTmInner [("k", .sym "i"), ("i", .int 9)] .nil

/-- `for (i = 1; i < 10; i++) { for (i = 1; trunc_i32(i) < 3; i += 2^32 + 1) {}; k = i; i = 9 }` -/
def exTmBad : Seq := .one (exLoop (.int 1) (.lt (.sym "i") (.int 10)) exInc1 exTmBody)

/-- what is reported for the inner loop -/
def exTmInside : Assums := (exCtx exTmBad fun _ => []).bodyUpper (fun _ => none) "i" (.int 1) exInc1 (ssub (.int 10) (.int 1))
  ((exCtx exTmBad fun _ => []).bodyInit "i" (.int 1) ((exCtx exTmBad fun _ => []).bodyBase "i" (.lt (.sym "i") (.int 10)) exInc1 exTmBody))

theorem exTmBad_body : (exCtx exTmBad fun _ => []).body (fun _ => none) "i" (.int 1) (.lt (.sym "i") (.int 10)) exInc1 exTmBody = exTmInside :=
  body_some (by decide) (cnf_lt _ _) rfl

theorem exTmInside_safe : safeTrunc exTmInside (.sym "i") = true := by decide

/-- the pass drops the truncation of the inner condition -/
theorem exTmBad_result : exTmBad.typeMin (exCtx exTmBad fun _ => []) id (rootAssums (fun _ => none) fun _ => none) =
    .one (exLoop (.int 1) (.lt (.sym "i") (.int 10)) exInc1
      (.cons (exLoop (.int 1) (.lt (.sym "i") (.int 3)) (.add [.sym "i", .int (2 ^ 32 + 1)]) .nil) [("k", .sym "i"), ("i", .int 9)] .nil)) := by
  have e : (rootAssums (fun _ => none) (fun _ => none)) = ((fun _ => none), fun _ => none) := rfl
  have h1 : loopRepl id (fun _ => none) (.lt (.sym "i") (.int 10)) = [] := by decide
  have h2 : loopRepl id exTmInside (.lt (truncOf (.sym "i")) (.int 3)) = [.sym "i"] := by decide
  rw [e]
  unfold exTmBad
  simp only [Seq.one, exLoop, Seq.typeMin, Node.typeMin]
  rw [show (Seq.cons (Node.loop false "i" (.int 1) (.lt (.sym "i") (.int 10)) exInc1 exTmBody) [] Seq.nil) = exTmBad from rfl,
    exTmBad_body]
  simp only [propagate_none, exTmBody, exTmInner, exLoop, Seq.typeMin, Node.typeMin, h1, h2]
  rfl

/-- the states at the tests of the outer condition -/
theorem exTmBad_heads (σ τ : St) (h : Rel.iterHeads (fun σ => σ.cond exEnv (.lt (.sym "i") (.int 10)))
    (fun σ => σ.setS "i" (σ.ev exEnv exInc1)) (exTmBody.den exEnv) (σ.setS "i" (σ.ev exEnv (.int 1))) τ) :
    τ "i" [] = 1 ∨ τ "i" [] = 10 := by
  induction h with
  | here => left; rfl
  | next k _ _ h1 hk _ =>
    right
    simp only [exTmBody, Seq.den, Rel.upd_seq] at h1
    rcases h1 with ⟨σ1, h1, h2⟩ | ⟨hc, h1⟩
    · obtain ⟨_, rfl⟩ := h2
      rfl
    · have hp : k = .cont := by rcases hk with rfl | rfl <;> simp_all
      subst hp
      exfalso
      simp only [exTmInner, exLoop, Node.den, Rel.upd_seq] at h1
      generalize hk' : Ctl.cont = k' at h1
      generalize St.setS _ "i" _ = σ0 at h1
      induction h1 with
      | done _ => cases hk'
      | step _ _ _ _ _ ih => exact ih hk'
      | stop _ _ => cases hk'
      | ret _ _ _ _ => cases hk'

/-- **C81 fails** when the loop changes a symbol of the truncated argument: the bounds reported for `i` at the inner loop hold
when it is entered, but the condition is tested again after `i` has changed.  The original finishes with `k = 2^33 + 3`, the
transformed SDFG with `k = 2^32 + 2`. -/
theorem type_minimization_violated : ∃ (s : Seq) (C : Ctx) (σ τ τ' : St),
    (∀ p B τ n, s.assums C (rootAssums (fun _ => none) fun _ => none) p = some B → s.vis exEnv p σ τ → s.elem p = some n →
      B.1.Hold (τ.val exEnv) ∧ B.2.Hold (τ.val exEnv)) ∧
    s.den exEnv σ .normal τ ∧
    (s.typeMin C id (rootAssums (fun _ => none) fun _ => none)).den exEnv σ .normal τ' ∧
    τ "k" [] = 2 ^ 33 + 3 ∧ τ' "k" [] = 2 ^ 32 + 2 := by
  obtain ⟨τ, h1, h2⟩ := Seq.run_obs (E := exEnv) 60 (s := exTmBad) (σ := fun _ _ => 0) (x := "k") (j := []) (c := .normal) (v := 2 ^ 33 + 3) (by decide)
  obtain ⟨τ', h3, h4⟩ := Seq.run_obs (E := exEnv) 60
    (s := exTmBad.typeMin (exCtx exTmBad fun _ => []) id (rootAssums (fun _ => none) fun _ => none))
    (σ := fun _ _ => 0) (x := "k") (j := []) (c := .normal) (v := 2 ^ 32 + 2) (by rw [exTmBad_result]; decide)
  refine ⟨exTmBad, exCtx exTmBad fun _ => [], fun _ _ => 0, τ, τ', ?_, h1, h3, h2, h4⟩
  have e : (rootAssums (fun _ => none) (fun _ => none)) = ((fun _ => none), fun _ => none) := rfl
  intro p B τ n hB hv hn
  rw [e] at hB
  have none_hold : Assums.Hold (fun _ => none) (τ.val exEnv) := fun x a h => by cases h
  match p with
  | [] => simp [exTmBad, Seq.one, Seq.elem] at hn
  | [0] =>
    simp only [exTmBad, Seq.one, exLoop, Seq.assums, Node.assums, Option.some.injEq] at hB
    subst hB
    exact ⟨none_hold, none_hold⟩
  | 0 :: (_ + 1) :: _ => simp [exTmBad, Seq.one, exLoop, Seq.elem, Node.elem] at hn
  | [0, 0] => simp [exTmBad, Seq.one, exLoop, exTmBody, Seq.elem, Node.elem] at hn
  | 0 :: 0 :: (_ + 1) :: _ => simp [exTmBad, Seq.one, exLoop, exTmBody, Seq.elem, Node.elem] at hn
  | 0 :: 0 :: 0 :: (_ + 1) :: _ => simp [exTmBad, Seq.one, exLoop, exTmBody, exTmInner, Seq.elem, Node.elem] at hn
  | [0, 0, 0, 0] => simp [exTmBad, Seq.one, exLoop, exTmBody, exTmInner, Seq.elem, Node.elem] at hn
  | 0 :: 0 :: 0 :: 0 :: _ :: _ => simp [exTmBad, Seq.one, exLoop, exTmBody, exTmInner, Seq.elem, Node.elem] at hn
  | (_ + 1) :: _ => simp [exTmBad, Seq.one, Seq.elem] at hn
  | [0, 0, 0] =>
    have hB' : B = (exTmInside, exTmInside) := by
      rw [← exTmBad_body]
      unfold exTmBad at hB
      simp only [Seq.one, exLoop, Seq.assums, Node.assums, exTmBody, exTmInner, Option.some.injEq, propagate_none] at hB
      exact hB.symm
    subst hB'
    simp only [exTmBad, Seq.one, exLoop, Seq.vis, Node.vis, exTmBody, exTmInner] at hv
    obtain ⟨σ1, g1, g2, rfl⟩ := hv
    have hi : τ "i" [] = 1 := by
      rcases exTmBad_heads _ _ g1 with h | h
      · exact h
      · simp [St.cond, Cond.eval, St.ev, Expr.eval, St.val, h] at g2
    have : exTmInside.Hold (τ.val exEnv) := by
      rw [← exTmBad_body]
      refine body_hold _ _ exEnv τ "i" _ _ exInc1 _ ⟨1, rfl⟩ ?_ g2 ?_ ?_ ?_ ?_
      · intro f hf cl hcl l hl _
        rw [cnf_lt, Option.some.injEq] at hf
        subst hf
        simp only [List.mem_singleton] at hcl
        subst hcl
        simp only [List.mem_singleton] at hl
        subst hl
        exact ⟨rfl, Or.inr ⟨10, Or.inl rfl⟩⟩
      · intro _; rw [hi]; exact Int.le_refl 1
      · intro b hb; cases hb
      · intro b hb; cases hb
      · intro b hb; cases hb
    exact ⟨this, this⟩

end Docc.IR
