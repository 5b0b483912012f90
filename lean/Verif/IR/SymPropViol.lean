import Verif.IR.SymPropMain
import Verif.IR.UGraphViol

/-! C75: programs that SymbolPropagation breaks, and a program that meets the hypotheses of the theorem. -/
namespace Docc.IR
open Docc.Sym

theorem last_of {α : Type} (p : α → Bool) : ∀ l : List α, (∃ w ∈ l, p w = true) → ∃ a w b, l = a ++ w :: b ∧ p w = true ∧ ∀ v ∈ b, p v = false
  | [], ⟨_, h, _⟩ => by cases h
  | v :: l, ⟨w, h, hw⟩ => by
    by_cases hl : ∃ w ∈ l, p w = true
    · obtain ⟨a, w, b, rfl, h1, h2⟩ := last_of p l hl
      exact ⟨v :: a, w, b, rfl, h1, h2⟩
    · rcases List.mem_cons.mp h with rfl | h
      · exact ⟨[], w, l, rfl, hw, fun z hz => by
          cases hz' : p z with
          | false => rfl
          | true => exact absurd ⟨z, hz, hz'⟩ hl⟩
      · exact absurd ⟨w, h, hw⟩ hl

/-- `defined_by` answers `ws`: every path to the read goes through one of `ws`, and only `ws` write `x`. -/
theorem defined_of {E : Env} {C : Brs → Bool} (hC : CompleteSound E C) {s : Seq} (hs : s.forsOk = true) {x : String} {j : Nat} {u0 : User} (ws : List V)
    (S : List V) (h : ((s.graph C).all fun e => !decide (e.1 ∈ S) || decide (e.1 ∈ ws) || decide (e.2 ∈ S)) = true) (h0 : V.nop 0 ∈ S)
    (hr : V.ev j u0 ∉ S) (hn : ∀ w ∈ ws, w.wr x = true)
    (hw : ((s.graph C).all fun e => !e.2.wr x || decide (e.2 ∈ ws)) = true) {σ : St} {l : List V} {o : Option (Ctl × St)}
    (hp : s.Performs E σ (l ++ [.ev j u0]) o) : ∃ p q w, w ∈ ws ∧ l = p ++ w :: q ∧ ∀ v ∈ q, v.wr x = false := by
  have reach := fun l1 b l2 hl => (Seq.starts hC (P := fun v => v ∈ l1 ∨ ∃ k, v = .nop k) (fun k => Or.inr ⟨k, rfl⟩) s hs (.nop 0) (.nop 1) 2
    (Or.inr ⟨0, rfl⟩) σ _ o hp).1 l1 b l2 hl (fun v hv => Or.inl hv)
  -- every performed write of `x` is one of `ws`
  have hwr : ∀ v ∈ l, v.wr x = true → v ∈ ws := by
    intro v hv hx
    obtain ⟨l1, l2, rfl⟩ := List.append_of_mem hv
    have := reach l1 v (l2 ++ [.ev j u0]) (by simp)
    cases this with
    | refl => simp [V.wr] at hx
    | step _ _ he =>
      have := List.all_eq_true.mp hw _ he
      simpa [hx] using this
  -- one of `ws` has been performed
  have hex : ∃ w ∈ ws, w ∈ l := by
    have hr' := reach l (.ev j u0) [] rfl
    have key : ∀ v, Reach (s.graph C) (fun v => v ∈ l ∨ ∃ k, v = .nop k) (.nop 0) v → v ∈ S ∨ ∃ w ∈ ws, w ∈ l := by
      intro v hv
      induction hv with
      | refl => exact Or.inl h0
      | step _ hP he ih =>
        rcases ih with ih | ih
        · have := List.all_eq_true.mp h _ he
          simp only [ih, decide_true, Bool.not_true, Bool.false_or, Bool.or_eq_true, decide_eq_true_eq] at this
          rcases this with h1 | h1
          · rcases hP with h2 | ⟨k, h2⟩
            · exact Or.inr ⟨_, h1, h2⟩
            · have := hn _ h1; rw [h2] at this; simp [V.wr] at this
          · exact Or.inl h1
        · exact Or.inr ih
    rcases key _ hr' with h | h
    · exact absurd h hr
    · exact h
  obtain ⟨w0, hw0, hl0⟩ := hex
  obtain ⟨p, w, q, rfl, h1, h2⟩ := last_of (fun v => v.wr x) l ⟨w0, hl0, hn _ hw0⟩
  exact ⟨p, q, w, hwr w (by simp) h1, rfl, h2⟩

/-- the writes of `y` in the graph -/
theorem writers_of {G : List (V × V)} {y : String} {u : V} (h : (G.all fun e => !e.1.wr y || decide (e.1 = u)) = true) :
    ∀ u' z, (u', z) ∈ G → u'.wr y = true → u' = u := by
  intro u' z he hw
  have := List.all_eq_true.mp h _ he
  simpa [hw] using this

/-- `a := n; for (i = 0; i < 2; i = i + 1) { o[i] = a; n := n + 1 }` -/
def exSpLoop : Seq :=
  .cons (.block []) [("a", .sym "n")] (.one (.loop false "i" (.int 0) (.lt (.sym "i") (.int 2)) (.add [.sym "i", .int 1])
    (.cons (.block [.tasklet "mov" [("a", [])] "o" [.sym "i"]]) [("n", .add [.sym "n", .int 1])] .nil)))

set_option maxRecDepth 20000 in
/-- **C75.** A write behind the read does not count as dangerous, although the loop brings it before the next read: `o[1]` becomes 3 instead of 2. -/
theorem symbol_propagation_loop : ∃ s : Seq, ∃ x e, ∃ w r : V, s.flowOk = true ∧ s.asg x e w 2 = true ∧ s.apart (x :: e.atoms) r 2 = true ∧
    DefinedBy exEnv s x w r ∧ Accepted (s.graph exNoC) x e w r ∧ (s.prop x e r 2).den exEnv ≠ s.den exEnv := by
  refine ⟨exSpLoop, "a", .sym "n", .ev 5 (.write, "a"), .ev 14 (.read, "a"), by decide, by decide, by decide, fun σ l o h => ?_, ⟨by decide, ?_,
    Or.inl fun u z hu y hy hw => ?_⟩, fun he => ?_⟩
  · obtain ⟨p, q, w, hw, hl, hq⟩ := defined_of exNoC_sound (x := "a") (by decide) [.ev 5 (.write, "a")] [.nop 0, .nop 2, .nop 3, .ev 4 (.read, "n"),
      .ev 5 (.write, "a")] (by decide) (by decide) (by decide) (by decide) (by decide) h
    simp only [List.mem_singleton] at hw
    exact ⟨p, q, hw ▸ hl, hq⟩
  · exact dominates_of [.nop 0, .nop 2, .nop 3, .ev 4 (.read, "n"), .ev 5 (.write, "a")] (by decide) (by decide) (by decide) (by decide)
  · have hy : y = "n" := by simpa [Expr.atoms] using hy
    subst hy
    have := writers_of (u := .ev 18 (.write, "n")) (by decide) u z hu hw
    subst this
    rintro ⟨_, _, _, h4⟩
    exact h4 (dominates_of [.nop 0, .nop 2, .nop 3, .ev 4 (.read, "n"), .ev 5 (.write, "a"), .nop 6, .ev 8 (.write, "i"), .ev 9 (.read, "i"), .nop 7,
      .nop 1, .nop 10, .nop 12, .ev 14 (.read, "a")] (by decide) (by decide) (by decide) (by decide))
  · obtain ⟨σ1, h1, h2⟩ := Seq.run_obs (E := exEnv) (s := exSpLoop.prop "a" (.sym "n") (.ev 14 (.read, "a")) 2) (σ := exUg) (c := .normal)
      (x := "o") (j := [1]) (v := 3) 60 (by decide)
    rw [he] at h1
    have := Seq.run_obs_all (E := exEnv) (s := exSpLoop) (σ := exUg) (c := .normal) (x := "o") (j := [1]) (v := 2) 60 (by decide) h1
    omega

/-- `a := n; { n := n + 1; y := a }` -/
def exSpTrans : Seq :=
  .cons (.block []) [("a", .sym "n")] (.cons (.block []) [("n", .add [.sym "n", .int 1]), ("y", .sym "a")] .nil)

set_option maxRecDepth 20000 in
/-- **C75.** The read may be in a transition that changes a symbol of `e` first: `y` becomes 3 instead of 2. -/
theorem symbol_propagation_transition : ∃ s : Seq, ∃ x e, ∃ w r : V, s.flowOk = true ∧ s.asg x e w 2 = true ∧
    DefinedBy exEnv s x w r ∧ Accepted (s.graph exNoC) x e w r ∧
    (∀ u z, (u, z) ∈ s.graph exNoC → ∀ y ∈ e.atoms, u.wr y = true → ¬ UsedBetween (s.graph exNoC) w r u) ∧
    (s.prop x e r 2).den exEnv ≠ s.den exEnv := by
  have hb : ∀ u z, (u, z) ∈ exSpTrans.graph exNoC → ∀ y ∈ (Expr.sym "n").atoms, u.wr y = true →
      ¬ UsedBetween (exSpTrans.graph exNoC) (.ev 5 (.write, "a")) (.ev 9 (.read, "a")) u := by
    intro u z hu y hy hw
    have hy : y = "n" := by simpa [Expr.atoms] using hy
    subst hy
    have := writers_of (u := .ev 10 (.write, "n")) (by decide) u z hu hw
    subst this
    exact not_usedBetween [.ev 10 (.write, "n"), .ev 11 (.write, "y"), .nop 1] (by decide) (by decide) (by decide)
  refine ⟨exSpTrans, "a", .sym "n", .ev 5 (.write, "a"), .ev 9 (.read, "a"), by decide, by decide, fun σ l o h => ?_, ⟨by decide, ?_,
    Or.inr hb⟩, hb, fun he => ?_⟩
  · obtain ⟨p, q, w, hw, hl, hq⟩ := defined_of exNoC_sound (x := "a") (by decide) [.ev 5 (.write, "a")] [.nop 0, .nop 2, .nop 3, .ev 4 (.read, "n"),
      .ev 5 (.write, "a")] (by decide) (by decide) (by decide) (by decide) (by decide) h
    simp only [List.mem_singleton] at hw
    exact ⟨p, q, hw ▸ hl, hq⟩
  · exact dominates_of [.nop 0, .nop 2, .nop 3, .ev 4 (.read, "n"), .ev 5 (.write, "a")] (by decide) (by decide) (by decide) (by decide)
  · obtain ⟨σ1, h1, h2⟩ := Seq.run_obs (E := exEnv) (s := exSpTrans.prop "a" (.sym "n") (.ev 9 (.read, "a")) 2) (σ := exUg) (c := .normal)
      (x := "y") (j := []) (v := 3) 60 (by decide)
    rw [he] at h1
    have := Seq.run_obs_all (E := exEnv) (s := exSpTrans) (σ := exUg) (c := .normal) (x := "y") (j := []) (v := 2) 60 (by decide) h1
    omega

/-- `a := n; n := n + 3 + n * n; y := a` -/
def exSpInv : Seq :=
  .cons (.block []) [("a", .sym "n")] (.cons (.block []) [("n", .add [.sym "n", .int 3, .mul [.sym "n", .sym "n"]])] (.cons (.block []) [("y", .sym "a")] .nil))

set_option maxRecDepth 20000 in
/-- **C75.** `inverse` ignores all arguments but the first two: `n + 3 + n * n` is "inverted" to `n - 3`, and `y` becomes 6 instead of 2. -/
theorem symbol_propagation_inverse : ∃ s : Seq, ∃ x e, ∃ w r : V, ∃ y d u e', s.flowOk = true ∧ s.asg x e w 2 = true ∧ s.apart (x :: e.atoms) r 2 = true ∧
    DefinedBy exEnv s x w r ∧ AcceptedInv (s.graph exNoC) s x e w r y d u e' ∧ (s.prop x e' r 2).den exEnv ≠ s.den exEnv := by
  refine ⟨exSpInv, "a", .sym "n", .ev 5 (.write, "a"), .ev 12 (.read, "a"), "n", .add [.sym "n", .int 3, .mul [.sym "n", .sym "n"]],
    .ev 9 (.write, "n"), .add [.sym "n", .mul [.int (-1), .int 3]], by decide, by decide, by decide, fun σ l o h => ?_, ⟨by decide, ?_, fun u z hu y hy hw _ => ?_,
      by decide, by decide, ?_, ?_, by decide, _, rfl, by decide⟩, fun he => ?_⟩
  · obtain ⟨p, q, w, hw, hl, hq⟩ := defined_of exNoC_sound (x := "a") (by decide) [.ev 5 (.write, "a")] [.nop 0, .nop 2, .nop 3, .ev 4 (.read, "n"),
      .ev 5 (.write, "a")] (by decide) (by decide) (by decide) (by decide) (by decide) h
    simp only [List.mem_singleton] at hw
    exact ⟨p, q, hw ▸ hl, hq⟩
  · exact dominates_of [.nop 0, .nop 2, .nop 3, .ev 4 (.read, "n"), .ev 5 (.write, "a")] (by decide) (by decide) (by decide) (by decide)
  · have hy : y = "n" := by simpa [Expr.atoms] using hy
    subst hy
    exact writers_of (by decide) u z hu hw
  · exact dominates_of [.nop 0, .nop 2, .nop 3, .ev 4 (.read, "n"), .ev 5 (.write, "a")] (by decide) (by decide) (by decide) (by decide)
  · exact dominates_of [.nop 0, .nop 2, .nop 3, .ev 4 (.read, "n"), .ev 5 (.write, "a"), .nop 6, .nop 7, .ev 8 (.read, "n"), .ev 9 (.write, "n")]
      (by decide) (by decide) (by decide) (by decide)
  · obtain ⟨σ1, h1, h2⟩ := Seq.run_obs (E := exEnv) (s := exSpInv.prop "a" (.add [.sym "n", .mul [.int (-1), .int 3]]) (.ev 12 (.read, "a")) 2) (σ := exUg) (c := .normal)
      (x := "y") (j := []) (v := 6) 60 (by decide)
    rw [he] at h1
    have := Seq.run_obs_all (E := exEnv) (s := exSpInv) (σ := exUg) (c := .normal) (x := "y") (j := []) (v := 2) 60 (by decide) h1
    omega

/-- `a := n; for (i = 0; i < 2; i = i + 1) { n := n + 1; o[i] = a }` -/
def exSpInvLoop : Seq :=
  .cons (.block []) [("a", .sym "n")] (.one (.loop false "i" (.int 0) (.lt (.sym "i") (.int 2)) (.add [.sym "i", .int 1])
    (.cons (.block []) [("n", .add [.sym "n", .int 1])] (.one (.block [.tasklet "mov" [("a", [])] "o" [.mul [.sym "i", .sym "a"]]])))))

set_option maxRecDepth 20000 in
/-- **C75.** The inverted assignment is undone once, although the loop performs it before every read: the second iteration writes `o[3]` instead
of `o[2]`. -/
theorem symbol_propagation_inverse_loop : ∃ s : Seq, ∃ x e, ∃ w r : V, ∃ y d u e', s.flowOk = true ∧ s.asg x e w 2 = true ∧
    s.apart (x :: e.atoms) r 2 = true ∧ (∃ a b, d = .add [a, b]) ∧
    DefinedBy exEnv s x w r ∧ AcceptedInv (s.graph exNoC) s x e w r y d u e' ∧ (s.prop x e' r 2).den exEnv ≠ s.den exEnv := by
  refine ⟨exSpInvLoop, "a", .sym "n", .ev 5 (.write, "a"), .ev 20 (.read, "a"), "n", .add [.sym "n", .int 1],
    .ev 15 (.write, "n"), .add [.sym "n", .mul [.int (-1), .int 1]], by decide, by decide, by decide, ⟨_, _, rfl⟩, fun σ l o h => ?_, ⟨by decide, ?_, fun u z hu y hy hw _ => ?_,
      by decide, by decide, ?_, ?_, by decide, _, rfl, by decide⟩, fun he => ?_⟩
  · obtain ⟨p, q, w, hw, hl, hq⟩ := defined_of exNoC_sound (x := "a") (by decide) [.ev 5 (.write, "a")] [.nop 0, .nop 2, .nop 3, .ev 4 (.read, "n"),
      .ev 5 (.write, "a")] (by decide) (by decide) (by decide) (by decide) (by decide) h
    simp only [List.mem_singleton] at hw
    exact ⟨p, q, hw ▸ hl, hq⟩
  · exact dominates_of [.nop 0, .nop 2, .nop 3, .ev 4 (.read, "n"), .ev 5 (.write, "a")] (by decide) (by decide) (by decide) (by decide)
  · have hy : y = "n" := by simpa [Expr.atoms] using hy
    subst hy
    exact writers_of (by decide) u z hu hw
  · exact dominates_of [.nop 0, .nop 2, .nop 3, .ev 4 (.read, "n"), .ev 5 (.write, "a")] (by decide) (by decide) (by decide) (by decide)
  · exact dominates_of [.nop 0, .nop 2, .nop 3, .ev 4 (.read, "n"), .ev 5 (.write, "a"), .nop 6, .ev 8 (.write, "i"), .ev 9 (.read, "i"), .nop 7, .nop 1,
      .nop 10, .nop 12, .nop 13, .ev 14 (.read, "n"), .ev 15 (.write, "n")] (by decide) (by decide) (by decide) (by decide)
  · obtain ⟨σ1, h1, h2⟩ := Seq.run_obs (E := exEnv) (s := exSpInvLoop.prop "a" (.add [.sym "n", .mul [.int (-1), .int 1]]) (.ev 20 (.read, "a")) 2) (σ := exUg)
      (c := .normal) (x := "o") (j := [3]) (v := 2) 60 (by decide)
    rw [he] at h1
    have := Seq.run_obs_all (E := exEnv) (s := exSpInvLoop) (σ := exUg) (c := .normal) (x := "o") (j := [3]) (v := 0) 60 (by decide) h1
    omega

/-- `if (c) { a := 1 } else { a := 2 }; d := b; b := a` -/
def exSpRev : Seq :=
  .cons (.ifElse (.cons (.ne (.sym "c") (.int 0)) (.cons (.block []) [("a", .int 1)] .nil) (.cons .tt (.cons (.block []) [("a", .int 2)] .nil) .nil))) [("d", .sym "b")]
   (.cons (.block []) [("b", .sym "a")] .nil)

/-- an if-else with a case `true` is complete -/
def exHasTt : Brs → Bool
  | .nil => false
  | .cons .tt _ _ => true
  | .cons _ _ r => exHasTt r
theorem exHasTt_sound : CompleteSound exEnv exHasTt
  | .nil, h, _ => by cases h
  | .cons c s r, h, σ => by
    cases c
    case tt => exact ⟨.tt, by simp [Brs.conds], rfl⟩
    all_goals
      obtain ⟨c, hc, h⟩ := exHasTt_sound r h σ
      exact ⟨c, by rw [Brs.conds]; exact List.mem_cons_of_mem _ hc, h⟩

set_option maxRecDepth 20000 in
/-- **C75.** Reverse propagation assigns `b` earlier without looking at the uses of `b` in between: `d` becomes 1 instead of 0. -/
theorem symbol_propagation_reverse : ∃ s : Seq, ∃ a b e1 e2, ∃ w1 w2 r : V, s.flowOk = true ∧ RevAccepted exEnv exHasTt s a b e1 e2 w1 w2 r ∧
    (s.rev b w1 w2 r 2).den exEnv ≠ s.den exEnv := by
  refine ⟨exSpRev, "a", "b", .int 1, .int 2, .ev 9 (.write, "a"), .ev 14 (.write, "a"), .ev 19 (.read, "a"), by decide, ⟨fun σ l o h => ?_, ?_, ?_,
    by decide, by decide, by decide, by decide, by decide, by decide, by decide⟩, fun he => ?_⟩
  · obtain ⟨p, q, w, hw, hl, hq⟩ := defined_of exHasTt_sound (x := "a") (by decide) [.ev 9 (.write, "a"), .ev 14 (.write, "a")] [.nop 0, .nop 2,
      .ev 4 (.read, "c"), .nop 5, .nop 7, .nop 8, .ev 9 (.write, "a"), .nop 10, .nop 12, .nop 13, .ev 14 (.write, "a")]
      (by decide) (by decide) (by decide) (by decide) (by decide) h
    simp only [List.mem_cons, List.not_mem_nil, or_false] at hw
    exact ⟨p, q, w, hw, hl, hq⟩
  · exact postDominates_of [.ev 9 (.write, "a"), .nop 6, .nop 3, .ev 15 (.read, "b"), .ev 16 (.write, "d"), .nop 17, .nop 18, .ev 19 (.read, "a")]
      (by decide) (by decide) (by decide) (by decide)
  · exact postDominates_of [.ev 14 (.write, "a"), .nop 11, .nop 3, .ev 15 (.read, "b"), .ev 16 (.write, "d"), .nop 17, .nop 18, .ev 19 (.read, "a")]
      (by decide) (by decide) (by decide) (by decide)
  · obtain ⟨σ1, h1, h2⟩ := Seq.run_obs (E := exEnv) (s := exSpRev.rev "b" (.ev 9 (.write, "a")) (.ev 14 (.write, "a")) (.ev 19 (.read, "a")) 2) (σ := exUg)
      (c := .normal) (x := "d") (j := []) (v := 1) 60 (by decide)
    rw [he] at h1
    have := Seq.run_obs_all (E := exEnv) (s := exSpRev) (σ := exUg) (c := .normal) (x := "d") (j := []) (v := 0) 60 (by decide) h1
    omega

/-! ### a program that meets the hypotheses -/

/-- `a := n + 1; for (i = 0; i < 2; i = i + 1) { o[a + i] = a }; n := 0` -/
def exSpOk : Seq :=
  .cons (.block []) [("a", .add [.sym "n", .int 1])] (.cons (.loop false "i" (.int 0) (.lt (.sym "i") (.int 2)) (.add [.sym "i", .int 1])
    (.one (.block [.tasklet "mov" [("a", [])] "o" [.add [.sym "a", .sym "i"]]]))) [("n", .int 0)] .nil)

set_option maxRecDepth 20000 in
example : (exSpOk.prop "a" (.add [.sym "n", .int 1]) (.ev 15 (.read, "a")) 2).den exEnv = exSpOk.den exEnv := by
  refine symbol_propagation_partial exNoC_sound (i := 5) (by decide) (by decide) (fun σ => ⟨_, rfl⟩) (by decide) (fun σ l o h => ?_)
    ⟨by decide, ?_, Or.inr fun u z hu y hy hw => ?_⟩ (fun u y hy hw _ hu => ?_) (by decide)
  · obtain ⟨p, q, w, hw, hl, hq⟩ := defined_of exNoC_sound (x := "a") (by decide) [.ev 5 (.write, "a")] [.nop 0, .nop 2, .nop 3, .ev 4 (.read, "n"),
      .ev 5 (.write, "a")] (by decide) (by decide) (by decide) (by decide) (by decide) h
    simp only [List.mem_singleton] at hw
    exact ⟨p, q, hw ▸ hl, hq⟩
  · exact dominates_of [.nop 0, .nop 2, .nop 3, .ev 4 (.read, "n"), .ev 5 (.write, "a")] (by decide) (by decide) (by decide) (by decide)
  · have hy : y = "n" := by simpa [Expr.atoms, Expr.atomsL] using hy
    subst hy
    have := writers_of (u := .ev 20 (.write, "n")) (by decide) u z hu hw
    subst this
    exact not_usedBetween [.ev 20 (.write, "n"), .nop 1] (by decide) (by decide) (by decide)
  · have hy : y = "n" := by simpa [Expr.atoms, Expr.atomsL] using hy
    subst hy
    have he : ∃ z, (u, z) ∈ exSpOk.graph exNoC := by
      obtain ⟨_, h2, p, hp, hl, _⟩ := hu
      cases p with
      | nil => simp at hl; exact absurd hl h2
      | cons z p => exact ⟨z, hp.1⟩
    obtain ⟨z, hz⟩ := he
    have := writers_of (u := .ev 20 (.write, "n")) (by decide) u z hz hw
    subst this
    exact not_usedBetween [.ev 20 (.write, "n"), .nop 1] (by decide) (by decide) (by decide) hu

/-- the read is found and replaced -/
example : exSpOk.prop "a" (.add [.sym "n", .int 1]) (.ev 15 (.read, "a")) 2 =
    .cons (.block []) [("a", .add [.sym "n", .int 1])] (.cons (.loop false "i" (.int 0) (.lt (.sym "i") (.int 2)) (.add [.sym "i", .int 1])
      (.one (.block [.tasklet "mov" [("a", [])] "o" [.add [.add [.sym "n", .int 1], .sym "i"]]]))) [("n", .int 0)] .nil) := rfl

end Docc.IR
