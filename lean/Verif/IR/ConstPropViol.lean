import Verif.IR.ConstPropProps
import Verif.IR.SymPropViol

/-! C76: programs that ConstantPropagation breaks, and a program that meets the hypotheses of the theorem. -/
namespace Docc.IR
open Docc.Sym

/-- `i := n + 1; i := n + 2` -/
def exCpRhs : Seq := .cons (.block []) [("i", .add [.sym "n", .int 1])] (.cons (.block []) [("i", .add [.sym "n", .int 2])] .nil)

theorem writers_of2 {G : List (V × V)} {y : String} {u1 u2 : V} (h : (G.all fun e => !e.1.wr y || decide (e.1 = u1) || decide (e.1 = u2)) = true) :
    ∀ u' z, (u', z) ∈ G → u'.wr y = true → u' = u1 ∨ u' = u2 := by
  intro u' z he hw
  have := List.all_eq_true.mp h _ he
  simpa [hw] using this

theorem no_writers {G : List (V × V)} {y : String} (h : (G.all fun e => !e.1.wr y) = true) : ∀ u' z, (u', z) ∈ G → u'.wr y = true → False := by
  intro u' z he hw
  have := List.all_eq_true.mp h _ he
  simp [hw] at this

set_option maxRecDepth 20000 in
/-- **C76.** The pass never compares the right-hand sides: `i := n + 2` is removed because `i := n + 1` reads the same symbol. -/
theorem constant_propagation_rhs : ∃ s : Seq, ∃ d1 d2 : Dfn, ∃ w1 w2 : V, s.flowOk = true ∧ s.dfn d1 w1 2 = true ∧ s.dfn d2 w2 2 = true ∧
    w1.wr d1.name = true ∧ w2.wr d1.name = true ∧ w2 ∉ s.stale 2 ∧ d1.name ∉ d1.indices ∧
    TwoDefs (s.graph exNoC) d1 d2 w1 w2 ∧ (s.drop w2 2).den exEnv ≠ s.den exEnv := by
  refine ⟨exCpRhs, .asg "i" (.add [.sym "n", .int 1]), .asg "i" (.add [.sym "n", .int 2]), .ev 5 (.write, "i"), .ev 9 (.write, "i"), by decide, by decide,
    by decide, by decide, by decide, by decide, by decide,
    { writers := writers_of2 (by decide), name := rfl, dom := ?_, subset := rfl, fixed := ?_, hasIn := by decide, count := by decide, recur := by decide,
      before := ?_, same := by decide }, fun he => ?_⟩
  · exact dominates_of [.nop 0, .nop 2, .nop 3, .ev 4 (.read, "n"), .ev 5 (.write, "i")] (by decide) (by decide) (by decide) (by decide)
  · intro u z _ y hy
    exact absurd hy (by simp [Dfn.indices, Dfn.subset, Dfn.inputs, Expr.atoms, Expr.atomsL])
  · intro m hm u z he hw
    have : m = ("n", []) := by simpa [Dfn.inputs, Expr.atoms, Expr.atomsL] using hm
    subst this
    exact absurd hw fun hw => no_writers (y := "n") (by decide) u z he hw
  · obtain ⟨σ1, h1, h2⟩ := Seq.run_obs (E := exEnv) (s := exCpRhs.drop (.ev 9 (.write, "i")) 2) (σ := exUg) (c := .normal)
      (x := "i") (j := []) (v := 3) 60 (by decide)
    rw [he] at h1
    have := Seq.run_obs_all (E := exEnv) (s := exCpRhs) (σ := exUg) (c := .normal) (x := "i") (j := []) (v := 4) 60 (by decide) h1
    omega

/-- `i = a[i]; i = a[i]` -/
def exCpIdx : Seq :=
  .cons (.block [.tasklet "mov" [("a", [.sym "i"])] "i" []]) [] (.cons (.block [.tasklet "mov" [("a", [.sym "i"])] "i" []]) [] .nil)

/-- `a[k] = k + 1` -/
def exCpSt : St := fun x j => if x = "a" then j.headD 0 + 1 else 0

set_option maxRecDepth 20000 in
/-- **C76.** A definition may read a container at an index that is the defined container itself: of two steps `i = a[i]` along a chain only one is left. -/
theorem constant_propagation_index : ∃ s : Seq, ∃ d : Dfn, ∃ w1 w2 : V, s.flowOk = true ∧ s.dfn d w1 2 = true ∧ s.dfn d w2 2 = true ∧
    w1.wr d.name = true ∧ w2.wr d.name = true ∧ w2 ∉ s.stale 2 ∧
    TwoDefs (s.graph exNoC) d d w1 w2 ∧ (s.drop w2 2).den exEnv ≠ s.den exEnv := by
  refine ⟨exCpIdx, .task "mov" [("a", [.sym "i"])] "i" [], .ev 6 (.write, "i"), .ev 11 (.write, "i"), by decide, by decide,
    by decide, by decide, by decide, by decide,
    { writers := writers_of2 (by decide), name := rfl, dom := ?_, subset := rfl, fixed := ?_, hasIn := by decide, count := by decide, recur := by decide,
      before := ?_, same := by decide }, fun he => ?_⟩
  · exact dominates_of [.nop 0, .nop 2, .ev 4 (.read, "a"), .ev 5 (.read, "i"), .ev 6 (.write, "i")] (by decide) (by decide) (by decide) (by decide)
  · intro u z he y hy hw
    have : y = "i" := by simpa [Dfn.indices, Dfn.subset, Dfn.inputs, Expr.atoms, Expr.atomsL] using hy
    subst this
    rintro ⟨h1, h2, _⟩
    rcases writers_of2 (u1 := .ev 6 (.write, "i")) (u2 := .ev 11 (.write, "i")) (by decide) u z he hw with h | h
    · exact h1 h
    · exact h2 h
  · intro m hm u z he hw
    have : m = ("a", [.sym "i"]) := by simpa [Dfn.inputs] using hm
    subst this
    exact absurd hw fun hw => no_writers (y := "a") (by decide) u z he hw
  · obtain ⟨σ1, h1, h2⟩ := Seq.run_obs (E := exEnv) (s := exCpIdx.drop (.ev 11 (.write, "i")) 2) (σ := exCpSt) (c := .normal)
      (x := "i") (j := []) (v := 1) 60 (by decide)
    rw [he] at h1
    have := Seq.run_obs_all (E := exEnv) (s := exCpIdx) (σ := exCpSt) (c := .normal) (x := "i") (j := []) (v := 2) 60 (by decide) h1
    omega

/-- `m := 3; for (i = 0; i < 2; i = i + 1) { x = a[m]; o[i] = x; x = a[m] }` -/
def exCpOk : Seq :=
  .cons (.block []) [("m", .int 3)] (.one (.loop false "i" (.int 0) (.lt (.sym "i") (.int 2)) (.add [.sym "i", .int 1])
    (.cons (.block [.tasklet "mov" [("a", [.sym "m"])] "x" []]) []
      (.cons (.block [.tasklet "mov" [("x", [])] "o" [.sym "i"], .tasklet "mov" [("a", [.sym "m"])] "x" []]) [] .nil))))

set_option maxRecDepth 20000 in
/-- the hypotheses of `constant_propagation_partial` can be met: the third computation of the loop is removed -/
example : (exCpOk.drop (.ev 23 (.write, "x")) 2).den exEnv = exCpOk.den exEnv ∧
    exCpOk.drop (.ev 23 (.write, "x")) 2 =
      .cons (.block []) [("m", .int 3)] (.one (.loop false "i" (.int 0) (.lt (.sym "i") (.int 2)) (.add [.sym "i", .int 1])
        (.cons (.block [.tasklet "mov" [("a", [.sym "m"])] "x" []]) [] (.cons (.block [.tasklet "mov" [("x", [])] "o" [.sym "i"]]) [] .nil)))) := by
  refine ⟨constant_propagation_partial exNoC_sound (s := exCpOk) (d := .task "mov" [("a", [.sym "m"])] "x" []) (i := 15) (j := 23) (by decide) (by decide)
    (by decide) (by decide)
    { writers := writers_of2 (by decide), name := rfl, dom := ?_, subset := rfl, fixed := ?_, hasIn := by decide, count := by decide, recur := by decide,
      before := ?_, same := by decide } (by decide), rfl⟩
  · exact dominates_of [.nop 0, .nop 2, .nop 3, .ev 4 (.write, "m"), .nop 5, .ev 7 (.write, "i"), .ev 8 (.read, "i"), .nop 6, .nop 1, .nop 9, .nop 11,
      .ev 13 (.read, "a"), .ev 14 (.read, "m"), .ev 15 (.write, "x")] (by decide) (by decide) (by decide) (by decide)
  · intro u z he y hy hw
    have : y = "m" := by simpa [Dfn.indices, Dfn.subset, Dfn.inputs, Expr.atoms, Expr.atomsL] using hy
    subst this
    have := writers_of (u := .ev 4 (.write, "m")) (by decide) u z he hw
    subst this
    exact not_usedBetween [.ev 4 (.write, "m"), .nop 5, .ev 7 (.write, "i"), .ev 8 (.read, "i"), .nop 6, .nop 1, .nop 9, .nop 11,
      .ev 13 (.read, "a"), .ev 14 (.read, "m"), .ev 15 (.write, "x")] (by decide) (by decide) (by decide)
  · intro m hm u z he hw
    have : m = ("a", [.sym "m"]) := by simpa [Dfn.inputs] using hm
    subst this
    exact absurd hw fun hw => no_writers (y := "a") (by decide) u z he hw

end Docc.IR
