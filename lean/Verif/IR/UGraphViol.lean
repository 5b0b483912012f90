import Verif.IR.UGraphPostProps
import Verif.IR.UsersProps

/-
Programs for which the answers of the users analysis and of the dominance analysis are wrong, and programs that meet the hypotheses of the
theorems about them.
-/
namespace Docc.IR
open Docc.Sym

/-- `x := 1; r` -/
def exSetOne (x : String) (r : Seq) : Seq := .cons (.block []) [(x, .int 1)] r
/-- `if (c != 0) n` -/
def exWhen (c : String) (s : Seq) : Node := .ifElse (.cons (.ne (.sym c) (.int 0)) s .nil)
/-- no if-else is complete (sound) -/
def exNoC : Brs → Bool := fun _ => false
theorem exNoC_sound : CompleteSound exEnv exNoC := by intro b h; cases h
/-- `c = 1`, `n = 2` -/
def exUg : St := fun x _ => if x = "c" then 1 else if x = "n" then 2 else 0

/-- `for (i = 0; true; i++) { if (c) break; x = 1; } y = 1` -/
def exDomFor : Seq :=
  .cons (.loop false "i" (.int 0) .tt (.add [.sym "i", .int 1]) (.cons (exWhen "c" (.one .brk)) [] (exSetOne "x" .nil))) [("y", .int 1)] .nil

set_option maxRecDepth 8000 in
/-- **C71.** The analysis says that the write of `x` dominates the write of `y`; but an execution performs the latter only. -/
theorem dominates_unsound_for : ∃ s : Seq, ∃ a b : V, ∃ σ l o, Dominates (s.graph exNoC) (.nop 0) a b ∧ s.Performs exEnv σ l o ∧ b ∈ l ∧ a ∉ l := by
  obtain ⟨o, h⟩ := Seq.uses_performs exEnv exDomFor 4 exUg (l := [.ev 4 (.write, "i"), .ev 9 (.read, "c"), .ev 18 (.write, "y")]) (by decide)
  refine ⟨exDomFor, .ev 15 (.write, "x"), .ev 18 (.write, "y"), exUg, _, o, ?_, h, by decide, by decide⟩
  exact dominates_of [.nop 0, .nop 2, .ev 4 (.write, "i"), .nop 5, .nop 7, .ev 9 (.read, "c"), .nop 10, .nop 12, .nop 11, .nop 8, .nop 13,
    .nop 14, .ev 15 (.write, "x")] (by decide) (by decide) (by decide) (by decide)

/-- `for (i = 0; i < 2; i++) { if (c) continue; x = 1; }` -/
def exDomCont : Seq :=
  .one (.loop false "i" (.int 0) (.lt (.sym "i") (.int 2)) (.add [.sym "i", .int 1]) (.cons (exWhen "c" (.one .cont)) [] (exSetOne "x" .nil)))

set_option maxRecDepth 8000 in
/-- **C71.** The analysis says that the write of `x` dominates the update of `i`; but `x` is never written. -/
theorem dominates_unsound_continue : ∃ s : Seq, ∃ a b : V, ∃ σ l o,
    Dominates (s.graph exNoC) (.nop 0) a b ∧ s.Performs exEnv σ l o ∧ b ∈ l ∧ a ∉ l := by
  obtain ⟨o, h⟩ := Seq.uses_performs exEnv exDomCont 1 exUg (l := [.ev 4 (.write, "i"), .ev 5 (.read, "i"), .ev 10 (.read, "c"),
    .ev 17 (.read, "i"), .ev 18 (.write, "i")]) (by decide)
  refine ⟨exDomCont, .ev 16 (.write, "x"), .ev 18 (.write, "i"), exUg, _, o, ?_, h, by decide, by decide⟩
  exact dominates_of [.nop 0, .nop 2, .ev 4 (.write, "i"), .ev 5 (.read, "i"), .nop 3, .nop 1, .nop 6, .nop 8, .ev 10 (.read, "c"), .nop 11,
    .nop 13, .nop 12, .nop 9, .nop 14, .nop 15, .ev 16 (.write, "x")] (by decide) (by decide) (by decide) (by decide)

/-- `for (i = 0; m < n; i++) { m = m + 1; }` -/
def exAfterFor : Seq :=
  .one (.loop false "i" (.int 0) (.lt (.sym "m") (.sym "n")) (.add [.sym "i", .int 1]) (.cons (.block []) [("m", .add [.sym "m", .int 1])] .nil))

set_option maxRecDepth 8000 in
/-- **C72.** `all_uses_after` the write of `m` does not list the read of `m` by the loop condition, which comes after it. -/
theorem uses_after_incomplete : ∃ s : Seq, ∃ a b : V, ∃ σ l0 l1 l2 o,
    s.Performs exEnv σ (l0 ++ a :: (l1 ++ b :: l2)) o ∧ a ≠ b ∧ ¬ UsedAfter (s.graph exNoC) a b := by
  obtain ⟨o, h⟩ := Seq.uses_performs exEnv exAfterFor 2 exUg (l := [.ev 4 (.write, "i"), .ev 5 (.read, "m"), .ev 6 (.read, "n"),
    .ev 11 (.read, "m")] ++ .ev 12 (.write, "m") :: ([.ev 13 (.read, "i"), .ev 14 (.write, "i")] ++ .ev 5 (.read, "m") ::
    [.ev 6 (.read, "n"), .ev 11 (.read, "m"), .ev 12 (.write, "m"), .ev 13 (.read, "i"), .ev 14 (.write, "i")])) (by decide)
  refine ⟨exAfterFor, _, _, exUg, _, _, _, o, h, by decide, ?_⟩
  exact not_usedAfter [.ev 12 (.write, "m"), .nop 8, .ev 13 (.read, "i"), .ev 14 (.write, "i"), .nop 3, .ev 6 (.read, "n"), .nop 1, .nop 7,
    .nop 9, .nop 10, .ev 11 (.read, "m")] (by decide) (by decide) (by decide)

/-- `while (1) { v = 1; if (c) break; c = 1; } b = 1` -/
def exBetween : Seq := .cons (.whileL (exSetOne "v" (.cons (exWhen "c" (.one .brk)) [] (exSetOne "c" .nil)))) [("b", .int 1)] .nil

set_option maxRecDepth 8000 in
/-- **C72.** `v` is written between the write of `c` and the write of `b`, but `all_uses_between` these two does not list it. -/
theorem uses_between_incomplete : ∃ s : Seq, ∃ a v b : V, ∃ σ l0 l1 l2 l3 o,
    s.Performs exEnv σ (l0 ++ a :: (l1 ++ v :: (l2 ++ b :: l3))) o ∧ a ∉ l2 ∧ v ≠ a ∧ v ≠ b ∧ ¬ UsedBetween (s.graph exNoC) a b v := by
  obtain ⟨o, h⟩ := Seq.uses_performs exEnv exBetween 4 (fun _ _ => 0) (l := [.ev 8 (.write, "v"), .ev 11 (.read, "c")] ++
    .ev 17 (.write, "c") :: ([] ++ .ev 8 (.write, "v") :: ([.ev 11 (.read, "c")] ++ .ev 18 (.write, "b") :: []))) (by decide)
  refine ⟨exBetween, _, _, _, _, _, _, _, _, o, h, by decide, by decide, by decide, ?_⟩
  exact not_usedBetween [.ev 8 (.write, "v"), .nop 9, .ev 11 (.read, "c"), .nop 12, .nop 14, .nop 13, .nop 10, .nop 15, .nop 16,
    .ev 17 (.write, "c")] (by decide) (by decide) (by decide)

/-- `while (1) { if (c) { a = 1; break; } x = 1; }` -/
def exPost : Seq := .one (.whileL (.cons (exWhen "c" (exSetOne "a" (.one .brk))) [] (exSetOne "x" .nil)))

set_option maxRecDepth 8000 in
/-- **C73.** The analysis says that the write of `x` post-dominates the write of `a`; but the program ends without it. -/
theorem post_dominates_unsound_break : ∃ s : Seq, ∃ a v : V, ∃ σ l c σ',
    PostDominates (s.graph exNoC) a v ∧ s.Performs exEnv σ l (some (c, σ')) ∧ v ∈ l ∧ a ∉ l := by
  have h := (Seq.tf_ok exEnv 4 exPost 2 exUg).1
  have h1 : (exPost.tf exEnv 4 2 exUg).1 = [.ev 8 (.read, "c"), .ev 13 (.write, "a")] := by decide
  have h2 : (exPost.tf exEnv 4 2 exUg).2 = some (.normal, (exUg.setS "a" 1)) := by rfl
  rw [h1, h2] at h
  refine ⟨exPost, .ev 17 (.write, "x"), .ev 13 (.write, "a"), exUg, _, _, _, ?_, h, by decide, by decide⟩
  exact postDominates_of [.ev 13 (.write, "a"), .nop 14, .nop 10, .nop 7, .nop 15, .nop 16, .ev 17 (.write, "x")]
    (by decide) (by decide) (by decide) (by decide)

/-! ### a program that meets the hypotheses -/

/-- `for (i = 0; i < n; i++) { x = 1; if (c) { y = 1; } } z = 1; return x` -/
def exUgOk : Seq :=
  .cons (.loop false "i" (.int 0) (.lt (.sym "i") (.sym "n")) (.add [.sym "i", .int 1])
    (exSetOne "x" (.cons (exWhen "c" (exSetOne "y" .nil)) [] .nil))) [("z", .int 1)] (.one (.ret "x" false))

example : exUgOk.forsOk = true ∧ exUgOk.flowOk = true := by decide

set_option maxRecDepth 20000 in
example : ∃ a b, Dominates (exUgOk.graph exNoC) (.nop 0) a b ∧ ∃ o, exUgOk.Performs exEnv exUg (exUgOk.uses exEnv 2 exUg) o ∧
    b ∈ exUgOk.uses exEnv 2 exUg := by
  obtain ⟨o, h⟩ := Seq.uses_performs exEnv exUgOk 2 exUg rfl
  refine ⟨.ev 11 (.write, "x"), .ev 19 (.write, "y"), ?_, o, h, by decide⟩
  exact dominates_of [.nop 0, .nop 2, .ev 4 (.write, "i"), .ev 5 (.read, "i"), .ev 6 (.read, "n"), .nop 3, .ev 22 (.write, "z"),
    .ev 23 (.read, "x"), .nop 1, .nop 7, .nop 9, .nop 10, .ev 11 (.write, "x")] (by decide) (by decide) (by decide) (by decide)

set_option maxRecDepth 20000 in
example : ∃ a v, PostDominates (exUgOk.graph exNoC) a v ∧ ∃ c σ', exUgOk.Performs exEnv exUg (exUgOk.uses exEnv 4 exUg) (some (c, σ')) ∧
    v ∈ exUgOk.uses exEnv 4 exUg := by
  refine ⟨.ev 22 (.write, "z"), .ev 19 (.write, "y"), ?_, _, _, (Seq.tf_ok exEnv 4 exUgOk 2 exUg).1, by decide⟩
  exact postDominates_of [.ev 19 (.write, "y"), .nop 15, .nop 13, .nop 8, .ev 20 (.read, "i"), .ev 21 (.write, "i"), .nop 3, .ev 22 (.write, "z"),
    .ev 6 (.read, "n"), .nop 7, .nop 9, .nop 10, .ev 11 (.write, "x"), .nop 12, .ev 14 (.read, "c"), .nop 15, .nop 16, .nop 17, .nop 18]
    (by decide) (by decide) (by decide) (by decide)

end Docc.IR
