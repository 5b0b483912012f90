import Verif.IR.PtrEvoThm
import Verif.IR.XferViol
import Verif.IR.UGraphRun
import Verif.IR.UGraphViol

/-
Pointer iterators: programs, and loops that the pass changes.
-/
namespace Docc.IR
open Docc.Sym

/-- **C101** (partial), the program around the loop: if the rest of the program does not read the iterator, all executions of the program are kept, up to the
iterator (`after_violated`).  The hypothesis is what `ptr_evolution_partial` gives. -/
theorem ptr_evolution_program_partial {E : Env} {p : String} {n n' : Node} (h : Rel.to Eq (AgreeOff (· = p)) (n.den E) (n'.den E)) (pre : Seq) {t : Trans} {r : Seq}
    (ht : ¬ reads (transUsers t) p) (hr : ¬ reads r.users p) : Rel.to Eq (AgreeOff (· = p)) ((pre ++ .cons n t r).den E) ((pre ++ .cons n' t r).den E) := by
  rw [Seq.den_append, Seq.den_append, Seq.den, Seq.den]
  refine Rel.to_seq (Rel.to_of_bis (Rel.bis_refl _)) (fun σ τ e => e ▸ AgreeOff.refl _ _) ?_
  refine Rel.to_seq h (fun _ _ q => q) (Rel.to_seq (Rel.to_of_bis (trans_upto ?_)) (fun _ _ q => q) (Rel.to_of_bis (Seq.agree_bis E _ r ?_)))
  · rintro x rfl; exact ht
  · rintro x rfl; exact hr

/-- "next" advances a pointer -/
def exEnvP : Env := ⟨fun _ _ => 0, fun _ l => l.sum, fun _ _ r j => match r, j with | s :: _, a :: l => s ((a + 1) :: l) | s :: _, [] => s [] | [], _ => 0, 0⟩
/-- the only move -/
def exPK : Moves := fun op => if op = "next" then some true else none
theorem exEnvP_next : exEnvP.Advances "next" := fun _ _ _ => rfl
/-- `p = &p[1]` -/
def exNext : Stmt := .lib "next" ["p"] ["p"]
/-- `B[i] = p[0]` -/
def exLd : Stmt := .tasklet "assign" [("p", [.int 0])] "B" [.sym "i"]
/-- `for (i = a; i < n; i += u) s` -/
def exPLoop (a : Expr) (u : Int) (s : Seq) : Node := .loop false "i" a (.lt (.sym "i") (.sym "n")) (.add [.sym "i", .int u]) s
/-- `n = 3`, `p[j] = 10 + j`, `m = 1` -/
def exPs : St := fun x j => if x = "n" then 3 else if x = "m" then 1 else if x = "p" then (match j with | a :: _ => 10 + a | [] => 0) else 0

/-- the test for post-dominance succeeds; used where it does -/
def exPostOk : Seq → String → Bool := fun _ _ => true

/-- `for (i = m; i < n; i++) { if (0 < i) { p[0] = p[0] + i } B[i] = p[0]; p = &p[1] }` -/
def exPBody1 : Seq := .one (.ifElse (.cons (.lt (.int 0) (.sym "i")) (.one (.block [.tasklet "add" [("p", [.int 0]), ("i", [])] "p" [.int 0]])) .nil))
/-- the hypotheses are met -/
example : ∃ n', evolvePtr exPK exPostOk (exPLoop (.sym "m") 1 (exPBody1 ++ .cons (.block ([exLd] ++ exNext :: [])) [] .nil)) = some n' ∧
    Rel.to Eq (AgreeOff (· = "p")) ((exPLoop (.sym "m") 1 (exPBody1 ++ .cons (.block ([exLd] ++ exNext :: [])) [] .nil)).den exEnvP) (n'.den exEnvP) :=
  ⟨_, rfl, ptr_evolution_partial (post := exPostOk) (K := exPK) rfl rfl rfl exEnvP_next (fun ρ => by
    have h1 : (Expr.sym "i").eval (ρ.val exEnvP) = .fin (ρ "i" []) := rfl
    simp only [St.ev, eval_add2 h1 (b := .int 1) (y := 1) rfl]) rfl rfl rfl rfl (fun ρ => ⟨ρ "m" [], rfl⟩) (by decide) (by decide) (by decide) (by decide)
    (by
      intro x hx
      rcases hx with rfl | hx
      · decide
      · have : x = "m" := by simpa [Expr.atoms] using hx
        subst this
        decide)⟩

/-- its result -/
example : evolvePtr exPK exPostOk (exPLoop (.sym "m") 1 (.one (.block [exLd, exNext]))) =
    some (exPLoop (.sym "m") 1 (.one (.block [.tasklet "assign" [("p", [.add [.sym "i", .mul [.int (-1), .sym "m"]]])] "B" [.sym "i"]]))) := rfl

/-! ### violations -/

set_option maxRecDepth 8000 in
/-- **C101** is violated: the stride of the loop is not looked at.  `for (i = 0; i < 3; i += 2) { B[i] = p[0]; p = &p[1] }` stores the second element in `B[2]`, afterwards the third. -/
theorem stride_violated : ∃ n', evolvePtr exPK exPostOk (exPLoop (.int 0) 2 (.one (.block [exLd, exNext]))) = some n' ∧
    PostDominates ((Seq.one (exPLoop (.int 0) 2 (.one (.block [exLd, exNext])))).graph exNoC) (.ev 15 (.write, "p")) (.ev 11 (.read, "p")) ∧
    Differ exEnvP (.one (exPLoop (.int 0) 2 (.one (.block [exLd, exNext])))) (.one n') exPs "B" [2] 11 12 :=
  ⟨_, rfl, postDominates_of [.ev 11 (.read, "p"), .ev 12 (.read, "i"), .ev 13 (.write, "B"), .ev 14 (.read, "p"), .ev 15 (.write, "p")] (by decide) (by decide) (by decide) (by decide),
    differ_of 40 (by decide) (by decide)⟩

/-- `if (0 < i) { B[i] = p[0]; p = &p[1] }` -/
def exPBranch : Seq := .one (.ifElse (.cons (.lt (.int 0) (.sym "i")) (.one (.block [exLd, exNext])) .nil))

set_option maxRecDepth 8000 in
/-- **C101** is violated: the pointer is advanced in some iterations only; the uses in the same branch are post-dominated by the move. -/
theorem branch_violated : ∃ n', evolvePtr exPK exPostOk (exPLoop (.int 0) 1 exPBranch) = some n' ∧
    PostDominates ((Seq.one (exPLoop (.int 0) 1 exPBranch)).graph exNoC) (.ev 20 (.write, "p")) (.ev 16 (.read, "p")) ∧
    Differ exEnvP (.one (exPLoop (.int 0) 1 exPBranch)) (.one n') exPs "B" [1] 10 11 :=
  ⟨_, rfl, postDominates_of [.ev 16 (.read, "p"), .ev 17 (.read, "i"), .ev 18 (.write, "B"), .ev 19 (.read, "p"), .ev 20 (.write, "p")] (by decide) (by decide) (by decide) (by decide),
    differ_of 40 (by decide) (by decide)⟩

/-- `if (i < 1) continue; B[i] = p[0]; p = &p[1]` -/
def exPCont : Seq := .cons (.ifElse (.cons (.lt (.sym "i") (.int 1)) (.one .cont) .nil)) [] (.one (.block [exLd, exNext]))

set_option maxRecDepth 8000 in
/-- **C101** is violated: a `continue` in front of the uses skips the move. -/
theorem continue_violated : ∃ n', evolvePtr exPK exPostOk (exPLoop (.int 0) 1 exPCont) = some n' ∧
    PostDominates ((Seq.one (exPLoop (.int 0) 1 exPCont)).graph exNoC) (.ev 21 (.write, "p")) (.ev 17 (.read, "p")) ∧
    Differ exEnvP (.one (exPLoop (.int 0) 1 exPCont)) (.one n') exPs "B" [1] 10 11 :=
  ⟨_, rfl, postDominates_of [.ev 17 (.read, "p"), .ev 18 (.read, "i"), .ev 19 (.write, "B"), .ev 20 (.read, "p"), .ev 21 (.write, "p")] (by decide) (by decide) (by decide) (by decide),
    differ_of 40 (by decide) (by decide)⟩

set_option maxRecDepth 8000 in
/-- **C101** is violated: uses of the pointer behind the loop are not looked at. -/
theorem after_violated : ∃ n', evolvePtr exPK exPostOk (exPLoop (.int 0) 1 (.one (.block [exLd, exNext]))) = some n' ∧
    Differ exEnvP (.cons (exPLoop (.int 0) 1 (.one (.block [exLd, exNext]))) [] (.one (.block [.tasklet "assign" [("p", [.int 0])] "C" []])))
      (.cons n' [] (.one (.block [.tasklet "assign" [("p", [.int 0])] "C" []]))) exPs "C" [] 13 10 :=
  ⟨_, rfl, differ_of 40 (by decide) (by decide)⟩

set_option maxRecDepth 8000 in
/-- **C101** is violated: the initial value is evaluated again in every iteration; here the body changes `m`. -/
theorem init_violated : ∃ n', evolvePtr exPK exPostOk (exPLoop (.sym "m") 1 (.cons (.block [exLd, exNext]) [("m", .add [.sym "m", .int 1])] .nil)) = some n' ∧
    Differ exEnvP (.one (exPLoop (.sym "m") 1 (.cons (.block [exLd, exNext]) [("m", .add [.sym "m", .int 1])] .nil))) (.one n') exPs "B" [2] 11 10 :=
  ⟨_, rfl, differ_of 40 (by decide) (by decide)⟩

end Docc.IR
