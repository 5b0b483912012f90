import Verif.IR.RefFlow
import Verif.IR.SymPropViol

/-! C91: the flow of ReferencePropagation. -/
namespace Docc.IR
open Docc.Sym

/-- **C91 (flow).** If the pass rewrites the use `r` of the pointer `x` with the move `x = &A[i]`, then the program behaves as before.  Missing, each with a counterexample
below: uses whose answer `{w}` of ReferenceAnalysis is wrong (hypothesis `hdef`), a change of the symbols of `i` between move and use (`hidx`), and moves of `x` by `x` itself (`hx`). -/
theorem reference_flow_partial {E : Env} {C : Brs → Bool} (hC : CompleteSound E C) {s : Seq} (hs : s.flowOk = true) {A x : String} {ix : Expr}
    {i j : Nat} (hr : V.ev j (.read, x) ∉ s.stale 2) (hd : ∀ σ : St, ∃ n, (addrOf A ix).eval (σ.val E) = .fin n)
    (hw : s.asg x (addrOf A ix) (.ev i (.write, x)) 2 = true)
    (ha : RefAccepted (s.graph C) s A x (.ev i (.write, x)) (.ev j (.read, x)))
    (hdef : DefinedBy E s x (.ev i (.write, x)) (.ev j (.read, x)))
    (hx : x ∉ (addrOf A ix).atoms)
    (hidx : ∀ u z, (u, z) ∈ s.graph C → ∀ y ∈ ix.atoms, u.wr y = true → ¬ UsedBetween (s.graph C) (.ev i (.write, x)) (.ev j (.read, x)) u)
    (hm : s.apart (x :: (addrOf A ix).atoms) (.ev j (.read, x)) 2 = true) :
    (s.prop x (addrOf A ix) (.ev j (.read, x)) 2).den E = s.den E := by
  obtain ⟨_, hdom, hA⟩ := ha
  have hall : ∀ u z, (u, z) ∈ s.graph C → ∀ y ∈ (addrOf A ix).atoms, u.wr y = true →
      ¬ UsedBetween (s.graph C) (.ev i (.write, x)) (.ev j (.read, x)) u := by
    intro u z hu y hy hwr
    have : y = A ∨ y ∈ ix.atoms := by simpa [addrOf, Expr.atoms, Expr.atomsL] using hy
    rcases this with rfl | h
    · exact hA u z hu hwr
    · exact hidx u z hu y h hwr
  refine symbol_propagation_partial hC hs hr hd hw hdef ⟨hx, hdom, Or.inr hall⟩ (fun u y hy hwr _ hu => ?_) hm
  obtain ⟨z, hz⟩ : ∃ z, (u, z) ∈ s.graph C := by
    obtain ⟨_, h2, p, hp, hl, _⟩ := hu
    cases p with
    | nil => simp at hl; exact absurd hl h2
    | cons z p => exact ⟨z, hp.1⟩
  exact hall u z hz y hy hwr hu

/-- `x` is not written -/
theorem no_wr {G : List (V × V)} {y : String} (h : (G.all fun e => !e.1.wr y) = true) : ∀ u z, (u, z) ∈ G → u.wr y = true → False := by
  intro u z he hw
  have := List.all_eq_true.mp h _ he
  simp [hw] at this

/-- `p = &A[i]; o = p[1]` -/
def exRfOk : Seq :=
  .cons (.block []) [("p", addrOf "A" (.sym "i"))] (.one (.block [.tasklet "mov" [("M", [.add [.sym "p", .int 1]])] "o" []]))

set_option maxRecDepth 20000 in
/-- Non-vacuity: the hypotheses hold of `p = &A[i]; o = p[1]`, and the use is rewritten. -/
example : (exRfOk.prop "p" (addrOf "A" (.sym "i")) (.ev 10 (.read, "p")) 2).den exEnv = exRfOk.den exEnv ∧
    (exRfOk.prop "p" (addrOf "A" (.sym "i")) (.ev 10 (.read, "p")) 2).users ≠ exRfOk.users := by
  refine ⟨reference_flow_partial exNoC_sound (i := 6) (by decide) (by decide) (fun σ => ⟨_, rfl⟩) (by decide) ⟨by decide, ?_, fun u z h hw => ?_⟩ (fun σ l o h => ?_)
    (by decide) (fun u z h y hy hw => ?_) (by decide), by decide⟩
  · exact dominates_of [.nop 0, .nop 2, .nop 3, .ev 4 (.read, "A"), .ev 5 (.read, "i"), .ev 6 (.write, "p")] (by decide) (by decide) (by decide) (by decide)
  · exact (no_wr (by decide) u z h hw).elim
  · obtain ⟨p, q, w, hw, hl, hq⟩ := defined_of exNoC_sound (x := "p") (by decide) [.ev 6 (.write, "p")] [.nop 0, .nop 2, .nop 3, .ev 4 (.read, "A"),
      .ev 5 (.read, "i"), .ev 6 (.write, "p")] (by decide) (by decide) (by decide) (by decide) (by decide) h
    simp only [List.mem_singleton] at hw
    exact ⟨p, q, hw ▸ hl, hq⟩
  · have hy : y = "i" := by simpa [Expr.atoms] using hy
    subst hy
    exact (no_wr (by decide) u z h hw).elim

/-- `p = &A[n]; n := n + 1; o = p[0]` -/
def exRfIdx : Seq :=
  .cons (.block []) [("p", addrOf "A" (.sym "n"))] (.cons (.block []) [("n", .add [.sym "n", .int 1])] (.one (.block [.tasklet "mov" [("M", [.sym "p"])] "o" []])))

/-- `M[a] = a`, `n = 2`, `c = 1`, `A = 100` -/
def exRfSt : St := fun x l => if x = "M" then l.headD 0 else if x = "c" then 1 else if x = "n" then 2 else if x = "A" then 100 else if x = "p" then 50 else 0

set_option maxRecDepth 20000 in
/-- **C91, refuted (changed index).** A change of an index symbol between move and use is not looked at: `o` is read from `A[3]` instead of `A[2]`. -/
theorem reference_index_violated : ∃ (s : Seq) (A x : String) (ix : Expr) (w r : V), s.flowOk = true ∧ s.asg x (addrOf A ix) w 2 = true ∧
    DefinedBy exEnv s x w r ∧ RefAccepted (s.graph exNoC) s A x w r ∧ x ∉ (addrOf A ix).atoms ∧
    (s.prop x (addrOf A ix) r 2).den exEnv ≠ s.den exEnv := by
  refine ⟨exRfIdx, "A", "p", .sym "n", .ev 6 (.write, "p"), .ev 14 (.read, "p"), by decide, by decide, fun σ l o h => ?_, ⟨by decide, ?_, fun u z h hw => ?_⟩, by decide, fun he => ?_⟩
  · obtain ⟨p, q, w, hw, hl, hq⟩ := defined_of exNoC_sound (x := "p") (by decide) [.ev 6 (.write, "p")] [.nop 0, .nop 2, .nop 3, .ev 4 (.read, "A"),
      .ev 5 (.read, "n"), .ev 6 (.write, "p")] (by decide) (by decide) (by decide) (by decide) (by decide) h
    simp only [List.mem_singleton] at hw
    exact ⟨p, q, hw ▸ hl, hq⟩
  · exact dominates_of [.nop 0, .nop 2, .nop 3, .ev 4 (.read, "A"), .ev 5 (.read, "n"), .ev 6 (.write, "p")] (by decide) (by decide) (by decide) (by decide)
  · exact (no_wr (by decide) u z h hw).elim
  · obtain ⟨σ1, h1, h2⟩ := Seq.run_obs (E := exEnv) (s := exRfIdx.prop "p" (addrOf "A" (.sym "n")) (.ev 14 (.read, "p")) 2) (σ := exRfSt) (c := .normal)
      (x := "o") (j := []) (v := 103) 60 (by decide)
    rw [he] at h1
    have := Seq.run_obs_all (E := exEnv) (s := exRfIdx) (σ := exRfSt) (c := .normal) (x := "o") (j := []) (v := 102) 60 (by decide) h1
    omega

/-- `p = &p[1]; o = p[0]` -/
def exRfRec : Seq :=
  .cons (.block []) [("p", addrOf "p" (.int 1))] (.one (.block [.tasklet "mov" [("M", [.sym "p"])] "o" []]))

set_option maxRecDepth 20000 in
/-- **C91, refuted (a pointer moved by itself).** The move is not between itself and the use: `p = &p[1]; o = p[0]` becomes `p = &p[1]; o = p[1]`. -/
theorem reference_recursive_violated : ∃ (s : Seq) (A x : String) (ix : Expr) (w r : V), s.flowOk = true ∧ s.asg x (addrOf A ix) w 2 = true ∧
    DefinedBy exEnv s x w r ∧ RefAccepted (s.graph exNoC) s A x w r ∧ ix.atoms = [] ∧
    (s.prop x (addrOf A ix) r 2).den exEnv ≠ s.den exEnv := by
  refine ⟨exRfRec, "p", "p", .int 1, .ev 5 (.write, "p"), .ev 9 (.read, "p"), by decide, by decide, fun σ l o h => ?_, ⟨by decide, ?_, fun u z h hw => ?_⟩, rfl, fun he => ?_⟩
  · obtain ⟨p, q, w, hw, hl, hq⟩ := defined_of exNoC_sound (x := "p") (by decide) [.ev 5 (.write, "p")] [.nop 0, .nop 2, .nop 3, .ev 4 (.read, "p"),
      .ev 5 (.write, "p")] (by decide) (by decide) (by decide) (by decide) (by decide) h
    simp only [List.mem_singleton] at hw
    exact ⟨p, q, hw ▸ hl, hq⟩
  · exact dominates_of [.nop 0, .nop 2, .nop 3, .ev 4 (.read, "p"), .ev 5 (.write, "p")] (by decide) (by decide) (by decide) (by decide)
  · have := writers_of (u := .ev 5 (.write, "p")) (by decide) u z h hw
    subst this
    exact fun h => h.1 rfl
  · obtain ⟨σ1, h1, h2⟩ := Seq.run_obs (E := exEnv) (s := exRfRec.prop "p" (addrOf "p" (.int 1)) (.ev 9 (.read, "p")) 2) (σ := exRfSt) (c := .normal)
      (x := "o") (j := []) (v := 52) 60 (by decide)
    rw [he] at h1
    have := Seq.run_obs_all (E := exEnv) (s := exRfRec) (σ := exRfSt) (c := .normal) (x := "o") (j := []) (v := 51) 60 (by decide) h1
    omega

/-- `p = &A[1]; while (true) { if (c) { p = &A[2]; break } return } o = p[0]` -/
def exRfRet : Seq :=
  .cons (.block []) [("p", addrOf "A" (.int 1))] (.cons (.whileL (.cons (exWhen "c" (.cons (.block []) [("p", addrOf "A" (.int 2))] (.one .brk))) [] (.one (.ret "" false)))) []
    (.one (.block [.tasklet "mov" [("M", [.sym "p"])] "o" []])))

set_option maxRecDepth 20000 in
/-- **C91, refuted (ReferenceAnalysis).** A `Return` closes all definitions of its loop body, also those that leave the loop by a `Break` before it: the use is said to be
defined by the first move only, and `o` is read from `A[1]` instead of `A[2]`. -/
theorem reference_analysis_violated : ∃ (s : Seq) (A x : String) (ix : Expr) (w w' r : V) (σ : St) (l m z : List V) (o : Option (Ctl × St)),
    s.asg x (addrOf A ix) w 2 = true ∧ RefAccepted (s.graph exNoC) s A x w r ∧ ix.atoms = [] ∧ x ∉ (addrOf A ix).atoms ∧
    s.Performs exEnv σ (l ++ w' :: (m ++ r :: z)) o ∧ w' ≠ w ∧ w'.wr x = true ∧ (∀ v ∈ m, v.wr x = false) ∧ (s.prop x (addrOf A ix) r 2).den exEnv ≠ s.den exEnv := by
  obtain ⟨o, h⟩ := Seq.uses_performs exEnv exRfRet 6 exRfSt (l := [.ev 4 (.read, "A"), .ev 5 (.write, "p"), .ev 12 (.read, "c"), .ev 17 (.read, "A")] ++
    .ev 18 (.write, "p") :: ([.ev 23 (.read, "M")] ++ .ev 24 (.read, "p") :: [.ev 25 (.write, "o")])) (by decide)
  refine ⟨exRfRet, "A", "p", .int 1, .ev 5 (.write, "p"), .ev 18 (.write, "p"), .ev 24 (.read, "p"), exRfSt, _, _, _, o, by decide, ⟨by decide, ?_, fun u z h hw => ?_⟩,
    rfl, by decide, h, by decide, by decide, by decide, fun he => ?_⟩
  · exact dominates_of [.nop 0, .nop 2, .nop 3, .ev 4 (.read, "A"), .ev 5 (.write, "p")] (by decide) (by decide) (by decide) (by decide)
  · exact (no_wr (by decide) u z h hw).elim
  · obtain ⟨σ1, h1, h2⟩ := Seq.run_obs (E := exEnv) (s := exRfRet.prop "p" (addrOf "A" (.int 1)) (.ev 24 (.read, "p")) 2) (σ := exRfSt) (c := .normal)
      (x := "o") (j := []) (v := 101) 60 (by decide)
    rw [he] at h1
    have := Seq.run_obs_all (E := exEnv) (s := exRfRet) (σ := exRfSt) (c := .normal) (x := "o") (j := []) (v := 102) 60 (by decide) h1
    omega

end Docc.IR
