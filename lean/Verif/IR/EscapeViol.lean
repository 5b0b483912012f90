import Verif.IR.EscapeProps
import Verif.IR.AllocViol

/-! C96: reported last uses that are not the last, and functions that meet the hypotheses of the theorems. -/
namespace Docc.IR
open Docc.Sym

theorem not_lastUsed {G : List (V × V)} {A : String} {v : V} (S : List V) (h : (G.all fun e => !decide (e.1 ∈ S) || decide (e.2 ∈ S)) = true)
    (hv : v ∈ S) (hS : ∀ b ∈ S, b.of A = true → b = v) : ∀ b, b.of A = true → ¬ UsedAfter G v b := by
  intro b hA hu
  by_cases hb : b ∈ S
  · exact hu.1 (hS b hb hA).symm
  · exact not_usedAfter S h hv hb hu

theorem not_viewAfter {G : List (V × V)} {A : String} {v exit : V} (S : List V)
    (h : (G.all fun e => !decide (e.1 ∈ S) || decide (e.1 = exit) || decide (e.2 ∈ S)) = true) (hv : v ∈ S)
    (hS : ∀ b ∈ S, b.of A = true → b = v) : ∀ b, b.of A = true → ¬ ViewAfter G exit v b := by
  have hc : ∀ e ∈ G, e.1 ∈ S → e.1 ≠ exit → e.2 ∈ S := by
    intro e he h1 h2
    have := List.all_eq_true.mp h e he
    simpa [h1, h2] using this
  have key : ∀ (p : List V) (a : V), a ∈ S → Path G (a :: p) → exit ∉ (a :: p).dropLast → ∀ b, (a :: p).getLast? = some b → b ∈ S := by
    intro p
    induction p with
    | nil => intro a ha _ _ b hb; simp at hb; exact hb ▸ ha
    | cons c r ih =>
      intro a ha hp hx b hb
      rw [List.dropLast_cons_cons, List.mem_cons, not_or] at hx
      exact ih c (hc _ hp.1 ha (fun e => hx.1 e.symm)) hp.2 hx.2 b (by rwa [List.getLast?_cons_cons] at hb)
  rintro b hA ⟨h1, p, h2, h3, h4⟩
  exact h1 (hS b (key p v hv h2 h4 b h3) hA).symm

/-- `for (i = 0; i < 1; i++) s` -/
def exLoopOnce (s : Seq) : Node := .loop false "i" (.int 0) (.lt (.sym "i") (.int 1)) (.add [.sym "i", .int 1]) s
/-- `p = malloc(n); for (i = 0; i < 1; i++) o = p` -/
def exBefore : Seq := .cons (.block [exMalloc "n"]) [] (.one (exLoopOnce exUseP))

theorem exBefore_blocks : exBefore.blockUses none 2 = [(.ev 4 (.read, "n"), none), (.ev 5 (.write, "p"), none),
    (.ev 14 (.read, "p"), some (6, exLoopOnce exUseP)), (.ev 15 (.write, "o"), some (6, exLoopOnce exUseP))] := rfl

theorem exBefore_last : LastUse exNoC [] exBefore "p" (.ev 5 (.write, "p")) := by
  refine ⟨⟨rfl, by rintro ⟨_, h⟩; revert h; decide⟩, ?_⟩
  have h1 : exBefore.mallocOf "p" = some none := rfl
  have h2 : exBefore.loopUse "p" = true := rfl
  rw [h1]
  simp only [h2, if_true]
  refine Or.inl ⟨by rw [exBefore_blocks]; simp, rfl, fun b hA hu hb => ?_⟩
  rw [exBefore_blocks] at hb
  simp only [List.mem_cons, Prod.mk.injEq, reduceCtorEq, and_false, or_false, and_true, List.not_mem_nil] at hb
  rcases hb with rfl | rfl
  · revert hA; decide
  · exact hu.1 rfl

set_option maxRecDepth 8000 in
/-- **C96.** A loop behind the allocation uses the buffer, but the allocation is reported as its last use. -/
theorem last_use_before_loop : ∃ (s : Seq) (A : String) (v b : V) (σ : St) (l0 l1 l2 : List V) (o : Option (Ctl × St)),
    LastUse exNoC [] s A v ∧ BlockOnly s A ∧ s.Performs exEnvM σ (l0 ++ v :: (l1 ++ b :: l2)) o ∧ b ≠ v ∧ b.of A = true := by
  obtain ⟨o, h⟩ := Seq.uses_performs exEnvM exBefore 10 (fun _ _ => 0) (l := [.ev 4 (.read, "n")] ++ .ev 5 (.write, "p") ::
    ([.ev 8 (.write, "i"), .ev 9 (.read, "i")] ++ .ev 14 (.read, "p") :: [.ev 15 (.write, "o"), .ev 16 (.read, "i"), .ev 17 (.write, "i"), .ev 9 (.read, "i")])) (by decide)
  refine ⟨exBefore, "p", _, _, _, _, _, _, o, exBefore_last, ?_, h, by decide, by decide⟩
  intro w hw hA
  have : w = .ev 5 (.write, "p") ∨ w = .ev 14 (.read, "p") := by
    have h : ∀ w ∈ exBefore.allUses, w.of "p" = true → w = .ev 5 (.write, "p") ∨ w = .ev 14 (.read, "p") := by decide
    exact h w hw hA
  rw [exBefore_blocks]
  rcases this with rfl | rfl
  · exact ⟨none, by simp⟩
  · exact ⟨some (6, exLoopOnce exUseP), by simp⟩

/-- `for (i = 0; i < 1; i++) p = malloc(n); o = p` -/
def exExit : Seq := .cons (exLoopOnce (.one (.block [exMalloc "n"]))) [] exUseP

set_option maxRecDepth 8000 in
theorem exExit_last : LastUse exNoC [] exExit "p" (.ev 11 (.write, "p")) := by
  refine ⟨⟨rfl, by rintro ⟨_, h⟩; revert h; decide⟩, ?_⟩
  have h1 : exExit.mallocOf "p" = some (some (2, exLoopOnce (.one (.block [exMalloc "n"])))) := rfl
  rw [h1]
  refine ⟨by decide, rfl, ⟨[.nop 9, .nop 7, .ev 12 (.read, "i"), .ev 13 (.write, "i"), .nop 3], ?_, rfl, by decide⟩, ?_⟩
  · simp only [Path]; decide
  · exact not_viewAfter [.ev 11 (.write, "p"), .nop 9, .nop 7, .ev 12 (.read, "i"), .ev 13 (.write, "i"), .nop 3] (by decide) (by decide) (by decide)

set_option maxRecDepth 8000 in
/-- **C96.** The allocation is inside a loop; a use behind the loop is overlooked. -/
theorem last_use_before_exit : ∃ (s : Seq) (A : String) (v b : V) (σ : St) (l0 l1 l2 : List V) (o : Option (Ctl × St)),
    LastUse exNoC [] s A v ∧ s.Performs exEnvM σ (l0 ++ v :: (l1 ++ b :: l2)) o ∧ b ≠ v ∧ b.of A = true := by
  obtain ⟨o, h⟩ := Seq.uses_performs exEnvM exExit 10 (fun _ _ => 0) (l := [.ev 4 (.write, "i"), .ev 5 (.read, "i"), .ev 10 (.read, "n")] ++ .ev 11 (.write, "p") ::
    ([.ev 12 (.read, "i"), .ev 13 (.write, "i"), .ev 5 (.read, "i")] ++ .ev 16 (.read, "p") :: [.ev 17 (.write, "o")])) (by decide)
  exact ⟨exExit, "p", _, _, _, _, _, _, o, exExit_last, h, by decide, by decide⟩

/-- `p = malloc(n); if (c != 0) o = p` -/
def exBranch : Seq := .cons (.block [exMalloc "n"]) [] (.one (exWhen "c" exUseP))

set_option maxRecDepth 8000 in
theorem exBranch_last : LastUse exNoC [] exBranch "p" (.ev 13 (.read, "p")) := by
  refine ⟨⟨rfl, by rintro ⟨_, h⟩; revert h; decide⟩, ?_⟩
  have h1 : exBranch.mallocOf "p" = some none := rfl
  have h2 : exBranch.loopUse "p" = false := rfl
  rw [h1]
  simp only [h2, Bool.false_eq_true, if_false]
  exact ⟨by decide, rfl, not_lastUsed [.ev 13 (.read, "p"), .ev 14 (.write, "o"), .nop 12, .nop 10, .nop 7, .nop 1] (by decide) (by decide) (by decide)⟩

set_option maxRecDepth 8000 in
/-- **C96.** The reported last use lies in a branch; an execution allocates the block, ends, and never gets to it. -/
theorem last_use_not_reached : ∃ (s : Seq) (A : String) (v : V) (σ σ' : St) (l : List V),
    LastUse exNoC [] s A v ∧ s.Performs exEnvM σ l (some (.normal, σ')) ∧ (∃ k, V.ev k (.write, A) ∈ l) ∧ v ∉ l := by
  have h := (Seq.tf_ok exEnvM 10 exBranch 2 (fun _ _ => 0)).1
  have h1 : (exBranch.tf exEnvM 10 2 fun _ _ => 0).1 = [.ev 4 (.read, "n"), .ev 5 (.write, "p"), .ev 8 (.read, "c")] := by decide
  obtain ⟨σ', h2⟩ : ∃ σ', (exBranch.tf exEnvM 10 2 fun _ _ => 0).2 = some (.normal, σ') := ⟨_, rfl⟩
  rw [h1, h2] at h
  exact ⟨exBranch, "p", _, _, σ', _, exBranch_last, h, ⟨5, by decide⟩, by decide⟩

/-- `p = malloc(n); o = p` -/
def exUsed : Seq := around (.one (.block [exMalloc "n"])) [.tasklet "mov" [("p", [])] "o" []] [] .nil

set_option maxRecDepth 8000 in
/-- the hypotheses of `last_use_is_last_partial` and `free_at_last_use_partial` are met -/
theorem exUsed_last : LastUse exNoC ["n"] exUsed "p" (.ev 8 (.read, "p")) ∧ exUsed.mallocOf "p" = some none ∧ exUsed.loopUse "p" = false ∧
    BlockOnly exUsed "p" ∧ V.ev 8 (.read, "p") ∈ evs (2 + (Seq.one (.block [exMalloc "n"])).kn + 2) ([Stmt.tasklet "mov" [("p", [])] "o" []].flatMap Stmt.users) := by
  have h1 : exUsed.mallocOf "p" = some none := rfl
  have h2 : exUsed.loopUse "p" = false := rfl
  refine ⟨⟨⟨rfl, by rintro ⟨_, h⟩; revert h; decide⟩, ?_⟩, h1, h2, ?_, by decide⟩
  · rw [h1]
    simp only [h2, Bool.false_eq_true, if_false]
    exact ⟨by decide, rfl, not_lastUsed [.ev 8 (.read, "p"), .ev 9 (.write, "o"), .nop 7, .nop 1] (by decide) (by decide) (by decide)⟩
  · intro w hw hA
    have : w = .ev 5 (.write, "p") ∨ w = .ev 8 (.read, "p") := by
      have h : ∀ w ∈ exUsed.allUses, w.of "p" = true → w = .ev 5 (.write, "p") ∨ w = .ev 8 (.read, "p") := by decide
      exact h w hw hA
    have hb : exUsed.blockUses none 2 = [(.ev 4 (.read, "n"), none), (.ev 5 (.write, "p"), none), (.ev 8 (.read, "p"), none), (.ev 9 (.write, "o"), none)] := rfl
    rw [hb]
    rcases this with rfl | rfl <;> exact ⟨none, by simp⟩

example (σ : St) (c : Ctl) (σ' : St) (h : exUsed.den exEnvM σ c σ') :
    ∃ τ', (around (.one (.block [exMalloc "n"])) [.tasklet "mov" [("p", [])] "o" [], exFree] [] .nil).den exEnvM σ c τ' ∧ ∀ x, x ≠ "p" → τ' x = σ' x :=
  (free_at_last_use_partial exNoC_soundM exUsed_last.1 exUsed_last.2.1 exUsed_last.2.2.1 exUsed_last.2.2.2.1 exUsed_last.2.2.2.2 "free" σ c).1 σ' h

/-- the hypotheses of `last_use_in_iteration_partial` are met -/
example : ∃ m j body kb, exExit.mallocOf "p" = some (some (j, m)) ∧ exExit.Contains m j ∧ m.bodyAt j = some (body, kb) ∧ ∀ b ∈ body.stale kb, b.of "p" = false := by
  refine ⟨exLoopOnce (.one (.block [exMalloc "n"])), 2, _, _, rfl, ?_, rfl, ?_⟩
  · simp [Seq.Contains, Node.Has, exExit, Seq.Has, Node.isRet, exLoopOnce]
  · intro b hb; simp [Seq.one, Seq.stale, Node.stale] at hb

/-- an allocation in a `while` is one in a loop: with `while (1) { p = malloc(n); o = p; break; }`, the last use is that in the body -/
def exInWhile : Seq := .one (.whileL (.cons (.block [exMalloc "n"]) [] (exUseP ++ .one .brk)))

set_option maxRecDepth 8000 in
theorem exInWhile_last : LastUse exNoC [] exInWhile "p" (.ev 12 (.read, "p")) ∧ exInWhile.mallocOf "p" =
    some (some (2, .whileL (.cons (.block [exMalloc "n"]) [] (exUseP ++ .one .brk)))) := by
  have h1 : exInWhile.mallocOf "p" = some (some (2, .whileL (.cons (.block [exMalloc "n"]) [] (exUseP ++ .one .brk)))) := rfl
  refine ⟨⟨⟨rfl, by rintro ⟨_, h⟩; revert h; decide⟩, ?_⟩, h1⟩
  rw [h1]
  refine ⟨by decide, rfl, ⟨[.ev 13 (.write, "o"), .nop 11, .nop 14, .nop 5, .nop 3], ?_, rfl, by decide⟩, ?_⟩
  · simp only [Path]; decide
  · exact not_viewAfter [.ev 12 (.read, "p"), .ev 13 (.write, "o"), .nop 11, .nop 14, .nop 15, .nop 5, .nop 3] (by decide) (by decide) (by decide)

/-- which of the two cases of the code applies depends on the uses of the asked container only -/
theorem loop_use_iff (s : Seq) (A : String) : s.loopUse A = true ↔ ∃ v m, (v, some m) ∈ s.blockUses none 2 ∧ v.of A = true := by
  rw [Seq.loopUse, List.any_eq_true]
  constructor
  · rintro ⟨⟨v, m⟩, h, e⟩
    simp only [Bool.and_eq_true] at e
    obtain ⟨e1, e2⟩ := e
    cases m with
    | none => cases e2
    | some m => exact ⟨v, m, h, e1⟩
  · rintro ⟨v, m, h, e⟩
    exact ⟨_, h, by simp [e]⟩

end Docc.IR
