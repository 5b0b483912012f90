import Verif.IR.AllocThm
import Verif.IR.UGraphViol

/-! C95: functions that AllocationManagement changes, and one that meets the hypotheses of the theorems. -/
namespace Docc.IR
open Docc.Sym

/-- `malloc(n)` gives block `100 + n`, `alloca` likewise; `free` gives -1, and -7 for a pointer that holds no block -/
def exEnvM : Env := ⟨fun _ _ => 0, fun _ l => l.sum, fun op _ r _ => match r with
  | v :: _ => if op = "free" then if v [] < 100 then -7 else -1 else 100 + v []
  | [] => 100, 0⟩

theorem exNoC_soundM : CompleteSound exEnvM exNoC := by intro b h; cases h

/-- `p = malloc(n)` -/
def exMalloc (n : String) : Stmt := .lib "malloc" [n] ["p"]
/-- `free(p)` -/
def exFree : Stmt := .lib "free" ["p"] ["p"]
/-- `o = p` -/
def exUseP : Seq := .one (.block [.tasklet "mov" [("p", [])] "o" []])
/-- `if (c) return` -/
def exEarly : Seq := .one (exWhen "c" (.one (.ret "" true)))

/-- `n := 4; p = malloc(n); o = p` -/
def exSizeSite : Site := ⟨.cons (.block []) [("n", .int 4)] .nil, [], exMalloc "n", [], [], exUseP⟩

set_option maxRecDepth 20000 in
/-- **C95.** `n` is a parameter, but it is assigned before the allocation: the block has the size of the argument, not of the new value. -/
theorem allocation_size_changes : ∃ (z : Site) (args : List String) (op : String) (size : List String) (A : String) (σ : St),
    AllocAccepted exNoC args z op size A ∧ z.whole.flowOk = true ∧
    (∃ σ', z.whole.den exEnvM σ .normal σ' ∧ σ' "o" [] = 104) ∧
    (∀ c τ', ((⟨[], z.whole, []⟩ : MProg).alloc z).den exEnvM σ c τ' → τ' "o" [] = 101) := by
  refine ⟨exSizeSite, ["n"], "malloc", ["n"], "p", fun x _ => if x = "n" then 1 else 0, ⟨rfl, by decide, fun v hv hA hne => ?_⟩, by decide, ?_, ?_⟩
  · have : v = .ev 11 (.read, "p") := by
      have h : ∀ v ∈ exSizeSite.whole.allUses, v.of "p" = true → v ≠ exSizeSite.vertex "p" → v = .ev 11 (.read, "p") := by decide
      exact h v hv hA hne
    subst this
    exact dominates_of [.nop 0, .nop 2, .nop 3, .ev 4 (.write, "n"), .nop 5, .ev 7 (.read, "n"), .ev 8 (.write, "p")] (by decide) (by decide) (by decide) (by decide)
  · exact Seq.run_obs (E := exEnvM) (s := exSizeSite.whole) (c := .normal) (x := "o") (j := []) (v := 104) 20 (by decide)
  · rintro c _ ⟨τ, h, rfl⟩
    exact (Seq.run_obs_all (E := exEnvM) (s := exSizeSite.cleared) (c := .normal) (x := "o") (j := []) (v := 101) 20 (by decide) h).2

/-- `if (c) return; p = malloc(n); return p` -/
def exLeakSite : Site := ⟨exEarly, [], exMalloc "n", [], [], .one (.ret "p" false)⟩

set_option maxRecDepth 20000 in
/-- **C95.** The function returns before it allocates; the managed function has allocated a block by then, which nothing frees. -/
theorem allocation_leaks : ∃ (z : Site) (args : List String) (op : String) (size : List String) (A : String) (σ : St),
    AllocAccepted exNoC args z op size A ∧ z.whole.flowOk = true ∧
    (∃ σ', z.whole.den exEnvM σ (.ret "" true) σ' ∧ σ' A [] = 0) ∧
    (∀ c τ', ((⟨[], z.whole, []⟩ : MProg).alloc z).den exEnvM σ c τ' → c = .ret "" true ∧ τ' A [] = 101) := by
  refine ⟨exLeakSite, ["n"], "malloc", ["n"], "p", fun x _ => if x = "n" then 1 else if x = "c" then 1 else 0, ⟨rfl, by decide, fun v hv hA hne => ?_⟩, by decide, ?_, ?_⟩
  · have : v = .ev 12 (.read, "p") := by
      have h : ∀ v ∈ exLeakSite.whole.allUses, v.of "p" = true → v ≠ exLeakSite.vertex "p" → v = .ev 12 (.read, "p") := by decide
      exact h v hv hA hne
    subst this
    exact dominates_of [.nop 0, .nop 2, .nop 3, .ev 4 (.read, "c"), .nop 5, .nop 6, .nop 7, .nop 8, .ev 10 (.read, "n"), .ev 11 (.write, "p")]
      (by decide) (by decide) (by decide) (by decide)
  · exact Seq.run_obs (E := exEnvM) (s := exLeakSite.whole) (c := .ret "" true) (x := "p") (j := []) (v := 0) 20 (by decide)
  · rintro c _ ⟨τ, h, rfl⟩
    exact Seq.run_obs_all (E := exEnvM) (s := exLeakSite.cleared) (c := .ret "" true) (x := "p") (j := []) (v := 101) 20 (by decide) h

/-- `if (c) return; p = malloc(n); o = p; free(p)` -/
def exOwned (n : String) : Owned := ⟨exEarly, [], exMalloc n, [], [], exUseP, [], exFree, [], [], .nil⟩

set_option maxRecDepth 20000 in
theorem exOwned_free (n : String) (hn : n = "n" ∨ n = "k") : DeallocAccepted exNoC (exOwned n).freeSite "free" "p" := by
  refine ⟨rfl, fun v hv hA hne => ?_⟩
  rcases hn with rfl | rfl
  · have h : ∀ v ∈ (exOwned "n").freeSite.whole.allUses, v.of "p" = true → v ≠ (exOwned "n").freeSite.vertex "p" →
        v = .ev 11 (.write, "p") ∨ v = .ev 14 (.read, "p") ∨ v = .ev 18 (.read, "p") := by decide
    rcases h v hv hA hne with rfl | rfl | rfl <;>
      exact postDominates_of [.ev 11 (.write, "p"), .nop 9, .nop 12, .ev 14 (.read, "p"), .ev 15 (.write, "o"), .nop 13, .nop 16, .ev 18 (.read, "p"), .ev 19 (.write, "p")]
        (by decide) (by decide) (by decide) (by decide)
  · have h : ∀ v ∈ (exOwned "k").freeSite.whole.allUses, v.of "p" = true → v ≠ (exOwned "k").freeSite.vertex "p" →
        v = .ev 11 (.write, "p") ∨ v = .ev 14 (.read, "p") ∨ v = .ev 18 (.read, "p") := by decide
    rcases h v hv hA hne with rfl | rfl | rfl <;>
      exact postDominates_of [.ev 11 (.write, "p"), .nop 9, .nop 12, .ev 14 (.read, "p"), .ev 15 (.write, "o"), .nop 13, .nop 16, .ev 18 (.read, "p"), .ev 19 (.write, "p")]
        (by decide) (by decide) (by decide) (by decide)

set_option maxRecDepth 20000 in
theorem exOwned_alloc : AllocAccepted exNoC ["n"] (exOwned "n").allocSite "malloc" ["n"] "p" := by
  refine ⟨rfl, by decide, fun v hv hA hne => ?_⟩
  have h : ∀ v ∈ (exOwned "n").allocSite.whole.allUses, v.of "p" = true → v ≠ (exOwned "n").allocSite.vertex "p" →
      v = .ev 14 (.read, "p") ∨ v = .ev 18 (.read, "p") ∨ v = .ev 19 (.write, "p") := by decide
  rcases h v hv hA hne with rfl | rfl | rfl <;>
    exact dominates_of [.nop 0, .nop 2, .nop 3, .ev 4 (.read, "c"), .nop 5, .nop 6, .nop 7, .nop 8, .ev 10 (.read, "n"), .ev 11 (.write, "p")]
      (by decide) (by decide) (by decide) (by decide)

set_option maxRecDepth 20000 in
/-- **C95.** The size is no parameter, so the allocation stays where it is, but the deallocation is managed: a return before the allocation frees the
uninitialised pointer. -/
theorem deallocation_frees_garbage : ∃ (z : Site) (op : String) (A : String) (σ : St), DeallocAccepted exNoC z op A ∧ z.whole.flowOk = true ∧
    (∃ σ', z.whole.den exEnvM σ (.ret "" true) σ' ∧ σ' A [] = 0) ∧
    (∃ τ', ((⟨[], z.whole, []⟩ : MProg).dealloc z).den exEnvM σ (.ret "" true) τ' ∧ τ' A [] = -7) := by
  refine ⟨(exOwned "k").freeSite, "free", "p", fun x _ => if x = "c" then 1 else 0, exOwned_free "k" (Or.inr rfl), by decide, ?_, ?_⟩
  · exact Seq.run_obs (E := exEnvM) (s := (exOwned "k").freeSite.whole) (c := .ret "" true) (x := "p") (j := []) (v := 0) 20 (by decide)
  · obtain ⟨τ, h1, h2⟩ := Seq.run_obs (E := exEnvM) (s := (exOwned "k").freeSite.cleared) (σ := fun x _ => if x = "c" then 1 else 0) (c := .ret "" true) (x := "p")
      (j := []) (v := 0) 20 (by decide)
    refine ⟨_, ⟨τ, h1, rfl⟩, ?_⟩
    show (Stmt.lib "free" ["p"] ["p"]).run exEnvM τ "p" [] = -7
    rw [lib_put, St.put_same]
    simp [exEnvM, h2]

/-- The hypotheses of `owned_managed_partial` are met, and the function passes both nodes. -/
example : AllocAccepted exNoC ["n"] (exOwned "n").allocSite "malloc" ["n"] "p" ∧ DeallocAccepted exNoC (exOwned "n").freeSite "free" "p" ∧
    (exOwned "n").body.flowOk = true ∧ (∀ x ∈ ["n"], ¬ writes (exOwned "n").pre.users x ∧ ¬ writes ((exOwned "n").l1.flatMap Stmt.users) x) :=
  ⟨exOwned_alloc, exOwned_free "n" (Or.inl rfl), by decide, by decide⟩

set_option maxRecDepth 20000 in
example : ∃ σ', (exOwned "n").body.den exEnvM (fun x _ => if x = "n" then 1 else 0) .normal σ' ∧ σ' "o" [] = 101 :=
  Seq.run_obs (E := exEnvM) (s := (exOwned "n").body) (c := .normal) (x := "o") (j := []) (v := 101) 20 (by decide)

/-- `p = malloc(n); o = p` -/
def exPlainSite : Site := ⟨.nil, [], exMalloc "n", [], [], exUseP⟩

set_option maxRecDepth 20000 in
/-- The hypotheses of `allocation_managed_same_partial` are met. -/
example : AllocAccepted exNoC ["n"] exPlainSite "malloc" ["n"] "p" ∧ exPlainSite.whole.forsOk = true ∧
    (∀ x ∈ ["n"], ¬ writes exPlainSite.pre.users x ∧ ¬ writes (exPlainSite.l1.flatMap Stmt.users) x) ∧
    ∀ σ c σ', exPlainSite.pre.den exEnvM σ c σ' → c = .normal := by
  refine ⟨⟨rfl, by decide, fun v hv hA hne => ?_⟩, by decide, by decide, fun σ c σ' h => h.1⟩
  have : v = .ev 8 (.read, "p") := by
    have h : ∀ v ∈ exPlainSite.whole.allUses, v.of "p" = true → v ≠ exPlainSite.vertex "p" → v = .ev 8 (.read, "p") := by decide
    exact h v hv hA hne
  subst this
  exact dominates_of [.nop 0, .nop 2, .ev 4 (.read, "n"), .ev 5 (.write, "p")] (by decide) (by decide) (by decide) (by decide)

end Docc.IR
