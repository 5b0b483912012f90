import Verif.IR.Fresh
import Verif.IR.InterchangeProps

/-
C85: a local of a region that carries values from one execution of the region to the next, and cases that meet the hypotheses of the theorems.
-/
namespace Docc.IR
open Docc.Sym

/-- `if (t == 0) s = 0; s = s + 1; A[t] = s` -/
def exCount : Seq := .cons (.ifElse (.cons (.eq (.sym "t") (.int 0)) (.cons (.block []) [("s", .int 0)] .nil) .nil))
  [("s", .add [.sym "s", .int 1])] (.one (.block [.tasklet "assign" [("s", [])] "A" [.sym "t"]]))
/-- `for (t = 0; t < 2; t++)` around it -/
def exCounts : Seq := .one (.loop false "t" (.int 0) (exLt "t" 2) (exInc "t") exCount)
/-- `A` is an argument of the program -/
def exDeclA : String → Bool := (· == "A")

theorem exCount_ones (σ : St) (c : Ctl) (σ' : St) (h0 : σ "s" [] = 0) (hA : σ "A" [1] ≠ 2) (h : exCount.den exEnv σ c σ') : σ' "A" [1] ≠ 2 := by
  simp only [exCount, Seq.one, Seq.den, Node.den, Brs.den, Rel.seq, Rel.ite, Rel.upd] at h
  rcases h with ⟨σ1, h1, h⟩ | ⟨hc, h⟩
  · have e : σ1 "s" [] = 0 ∧ σ1 "A" = σ "A" := by
      split at h1
      · simp at h1
        subst h1
        simp [runTrans, runBlock, St.setS, St.set, St.ev, Expr.eval]
        funext j
        simp [St.set, St.setS]
      · simp at h1; subst h1; exact ⟨h0, rfl⟩
    have e' : σ' = runBlock exEnv [.tasklet "assign" [("s", [])] "A" [.sym "t"]] (runTrans exEnv [("s", .add [.sym "s", .int 1])] σ1) := by
      rcases h with ⟨σ2, ⟨_, h2⟩, h⟩ | ⟨hc, hn, _⟩
      · rcases h with ⟨σ3, ⟨_, h3⟩, h⟩ | ⟨hc, hn, _⟩
        · rcases h with ⟨σ4, ⟨_, h4⟩, h⟩ | ⟨hc, hn, _⟩
          · simp only [runTrans, List.foldl_nil] at h4
            rw [h.2, id, h4, h3, h2]
          · exact absurd hn hc
        · exact absurd hn hc
      · exact absurd hn hc
    rw [e']
    simp [runBlock, runTrans, Stmt.run, exEnv, St.setS, St.set, St.ev, Expr.eval, Expr.evalL, St.val, e.1]
    split
    · decide
    · rw [e.2]; exact hA
  · split at h
    · simp [hc] at h
    · simp at h; exact absurd h.1 hc

/-- **C85 fails** for locals that carry values from one execution of the region to the next: in `for (t = 0; t < 2; t++) { if (t == 0) s = 0; s = s + 1;
A[t] = s; }` every read of `s` follows a write, `s` is a local of the loop body, and the body as a function of its own leaves `A[1] = 1` instead of `2`. -/
theorem carried_local_violated : ∃ (E : Env) (decl : String → Bool) (s : Seq) (p : List Nat) (n : Node) (junk σ σ' : St) (x : String) (j : List Int),
    s.regionAt p = some n ∧ s.den E σ .normal σ' ∧ (s.argCtx decl).isArg n x = true ∧
    ∀ k τ', s.denWith E (n.outlined E (s.argCtx decl) junk) p σ k τ' → τ' x j ≠ σ' x j := by
  obtain ⟨σ', h1, h2⟩ := Seq.run_obs (E := exEnv) 60 (s := exCounts) (σ := fun _ _ => 0) (x := "A") (j := [1]) (c := .normal) (v := 2) (by decide)
  refine ⟨exEnv, exDeclA, exCounts, [0, 0], .seq exCount, fun _ _ => 0, fun _ _ => 0, σ', "A", [1], rfl, h1, by decide, fun k τ' hd => ?_⟩
  rw [h2]
  have hs : (exCounts.argCtx exDeclA).isArg (.seq exCount) "s" = false := by decide
  refine Rel.seq_inv (P := fun σ => σ "A" [1] ≠ 2) (Rel.seq_inv (Rel.upd_inv fun σ hσ => ?_) (Rel.iter_inv (fun σ hσ => ?_) ?_))
    (Rel.seq_inv (Rel.upd_inv fun σ hσ => hσ) (by rw [Seq.den]; exact Rel.upd_inv fun _ h => h)) _ k τ' (by decide) hd
  · simpa [St.setS, St.set] using hσ
  · simpa [St.setS, St.set] using hσ
  · rintro σ c τ hσ ⟨κ, hκ, rfl⟩
    rw [Node.den] at hκ
    have := exCount_ones _ c κ (by simp only [hs]; rfl) (by simp only; split <;> [exact hσ; decide]) hκ
    simp only
    split
    · exact this
    · exact hσ

/-- `s = B[t]; A[t] = s;` -/
def exViaBody : Node := .seq (.cons (.block [.tasklet "assign" [("B", [.sym "t"])] "s" []]) [] (.one (.block [.tasklet "assign" [("s", [])] "A" [.sym "t"]])))
/-- `for (t = 0; t < n; t++) { s = B[t]; A[t] = s; }` -/
def exVia : Seq := .one (.loop false "t" (.int 0) (.lt (.sym "t") (.sym "n")) (exInc "t")
  (.cons (.block [.tasklet "assign" [("B", [.sym "t"])] "s" []]) [] (.one (.block [.tasklet "assign" [("s", [])] "A" [.sym "t"]]))))
/-- the arguments of the program -/
def exViaDecl : String → Bool := fun x => x == "A" || x == "B" || x == "n"

theorem exVia_locals (x : String) : (exVia.argCtx exViaDecl).isLocal exViaBody x = true ↔ x ∈ ["s"] := by
  constructor
  · intro h
    have hu := ArgCtx.isLocal_used h
    have : x = "B" ∨ x = "t" ∨ x = "s" ∨ x = "A" := by
      simp [Node.used, exViaBody, Node.users, Seq.users, Seq.one, readsOf, Stmt.users, Expr.atoms, Expr.atomsL, Node.isRet, transUsers] at hu
      grind
    rcases this with rfl | rfl | rfl | rfl
    · revert h; decide
    · revert h; decide
    · simp
    · revert h; decide
  · intro h
    rw [List.mem_singleton.1 h]
    decide

/-- the body can be outlined -/
example (E : Env) (junk σ : St) (k : Ctl) (σ' : St) (hd : exVia.den E σ k σ') :
    (∃ τ', exVia.denWith E (exViaBody.outlined E (exVia.argCtx exViaDecl) junk) [0, 0] σ k τ') ∧
    ∀ k' τ', exVia.denWith E (exViaBody.outlined E (exVia.argCtx exViaDecl) junk) [0, 0] σ k' τ' →
      k' = k ∧ ∀ x, ¬ (exVia.argCtx exViaDecl).isLocal exViaBody x = true → τ' x = σ' x :=
  outline_partial E exViaDecl exVia [0, 0] exViaBody rfl junk σ
    (fun ρ _ => localsDead_of_fresh E _ _ ["s"] exVia_locals (by decide) ρ) k σ' hd
/-- it terminates -/
example : ∃ σ', exVia.den exEnv (fun x _ => if x = "n" then 2 else if x = "B" then 7 else 0) .normal σ' ∧ σ' "A" [1] = 7 :=
  Seq.run_obs (E := exEnv) 60 (s := exVia) (x := "A") (j := [1]) (c := .normal) (v := 7) (by decide)
/-- its flags -/
example : exViaBody.flags "A" = ⟨false, true, true⟩ ∧ exViaBody.flags "B" = ⟨true, true, false⟩ ∧ exViaBody.flags "s" = ⟨true, true, true⟩ := by decide
/-- `t` is used outside the body, `s` is not -/
example : (exVia.argCtx exViaDecl).isArg exViaBody "t" = true ∧ (exVia.argCtx exViaDecl).isLocal exViaBody "s" = true := by decide

end Docc.IR
