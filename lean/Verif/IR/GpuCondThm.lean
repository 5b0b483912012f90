import Verif.IR.GpuCondProps
import Verif.IR.InterchangeProps

namespace Docc.IR
open Docc.Sym

/-! ## C93: GPUConditionPropagation -/

/-- **C93 (inside).** A thread inside the iteration space has exactly the executions it had before, when the body does not write what the condition
of the map reads. -/
theorem gpu_inside {E : Env} {i : String} {k : Cond} {body body' : Seq} (h : gpuPropagate i k body = some (.ok body'))
    (hk : ∀ x ∈ k.atoms, x ∉ body.written) {σ : St} (hσ : σ.cond E k = true) (c : Ctl) (σ' : St) :
    body'.den E σ c σ' ↔ (threadBefore k body).den E σ c σ' := by
  have hg : body.guard i k = .ok body' := by
    simp only [gpuPropagate] at h
    split at h <;> simp_all
  have hb := body.guard_bis E hg hk
  have e : (threadBefore k body).den E σ c σ' ↔ body.den E σ c σ' := by
    rw [threadBefore, Node.den, Brs.den]
    simp [Rel.ite, hσ]
  rw [e]
  constructor
  · intro hd
    obtain ⟨τ, h1, h2, _⟩ := hb.2 σ σ c σ' ⟨rfl, hσ⟩ hd
    rw [← h2]; exact h1
  · intro hd
    obtain ⟨τ, h1, h2, _⟩ := hb.1 σ σ c σ' ⟨rfl, hσ⟩ hd
    rw [h2]; exact h1

/-- **C93 (outside, partial).** Before, a thread outside the iteration space did nothing at all.  Afterwards it changes no container that is written
only by code with the map variable in it.  Missing: containers written by code that does not mention the map variable
(`gpu_exposed_violated`). -/
theorem gpu_outside_partial {E : Env} {i : String} {k : Cond} {body body' : Seq} (h : gpuPropagate i k body = some (.ok body'))
    (hk : ∀ x ∈ k.atoms, x ∉ body.written) {σ : St} (hσ : σ.cond E k = false) :
    (∀ c σ', (threadBefore k body).den E σ c σ' ↔ c = .normal ∧ σ' = σ) ∧
    ∀ c σ', body'.den E σ c σ' → ∀ z, z ∉ body.exposed i → σ' z = σ z := by
  have hg : body.guard i k = .ok body' := by
    simp only [gpuPropagate] at h
    split at h <;> simp_all
  constructor
  · intro c σ'
    rw [threadBefore, Node.den, Brs.den, Brs.den]
    simp [Rel.ite, hσ, Rel.upd]
  · intro c σ' hd z hz
    exact (body.guard_outside E hg hk hz σ c σ' ⟨hσ, rfl⟩ hd).2

/-- **C93 (barriers, partial).** If the way through the body depends on containers `X` only (apart from what is put under the condition, which neither
leaves early nor writes such a container), a thread outside the iteration space takes the same way as every thread inside: when the one inside comes
to an end, so does the one outside, in the same manner, and they agree on `X`; with a counter of the barriers in `X`, they pass the same number of
barriers.  Missing: bodies where a `break` or `return` depends on the map variable (`gpu_barrier_violated`). -/
theorem gpu_barriers_partial {E : Env} {i : String} {k : Cond} {body body' : Seq} (h : gpuPropagate i k body = some (.ok body'))
    (hk : ∀ x ∈ k.atoms, x ∉ body.written) {X : String → Bool} (hX : body.uniform i X = true) {σ τ : St}
    (hσ : σ.cond E k = true) (hτ : τ.cond E k = false) (hs : ∀ x, X x = true → σ x = τ x) {c : Ctl} {σ' : St}
    (hd : (threadBefore k body).den E σ c σ') : ∃ τ', body'.den E τ c τ' ∧ ∀ x, X x = true → σ' x = τ' x := by
  have hg : body.guard i k = .ok body' := by
    simp only [gpuPropagate] at h
    split at h <;> simp_all
  have h1 := (gpu_inside h hk hσ c σ').mpr hd
  obtain ⟨τ', h2, h3, _⟩ := body.guard_pair E hg hk hX σ τ c σ' ⟨hs, hσ, hτ⟩ h1
  exact ⟨τ', h2, h3⟩

/-! ### the hypotheses are met -/

/-- a barrier; the model counts the barriers in `bar` -/
def exBarrier : Node := .block [.lib "barrier_local" ["bar"] ["bar"]]

/-- library nodes add one (used for barriers only) -/
def exEnvB : Env := ⟨fun _ _ => 0, fun _ l => l.sum, fun _ _ r _ => (r.headD fun _ => 0) [] + 1, 0⟩

/-- `for (t = 0; t < 2; t++) { barrier; B[i] = A[t]; barrier }` -/
def exStage : Seq := .one (.loop false "t" (.int 0) (exLt "t" 2) (exInc "t")
  (.cons exBarrier [] (.cons (.block [.tasklet "assign" [("A", [.sym "t"])] "B" [.sym "i"]]) [] (.cons exBarrier [] .nil))))

/-- the statement is under the test of the map, the barriers are not -/
def exStageAfter : Seq := .one (.loop false "t" (.int 0) (exLt "t" 2) (exInc "t")
  (.cons exBarrier [] (.cons (.ifElse (.cons (exLt "i" 3) (.cons (.block [.tasklet "assign" [("A", [.sym "t"])] "B" [.sym "i"]]) [] .nil) .nil)) []
    (.cons exBarrier [] .nil))))

theorem exStage_ok : gpuPropagate "i" (exLt "i" 3) exStage = some (.ok exStageAfter) := rfl

set_option maxRecDepth 8000 in
example : (∀ x ∈ (exLt "i" 3).atoms, x ∉ exStage.written) ∧ "B" ∉ exStage.exposed "i" ∧
    exStage.uniform "i" (fun x => x == "bar" || x == "t") = true := by decide

/-- a state -/
def exThread (v : Int) : St := fun x _ => if x = "i" then v else if x = "A" then 7 else 0

/-- the thread 1 writes its element and passes four barriers -/
example : ∃ σ', exStageAfter.den exEnvB (exThread 1) .normal σ' ∧ σ' "B" [1] = 7 := Seq.run_obs 40 (by decide)
example : ∃ σ', exStageAfter.den exEnvB (exThread 1) .normal σ' ∧ σ' "bar" [] = 4 := Seq.run_obs 40 (by decide)
/-- the thread 3 writes nothing and passes four barriers -/
example : ∃ σ', exStageAfter.den exEnvB (exThread 3) .normal σ' ∧ σ' "B" [3] = 0 := Seq.run_obs 40 (by decide)
example : ∃ σ', exStageAfter.den exEnvB (exThread 3) .normal σ' ∧ σ' "bar" [] = 4 := Seq.run_obs 40 (by decide)
/-- the theorem applied: every thread outside passes four barriers -/
example (v : Int) (hv : 3 ≤ v) : ∃ τ', exStageAfter.den exEnvB (exThread v) .normal τ' ∧ τ' "bar" [] = 4 := by
  have h1 : ∃ σ', exStage.den exEnvB (exThread 1) .normal σ' ∧ σ' "bar" [] = 4 := Seq.run_obs 40 (by decide)
  obtain ⟨σ', h1, h2⟩ := h1
  have hc : (exThread 1).cond exEnvB (exLt "i" 3) = true := by decide
  have hc' : (exThread v).cond exEnvB (exLt "i" 3) = false := by
    simp [St.cond, exLt, Cond.eval, St.ev, Expr.eval, St.val, exThread]
    omega
  obtain ⟨τ', h3, h4⟩ := gpu_barriers_partial (E := exEnvB) exStage_ok (X := fun x => x == "bar" || x == "t") (by decide) (by decide) hc hc'
    (by intro x hx; simp only [Bool.or_eq_true, beq_iff_eq] at hx; rcases hx with rfl | rfl <;> rfl)
    (c := .normal) (σ' := σ') (by rw [threadBefore, Node.den, Brs.den]; simp only [Rel.ite, hc, if_true]; exact h1)
  exact ⟨τ', h3, by rw [← h4 "bar" rfl]; exact h2⟩

/-! ### refuted -/

/-- `barrier; p = i; C[p] = 7` -/
def exIndirect : Seq := .cons exBarrier [] (.cons (.block [.tasklet "assign" [("i", [])] "p" []]) []
  (.one (.block [.tasklet "assign" [("A", [])] "C" [.sym "p"]])))

/-- **C93, refuted (outside).** The transformation looks for the map variable itself: the statement `p = i` is put under the condition, but
`C[p] = 7` is not, so a thread outside the iteration space writes `C` (at a place computed from a `p` it never assigned). -/
theorem gpu_exposed_violated : ∃ body', gpuPropagate "i" (exLt "i" 3) exIndirect = some (.ok body') ∧
    (exThread 5).cond exEnvB (exLt "i" 3) = false ∧ (exThread 5) "C" [0] = 0 ∧
    (∀ c σ', (threadBefore (exLt "i" 3) exIndirect).den exEnvB (exThread 5) c σ' → c = .normal ∧ σ' "C" [0] = 0) ∧
    (∀ c σ', body'.den exEnvB (exThread 5) c σ' → c = .normal ∧ σ' "C" [0] = 7) ∧
    (∃ c σ', body'.den exEnvB (exThread 5) c σ') := by
  refine ⟨_, rfl, by decide, rfl, ?_, ?_, ?_⟩
  · intro c σ' hd
    rw [threadBefore, Node.den, Brs.den, Brs.den] at hd
    have hc : (exThread 5).cond exEnvB (exLt "i" 3) = false := by decide
    simp only [Rel.ite, hc, Bool.false_eq_true, if_false, Rel.upd, id] at hd
    rw [hd.2]; exact ⟨hd.1, rfl⟩
  · intro c σ' hd
    exact Seq.run_obs_all (E := exEnvB) (x := "C") (j := [0]) (v := 7) (c := .normal) 40 (by decide) hd
  · obtain ⟨σ', h, _⟩ := Seq.run_obs (E := exEnvB) (s := .cons exBarrier [] (.cons (.ifElse (.cons (exLt "i" 3) (.cons (.block [.tasklet "assign"
      [("i", [])] "p" []]) [] .nil) .nil)) [] (.one (.block [.tasklet "assign" [("A", [])] "C" [.sym "p"]])))) (σ := exThread 5) (x := "C") (j := [0])
      (v := 7) (c := .normal) 40 (by decide)
    exact ⟨.normal, σ', h⟩

/-- `while (1) { barrier; if (i < 9) break; }` -/
def exUntil : Seq := .one (.whileL (.cons exBarrier [] (.one (.ifElse (.cons (exLt "i" 9) (.one .brk) .nil)))))

/-- what becomes of the body of the loop -/
def exUntilBody : Seq := .cons exBarrier [] (.one (.ifElse (.cons (exLt "i" 3) (.cons (.ifElse (.cons (exLt "i" 9) (.one .brk) .nil)) [] .nil) .nil)))

/-- a loop whose body always ends normally does not end -/
theorem Rel.forever_never {P : St → Prop} {R : Rel} (h : ∀ σ c σ', P σ → R σ c σ' → c = .normal ∧ P σ') {σ : St} {c : Ctl} {σ' : St} (hp : P σ)
    (hf : Rel.forever R σ c σ') : False := by
  induction hf with
  | step k h1 _ _ ih => exact ih (h _ _ _ hp h1).2
  | stop h1 => exact nomatch (h _ _ _ hp h1).1
  | ret d q h1 => exact nomatch (h _ _ _ hp h1).1

/-- **C93, refuted (barriers).** The `break` depends on the map variable and is put under the condition with its if-else: the threads inside leave the
loop after one barrier, the thread 5 (which would leave it too, were it not for the new test) waits at barriers for ever. -/
theorem gpu_barrier_violated : ∃ body', gpuPropagate "i" (exLt "i" 3) exUntil = some (.ok body') ∧
    (∃ σ', exUntil.den exEnvB (exThread 1) .normal σ' ∧ σ' "bar" [] = 1) ∧
    (∃ σ', exUntil.den exEnvB (exThread 5) .normal σ' ∧ σ' "bar" [] = 1) ∧
    ∀ c σ', ¬ body'.den exEnvB (exThread 5) c σ' := by
  refine ⟨.one (.whileL exUntilBody), rfl, Seq.run_obs 40 (by decide), Seq.run_obs 40 (by decide), ?_⟩
  intro c σ' hd
  have hk : ∀ x ∈ (exLt "i" 3).atoms, x ∉ exUntilBody.written := by decide
  have hstep : ∀ σ c σ', σ.cond exEnvB (exLt "i" 3) = false → exUntilBody.den exEnvB σ c σ' → c = .normal ∧ σ'.cond exEnvB (exLt "i" 3) = false := by
    intro σ c σ' hc hd
    refine ⟨?_, Seq.cond_inv exEnvB _ hk _ _ _ hc hd⟩
    rw [exUntilBody, Seq.den, exBarrier, Node.den, Rel.upd_seq, Rel.upd_seq, Seq.one, Seq.den, Node.den, Brs.den, Brs.den, Seq.den, Rel.upd_upd] at hd
    have hc' : (runTrans exEnvB [] (runBlock exEnvB [.lib "barrier_local" ["bar"] ["bar"]] σ)).cond exEnvB (exLt "i" 3) = false := by
      rw [← hc]
      refine St.cond_congr exEnvB fun x hx => ?_
      simp only [exLt, Cond.atoms, Expr.atoms, List.append_nil, List.mem_singleton] at hx
      subst hx
      rfl
    rcases hd with ⟨σ1, _, h2⟩ | ⟨hn, h2⟩
    · exact h2.1
    · simp only [Rel.ite, hc', Bool.false_eq_true, if_false] at h2
      exact h2.1
  simp only [Seq.one, Seq.den, Node.den, Rel.upd_upd] at hd
  rcases hd with ⟨σ1, h1, _⟩ | ⟨_, h1⟩ <;>
    exact Rel.forever_never hstep (by decide) h1

/-- `barrier; { B[i] = 7 }` with a nested sequence -/
def exNested : Seq := .cons exBarrier [] (.one (.seq (.one (.block [.tasklet "assign" [("A", [])] "B" [.sym "i"]]))))

/-- `if (n < 1) barrier; else-if (n < 2) B[i] = 7` -/
def exBranches : Seq := .one (.ifElse (.cons (exLt "n" 1) (.one exBarrier) (.cons (exLt "n" 2)
  (.one (.block [.tasklet "assign" [("A", [])] "B" [.sym "i"]])) .nil)))

/-- **C93, refuted (failures).** The transformation accepts the maps but does not complete: for a nested sequence without barriers it asks the parent for
the place of a grandchild (exception), for a branch without barriers it takes the if-else for a sequence (undefined behaviour). -/
theorem gpu_accepts_violated : gpuPropagate "i" (exLt "i" 3) exNested = some (.error .childNotFound) ∧
    gpuPropagate "i" (exLt "i" 3) exBranches = some (.error .badCast) := ⟨rfl, rfl⟩

end Docc.IR
