import Verif.IR.FlopProps
import Verif.IR.AssumAnViol

/-
C97: examples for the FLOP analysis and programs for which a result called precise is wrong.
-/
namespace Docc.IR
open Docc.Sym

/-- SymEngine on the updates of the examples: `g + n` and `g + y` -/
def exFlEng : PolyEngine := ⟨fun e gs => match gs, e with
  | [g], .add [.sym x, .int n] => if x = g then some [([1], .int 1), ([0], .int n)] else none
  | [g], .add [.sym x, .sym y] => if x = g ∧ y ≠ g then some [([1], .int 1), ([0], .sym y)] else none
  | _, _ => none, id, fun e => match e.intSum with | some n => .int n | none => e⟩

theorem exFlEng_norm : exFlEng.NormSound := by
  intro ρ e n h
  simp only [exFlEng]
  split
  · rename_i k hk; rw [← h, intSum_eval ρ e k hk]; rfl
  · exact h

theorem exFlEng_sound (ρ : Val) : exFlEng.Sound ρ := by
  constructor
  · intro e n h; exact h
  · intro e gens D n h hv
    simp only [exFlEng] at h
    split at h
    · split at h
      · rename_i g x m hx
        subst hx
        cases h
        simp [Expr.eval, Expr.evalL, V.add] at hv
        simp [polyVal, Expr.eval, monoVal]; omega
      · cases h
    · split at h
      · rename_i g x y hx
        obtain ⟨rfl, _⟩ := hx
        cases h
        simp [Expr.eval, Expr.evalL, V.add] at hv
        simp [polyVal, Expr.eval, monoVal]; omega
      · cases h
    · cases h

/-- all containers are scalars; the library node `gemm` performs `2*m*m` operations, all others are unknown -/
def exFl : FlopEnv := ⟨⟨exFlEng, [], fun _ => [], fun _ => true, fun _ => true⟩, fun _ => .scalar,
  fun op => if op = "gemm" then some (.mul [.int 2, .mul [.sym "m", .sym "m"]]) else none⟩

/-- what the library nodes really do -/
def exFlW : String → St → Int := fun op σ => if op = "gemm" then 2 * (σ "m" [] * σ "m" []) else 7

theorem exFl_right : exFl.LibRight exEnv exFlW := by
  intro op e h σ
  simp only [exFl] at h
  split at h
  · rename_i ho
    subst ho
    cases h
    have : (Expr.mul [.int 2, .mul [.sym "m", .sym "m"]]).eval (σ.val exEnv) = .fin (2 * (σ "m" [] * σ "m" [])) := by
      simp [Expr.eval, Expr.evalL, V.mul, St.val]
    rw [St.ev_of_eval this]
    simp [exFlW]
  · cases h

/-- `a = a + b` on floating point numbers -/
def exFpL : List Stmt := [.tasklet "fp_add" [("a", []), ("b", [])] "a" []]

/-- a block with it -/
def exFp : Node := .block exFpL

/-- `for (i = 0; i < b; i = i + 1) body` -/
def exCountTo (i : String) (b : Expr) (body : Seq) : Node := .loop false i (.int 0) (.lt (.sym i) b) (.add [.sym i, .int 1]) body

theorem exCountTo_counting (i : String) (b : Expr) (hb : b.uses i = false) (hi : i ≠ constName) (body : Seq) (hw : ¬ writes body.users i) :
    Counting exFl exEnv i (.lt (.sym i) b) (.add [.sym i, .int 1]) body := by
  refine ⟨?_, ?_, ?_, hw⟩
  · intro ub h σ hd
    have : loopUpper i (.lt (.sym i) b) = some (ssub b (.int 1)) := by
      simp [loopUpper, cnf, cnfToUpper, upperCandidates, literalUpper, hb]
    rw [this] at h
    cases h
    obtain ⟨n, hn⟩ := hd
    obtain ⟨x, y, hx, hy, rfl⟩ := add2_fin hn
    obtain ⟨y1, y2, hy1, hy2, rfl⟩ := mul2_fin hy
    simp only [Expr.eval] at hy1 hy2
    cases hy1
    cases hy2
    rw [St.ev_of_eval hn]
    simp only [St.cond, Cond.eval, St.ev_of_eval hx, show ∀ σ : St, σ.ev exEnv (.sym i) = σ i [] from fun _ => rfl, decide_eq_true_eq]
    omega
  · intro σ
    have : (Expr.add [.sym i, .int 1]).eval (σ.val exEnv) = .fin (σ i [] + 1) := by simp [Expr.eval, Expr.evalL, V.add, St.val]
    exact St.ev_of_eval this
  · simp [FlopEnv.stride, exFl, exFlEng, affineCoefficients, affineCoefficients.go, pickSymbol, hi, Ne.symm hi, Expr.intSum, Expr.intSumL]

theorem exFl_mono (AT : Assums) (i : String) (hi : i ≠ constName) : isMonotonic exFlEng AT (.add [.sym i, .int 1]) i = true := by
  simp [isMonotonic, isMonotonicAffine, affineIntCoeffs, exFlEng, affineCoefficients, affineCoefficients.go, pickSymbol, hi, Ne.symm hi, symMinimum,
    PolyEngine.asInteger, fitsLong]
  left; rfl

theorem exFl_body (AT : Assums) (i : String) (b : Expr) (hb : b.uses i = false) (hi : i ≠ constName) (s : Seq) :
    exFl.ctx.body AT i (.int 0) (.lt (.sym i) b) (.add [.sym i, .int 1]) s =
      exFl.ctx.bodyUpper AT i (.int 0) (.add [.sym i, .int 1]) (ssub b (.int 1))
        (exFl.ctx.bodyInit i (.int 0) (exFl.ctx.bodyBase i (.lt (.sym i) b) (.add [.sym i, .int 1]) s)) :=
  body_some (exFl_mono AT i hi) (cnf_lt _ _) (by simp [cnfToUpper, upperCandidates, literalUpper, hb])

/-- no assumptions -/
def exA0 : Assums × Assums := (fun _ => none, fun _ => none)

/-- `n*k*(1 + 2*m*m)` operations: `for i < n { for j < k { a = a + b; gemm } }` -/
def exNest2 : Seq := .one (exCountTo "i" (.sym "n") (.one (exCountTo "j" (.sym "k") (.cons exFp [] (.one (.block [.lib "gemm" ["a"] ["c"]]))))))

/-- the count of the loop body times the number of iterations, as the analysis writes it -/
def exTimes (b : Expr) (c : Expr) : Expr := .mul [.add [ssub (ssub b (.int 1)) (.int 0), .int 1], c]

/-- what the analysis reports for the nest -/
def exNest2E : Expr := exTimes (.sym "n") (exTimes (.sym "k") (.add [.int 1, .mul [.int 2, .mul [.sym "m", .sym "m"]]]))

theorem exNest2_run : (exNest2.flopRun exFl exA0).e = some exNest2E ∧ (exNest2.flopRun exFl exA0).precise = true ∧
    (exNest2.flopRun exFl exA0).abort = false := by
  simp only [exNest2, Seq.one, Seq.flopRun, exCountTo, Seq.flops, Node.flops, exFl_body _ "i" (.sym "n") (by decide) (by decide),
    exFl_body _ "j" (.sym "k") (by decide) (by decide)]
  refine ⟨?_, ?_, ?_⟩ <;> rfl

/-- three symbols, everything else zero -/
def exSt (n k m : Int) : St := fun x _ => if x = "n" then n else if x = "k" then k else if x = "m" then m else 0

/-- the theorem applies to the nest, for all sizes that are not negative: the operations are `n*k*(1 + 2*m*m)` -/
example (n k m : Int) (hn : 0 ≤ n) (hk : 0 ≤ k) {c : Ctl} {r : Int} {σ' : St} (h : exNest2.cost exEnv exFlW (exSt n k m) c r σ') :
    r = n * (k * (1 + 2 * (m * m))) := by
  have hv : exNest2E.eval ((exSt n k m).val exEnv) = .fin (n * (k * (1 + 2 * (m * m)))) := by
    simp [exNest2E, exTimes, ssub, Expr.eval, Expr.evalL, V.add, V.mul, St.val, exSt]
  have hev : ∀ b : Expr, ∀ x, b.eval ((exSt n k m).val exEnv) = .fin x → (exSt n k m).ev exEnv (ssub b (.int 1)) = x - 1 :=
    fun b x hb => St.ev_of_eval (eval_ssub hb rfl)
  rw [← St.ev_of_eval hv]
  refine flops_precise_partial exNest2_run.1 exNest2_run.2.1 exFl_right rfl ?_ (fun x _ a ha => by cases ha) ⟨_, hv⟩ (by decide) h
  simp only [exNest2, Seq.one, exCountTo, Seq.Loops, Node.Loops, exFp]
  have hup : ∀ i b, b.uses i = false → ∀ ub, loopUpper i (.lt (.sym i) b) = some ub → ub = ssub b (.int 1) := by
    intro i b hb ub h
    simp only [loopUpper, cnf_lt, Option.bind, cnfToUpper, upperCandidates, literalUpper, List.flatMap_cons, List.flatMap_nil,
      List.filterMap_cons, List.filterMap_nil, List.append_nil, hb, and_self, if_true, List.foldl_nil, Option.some.injEq] at h
    exact h.symm
  refine ⟨⟨exCountTo_counting "i" _ (by decide) (by decide) _ (by decide), by decide, fun _ ub hub => ?_, ⟨exCountTo_counting "j" _ (by decide) (by decide) _ (by decide),
    by decide, fun _ ub hub => ?_, trivial, trivial, trivial⟩, trivial⟩, trivial⟩
  · rw [hup "i" _ (by decide) ub hub, hev _ n rfl]
    show 0 ≤ n - 1 + 1
    omega
  · rw [hup "j" _ (by decide) ub hub, hev _ k rfl]
    show 0 ≤ k - 1 + 1
    omega

/-- the theorem for flat programs applies to a loop over one computation -/
example (n : Int) (hn : 0 ≤ n) {c : Ctl} {r : Int} {σ' : St}
    (h : (Seq.one (exCountTo "i" (.sym "n") (.one exFp))).cost exEnv exFlW (exSt n 0 0) c r σ') : r = n := by
  have hr : ((Seq.one (exCountTo "i" (.sym "n") (.one exFp))).flopRun exFl exA0).e = some (exTimes (.sym "n") (.int 1)) ∧
      ((Seq.one (exCountTo "i" (.sym "n") (.one exFp))).flopRun exFl exA0).precise = true := by
    simp only [Seq.one, Seq.flopRun, exCountTo, Seq.flops, Node.flops, exFl_body _ "i" (.sym "n") (by decide) (by decide)]
    refine ⟨?_, ?_⟩ <;> rfl
  have hv : (exTimes (.sym "n") (.int 1)).eval ((exSt n 0 0).val exEnv) = .fin n := by
    simp [exTimes, ssub, Expr.eval, Expr.evalL, V.add, V.mul, St.val, exSt]
  rw [← St.ev_of_eval hv]
  refine flops_precise_flat_partial hr.1 hr.2 exFl_right rfl rfl (fun _ => rfl) ?_ (fun x _ a ha => by cases ha) ⟨_, hv⟩ h
  simp only [Seq.one, exCountTo, Seq.Loops, Node.Loops, exFp]
  refine ⟨⟨exCountTo_counting "i" _ (by decide) (by decide) _ (by decide), by decide, fun _ ub hub => ?_, trivial, trivial⟩, trivial⟩
  have : loopUpper "i" (.lt (.sym "i") (.sym "n")) = some (ssub (.sym "n") (.int 1)) := by
    simp only [loopUpper, cnf_lt]; rfl
  rw [this] at hub
  cases hub
  rw [St.ev_of_eval (eval_ssub (x := n) rfl rfl)]
  show 0 ≤ n - 1 + 1
  omega

theorem exFl_canonical (m : Bool) (i : String) (b : Expr) : canonicalBound m i (.lt (.sym i) b) = if m then some b else none := by
  cases m <;> simp [canonicalBound, cnf, foldBound, literalBound]

/-- the analysis does not call precise: a bound assigned in the sequence of the loop, a bound that mentions the variable of another loop, a
library node whose count does, branches, while loops, unknown library nodes -/
theorem not_precise :
    ((Seq.cons (.block []) [("n", .int 0)] (.one (exCountTo "i" (.sym "n") (.one exFp)))).flopRun exFl exA0).precise = false ∧
    ((Seq.one (exCountTo "i" (.sym "n") (.one (exCountTo "j" (.sym "i") (.one exFp))))).flopRun exFl exA0).precise = false ∧
    ((Seq.one (exCountTo "m" (.sym "n") (.one (.block [.lib "gemm" [] ["c"]])))).flopRun exFl exA0).precise = false ∧
    ((Seq.one (.ifElse (.cons (.lt (.sym "n") (.int 1)) (.one exFp) .nil))).flopRun exFl exA0).precise = false ∧
    ((Seq.one (.whileL (.one exFp))).flopRun exFl exA0).precise = false ∧
    ((Seq.one (.block [.lib "other" [] ["c"]])).flopRun exFl exA0).precise = false := by
  refine ⟨?_, ?_, ?_, rfl, rfl, rfl⟩
  · simp only [Seq.one, Seq.flopRun, exCountTo, Seq.flops, Node.flops, exFl_body _ "i" (.sym "n") (by decide) (by decide),
      FlopEnv.loopIn, FlopEnv.bound, exFl_canonical]; rfl
  · simp only [Seq.one, Seq.flopRun, exCountTo, Seq.flops, Node.flops, exFl_body _ "i" (.sym "n") (by decide) (by decide),
      exFl_body _ "j" (.sym "i") (by decide) (by decide), FlopEnv.loopIn, FlopEnv.bound, exFl_canonical]; rfl
  · simp only [Seq.one, Seq.flopRun, exCountTo, Seq.flops, Node.flops, exFl_body _ "m" (.sym "n") (by decide) (by decide)]; rfl

/-- the analysis calls precise: an if-else without branches, and nothing else happens -/
example : ((Seq.one (.ifElse .nil)).flopRun exFl exA0).precise = true ∧ ((Seq.one (.ifElse .nil)).flopRun exFl exA0).e = some (.int 0) := ⟨rfl, rfl⟩

/-- the analysis calls its result precise, and some execution performs another number of operations -/
def FlopWrong (s : Seq) : Prop := ∃ (F : FlopEnv) (E : Env) (W : String → St → Int) (A : Assums × Assums) (e : Expr) (σ : St) (c : Ctl) (n : Int) (σ' : St),
  (∀ ρ, F.ctx.eng.Sound ρ) ∧ F.ctx.eng.NormSound ∧ F.LibRight E W ∧ (s.flopRun F A).e = some e ∧ (s.flopRun F A).precise = true ∧
    (s.flopRun F A).abort = false ∧ A.2.Hold (σ.val E) ∧ s.cost E W σ c n σ' ∧ n ≠ σ.ev E e

/-- the first iteration of a loop of the examples -/
theorem exCountTo_cost {i : String} {init upd : Expr} {cond : Cond} {s : Seq} {σ : St} {n : Int} {c : Ctl} {σ' : St}
    (h : CR.iter (fun σ => σ.cond exEnv cond) (fun σ => σ.setS i (σ.ev exEnv upd)) (s.cost exEnv exFlW) (σ.setS i (σ.ev exEnv init)) c n σ') :
    (Node.loop false i init cond upd s).cost exEnv exFlW σ c n σ' := by
  rw [Node.cost]; exact .inl ⟨_, 0, n, ⟨rfl, rfl, rfl⟩, h, by omega⟩

/-- a sequence of one node -/
theorem one_cost {m : Node} {σ : St} {c : Ctl} {n : Int} {σ' : St} (h : m.cost exEnv exFlW σ c n σ') : (Seq.one m).cost exEnv exFlW σ c n σ' := by
  rw [Seq.one, Seq.cost]
  by_cases hc : c = .normal
  · subst hc
    exact .inl ⟨σ', n, 0, h, .inl ⟨σ', 0, 0, ⟨rfl, rfl, rfl⟩, by rw [Seq.cost]; exact ⟨rfl, rfl, rfl⟩, rfl⟩, by omega⟩
  · exact .inr ⟨hc, h⟩

theorem flopWrong_of {s : Seq} (e : Expr) (σ : St) (c : Ctl) (n : Int) (h : (s.flopRun exFl exA0).e = some e ∧ (s.flopRun exFl exA0).precise = true ∧
    (s.flopRun exFl exA0).abort = false) (hc : ∃ σ', s.cost exEnv exFlW σ c n σ') (hn : n ≠ σ.ev exEnv e) : FlopWrong s := by
  obtain ⟨σ', hc⟩ := hc
  exact ⟨exFl, exEnv, exFlW, exA0, e, σ, c, n, σ', exFlEng_sound, exFlEng_norm, exFl_right, h.1, h.2.1, h.2.2, fun _ _ h => (by cases h), hc, hn⟩

/-- a block, then a jump -/
theorem fp_jump_cost {m : Node} {c : Ctl} (hc : c ≠ .normal) (hm : m.cost exEnv exFlW = CR.exit c) (σ : St) :
    ∃ σ', (Seq.cons exFp [] (.one m)).cost exEnv exFlW σ c 1 σ' := by
  refine ⟨runTrans exEnv [] (runBlock exEnv exFpL σ), ?_⟩
  rw [Seq.cost]
  refine .inl ⟨_, 1, 0, ⟨rfl, rfl, rfl⟩, .inl ⟨_, 0, 0, ⟨rfl, rfl, rfl⟩, one_cost ?_, rfl⟩, rfl⟩
  rw [hm]; exact ⟨rfl, rfl, rfl⟩

/-- **C97 fails** for loops whose range is less than empty: `for (i = 0; i < n; i++) a = a + b` with `n = -5` performs no operation, the
analysis reports `n`, that is -5. -/
theorem negative_range_violated : FlopWrong (.one (exCountTo "i" (.sym "n") (.one exFp))) := by
  refine flopWrong_of (exTimes (.sym "n") (.int 1)) (exSt (-5) 0 0) .normal 0 ?_ ⟨_, one_cost (exCountTo_cost (.done ?_))⟩ (by decide)
  · simp only [Seq.one, Seq.flopRun, exCountTo, Seq.flops, Node.flops, exFl_body _ "i" (.sym "n") (by decide) (by decide)]
    refine ⟨?_, ?_, ?_⟩ <;> rfl
  · decide

/-- **C97 fails** for breaks: `for (i = 0; i < n; i++) { a = a + b; break; }` with `n = 3` performs one operation, the analysis reports
`n`. -/
theorem break_violated : FlopWrong (.one (exCountTo "i" (.sym "n") (.cons exFp [] (.one .brk)))) := by
  obtain ⟨σ', hc⟩ := fp_jump_cost (m := .brk) (c := .brk) (by decide) rfl ((exSt 3 0 0).setS "i" ((exSt 3 0 0).ev exEnv (.int 0)))
  refine flopWrong_of (exTimes (.sym "n") (.int 1)) (exSt 3 0 0) .normal 1 ?_ ⟨_, one_cost (exCountTo_cost (.stop ?_ hc))⟩ (by decide)
  · simp only [Seq.one, Seq.flopRun, exCountTo, Seq.flops, Node.flops, exFl_body _ "i" (.sym "n") (by decide) (by decide)]
    refine ⟨?_, ?_, ?_⟩ <;> rfl
  · decide

/-- **C97 fails** for returns: `for (i = 0; i < n; i++) { a = a + b; return; }` with `n = 3` performs one operation, the analysis reports
`n`. -/
theorem early_return_violated : FlopWrong (.one (exCountTo "i" (.sym "n") (.cons exFp [] (.one (.ret "" true))))) := by
  obtain ⟨σ', hc⟩ := fp_jump_cost (m := .ret "" true) (c := .ret "" true) (by decide) rfl ((exSt 3 0 0).setS "i" ((exSt 3 0 0).ev exEnv (.int 0)))
  refine flopWrong_of (exTimes (.sym "n") (.int 1)) (exSt 3 0 0) (.ret "" true) 1 ?_ ⟨_, one_cost (exCountTo_cost (.ret _ _ ?_ hc))⟩ (by decide)
  · simp only [Seq.one, Seq.flopRun, exCountTo, Seq.flops, Node.flops, exFl_body _ "i" (.sym "n") (by decide) (by decide)]
    refine ⟨?_, ?_, ?_⟩ <;> rfl
  · decide

/-- **C97 fails** for symbols assigned outside the sequence of the loop: `n = 0; { for (i = 0; i < n; i++) a = a + b }` performs no operation,
the analysis reports `n`, which was 3 at entry. -/
theorem assigned_symbol_violated : FlopWrong (.cons (.block []) [("n", .int 0)] (.one (.seq (.one (exCountTo "i" (.sym "n") (.one exFp)))))) := by
  refine flopWrong_of (exTimes (.sym "n") (.int 1)) (exSt 3 0 0) .normal 0 ?_ ?_ (by decide)
  · simp only [Seq.one, Seq.flopRun, exCountTo, Seq.flops, Node.flops, exFl_body _ "i" (.sym "n") (by decide) (by decide)]
    refine ⟨?_, ?_, ?_⟩ <;> rfl
  · refine ⟨(runTrans exEnv [("n", .int 0)] (runBlock exEnv [] (exSt 3 0 0))).setS "i" 0, ?_⟩
    rw [Seq.cost]
    refine .inl ⟨_, 0, 0, ⟨rfl, rfl, rfl⟩, .inl ⟨_, 0, 0, ⟨rfl, rfl, rfl⟩, one_cost ?_, rfl⟩, rfl⟩
    rw [Node.cost]
    refine one_cost (exCountTo_cost (.done ?_))
    decide

/-- **C97 fails** for conditions that say more than a bound: `for (i = 0; i < n && k < 1; i++) a = a + b` with `n = 3` and `k = 1` performs
no operation, the analysis reports `n`. -/
theorem conjunct_violated : FlopWrong (.one (.loop false "i" (.int 0) (.and [.lt (.sym "i") (.sym "n"), .lt (.sym "k") (.int 1)])
    (.add [.sym "i", .int 1]) (.one exFp))) := by
  have hf : cnf (.and [.lt (.sym "i") (.sym "n"), .lt (.sym "k") (.int 1)]) = some [[.lt (.sym "i") (.sym "n")], [.lt (.sym "k") (.int 1)]] := by
    simp [cnf, cnfL]
  have hb : ∀ AT s, exFl.ctx.body AT "i" (.int 0) (.and [.lt (.sym "i") (.sym "n"), .lt (.sym "k") (.int 1)]) (.add [.sym "i", .int 1]) s = _ :=
    fun AT s => body_some (exFl_mono AT "i" (by decide)) hf rfl
  refine flopWrong_of (exTimes (.sym "n") (.int 1)) (exSt 3 1 0) .normal 0 ?_ ⟨_, one_cost (exCountTo_cost (.done ?_))⟩ (by decide)
  · simp only [Seq.one, Seq.flopRun, Seq.flops, Node.flops, hb]
    refine ⟨?_, ?_, ?_⟩ <;> rfl
  · decide

/-- assumptions that tell `k >= 1` -/
def exStrA : Assums := fun x => if x = "k" then some { lower := .int 1, lowers := [.int 1] } else none

/-- **C97 fails** for strides that are symbols: `for (i = 0; i < n; i = i + k) a = a + b`, with `k` at least one, counts as contiguous; with
`n = 1` and `k = 2` it performs one operation, the analysis reports `n / k`, which is zero. -/
theorem symbolic_stride_violated : FlopWrong (.one (.loop false "i" (.int 0) (.lt (.sym "i") (.sym "n")) (.add [.sym "i", .sym "k"]) (.one exFp))) := by
  have hb : ∀ s, exFl.ctx.body exStrA "i" (.int 0) (.lt (.sym "i") (.sym "n")) (.add [.sym "i", .sym "k"]) s = _ :=
    fun s => body_some (by decide) (cnf_lt _ _) rfl
  have hc : ∃ σ', (Seq.one (.loop false "i" (.int 0) (.lt (.sym "i") (.sym "n")) (.add [.sym "i", .sym "k"]) (.one exFp))).cost exEnv exFlW
      (exSt 1 2 0) .normal 1 σ' := by
    have h1 : (Seq.one exFp).cost exEnv exFlW ((exSt 1 2 0).setS "i" ((exSt 1 2 0).ev exEnv (.int 0))) .normal 1 _ := one_cost ⟨rfl, rfl, rfl⟩
    refine ⟨_, one_cost (exCountTo_cost (.step (n := 1) (m := 0) .normal ?_ h1 (.inl rfl) (.done ?_)))⟩ <;> decide
  obtain ⟨σ', hc⟩ := hc
  have hr : ∀ s : Seq, s = .one (.loop false "i" (.int 0) (.lt (.sym "i") (.sym "n")) (.add [.sym "i", .sym "k"]) (.one exFp)) →
      (s.flopRun exFl (fun _ => none, exStrA)).e = some (.mul [.fn "idiv" [.add [ssub (ssub (.sym "n") (.int 1)) (.int 0), .int 1], .add [.int 0, .sym "k"]], .int 1]) ∧
      (s.flopRun exFl (fun _ => none, exStrA)).precise = true ∧ (s.flopRun exFl (fun _ => none, exStrA)).abort = false := by
    rintro s rfl
    simp only [Seq.one, Seq.flopRun, Seq.flops, Node.flops, hb]
    refine ⟨?_, ?_, ?_⟩ <;> rfl
  refine ⟨exFl, exEnv, exFlW, _, _, exSt 1 2 0, .normal, 1, σ', exFlEng_sound, exFlEng_norm, exFl_right, (hr _ rfl).1, (hr _ rfl).2.1, (hr _ rfl).2.2, ?_, hc,
    by decide⟩
  intro x a h
  simp only [exStrA] at h
  split at h
  · rename_i hx
    subst hx
    cases h
    refine ⟨⟨(leB_iff _ _).1 (by decide), (leB_iff _ _).1 (by decide)⟩, ?_, ?_, ?_, ?_⟩
    · intro b hb
      rw [List.mem_singleton.1 hb]
      exact (leB_iff _ _).1 (by decide)
    · intro b hb; cases hb
    · intro b hb; cases hb
    · intro b hb; cases hb
  · cases h

/-- the stride of `i + 2` is 2: the hypotheses of `stride_is_step` are met -/
example (σ : St) : σ.ev exEnv (.add [.sym "i", .int 2]) = σ "i" [] + σ.ev exEnv (.int 2) :=
  stride_is_step (F := exFl) (exFlEng_sound _) exFlEng_norm (by decide)
    (by intro D h t ht; simp [exFl, exFlEng] at h; subst h; simp at ht; rcases ht with rfl | rfl <;> rfl)
    (by simp [FlopEnv.stride, exFl, exFlEng, affineCoefficients, affineCoefficients.go, pickSymbol, constName, Expr.intSum, Expr.intSumL])
    ⟨σ "i" [] + 2, by simp [Expr.eval, Expr.evalL, V.add, St.val]⟩

end Docc.IR
