import Verif.IR.For2MapProps

/-
C23: loops accepted by For2Map whose iterations must not be reordered, although every answer of the oracles is right.
-/
namespace Docc.IR
open Docc.Sym

/-- The answers given to the analysis are right for every pair of users, for the iterations of the loop over `i` started in `σ`:
`is_disjoint` and `is_subset` about one iteration, `maps::intersects` about different iterations; monotonic updates increase the loop
variable; complete if-elses have a branch for every state. -/
structure DepOracle.True (O : DepOracle) (E : Env) (i : String) (u : Expr) (σ : St) : Prop where
  meets : ∀ p c, O.meets i p c = false → ∀ v w : Int, v ≠ w → ∀ l, p.locs E (σ.setS i v) l → ¬ c.locs E (σ.setS i w) l
  disjoint : ∀ p c, O.disjoint c p = true → ∀ v : Int, ∀ l, p.locs E (σ.setS i v) l → ¬ c.locs E (σ.setS i v) l
  subset : ∀ p c, O.subset p c = true → ∀ v : Int, ∀ l, p.locs E (σ.setS i v) l → c.locs E (σ.setS i v) l
  mono : O.mono i u = true → ∀ v, v < (σ.setS i v).ev E u
  complete : ∀ b, O.complete b = true → ∀ ρ : St, b.conds.any (fun c => ρ.cond E c) = true

/-- run the body for the listed values, with the private containers changed by `hv` before each instance -/
def parRun (E : Env) (f : Nat) (s : Seq) (i : String) (hv : St → St) : List Int → St → Option St
  | [], σ => some σ
  | v :: vs, σ => match s.run E f ((hv σ).setS i v) with
    | some (.normal, σ1) => parRun E f s i hv vs σ1
    | _ => none

theorem parRun_sound {E : Env} {f : Nat} {s : Seq} {i : String} {hv : St → St} {X : String → Prop} (hX : ∀ σ, OffX X σ (hv σ)) :
    (vs : List Int) → (σ σ' : St) → parRun E f s i hv vs σ = some σ' → RunPar (s.den E) i X vs σ σ'
  | [], σ, σ', h => by simp only [parRun, Option.some.injEq] at h; subst h; exact .nil
  | v :: vs, σ, σ', h => by
    simp only [parRun] at h
    split at h
    · rename_i σ1 h1
      exact .cons (hX σ) (Or.inl rfl) (Seq.run_sound h1) (parRun_sound hX vs σ1 σ' h)
    · cases h

theorem parRun_obs {E : Env} (f : Nat) {s : Seq} {i : String} {hv : St → St} {X : String → Prop} (hX : ∀ σ, OffX X σ (hv σ))
    {vs : List Int} {σ : St} {x : String} {j : List Int} {v : Int} (h : (parRun E f s i hv vs σ).map (fun r => r x j) = some v) :
    ∃ τ', RunPar (s.den E) i X vs σ τ' ∧ τ' x j = v := by
  cases hr : parRun E f s i hv vs σ with
  | none => rw [hr] at h; simp at h
  | some r =>
    rw [hr] at h
    exact ⟨r, parRun_sound hX _ _ _ hr, by simpa using h⟩

/-- `i` and `i + 1` -/
def exIdx : List (List Expr) := [[.sym "i"], [.add [.sym "i", .int 1]]]
/-- a careful oracle: arrays `A`, `B`, `C`; two users in different iterations are apart only if both are `[i]` or both are `[i + 1]` -/
def exDep (ord : List Usr → List Usr) : DepOracle where
  scalar := fun x => !decide (x ∈ ["A", "B", "C"])
  disjoint := fun _ _ => false
  subset := fun _ _ => false
  meets := fun i p c => !(decide (i = "i") && decide (p.sub = c.sub) && decide (p.sub ∈ exIdx) && !p.whole && !c.whole)
  postdom := fun _ _ => false
  dom := fun _ _ => false
  mono := fun i u => decide (u = exInc i)
  complete := fun b => match b with
    | .cons (.eq (.sym x) (.int 0)) _ (.cons (.ne (.sym y) (.int 0)) _ .nil) => decide (x = y)
    | _ => false
  order := ord

theorem exDep_true (ord : List Usr → List Usr) (σ : St) : (exDep ord).True exEnv "i" (exInc "i") σ where
  meets := by
    intro p c h v w hne l hp hc
    simp only [exDep, decide_true, Bool.true_and, Bool.not_eq_false', Bool.and_eq_true, decide_eq_true_eq, Bool.not_eq_true'] at h
    obtain ⟨⟨⟨h1, h2⟩, h3⟩, h4⟩ := h
    have hp2 := hp.2.resolve_left (by simp [h3])
    have hc2 := hc.2.resolve_left (by simp [h4])
    rw [← h1, hp2] at hc2
    have hv : ∀ v : Int, (σ.setS "i" v).ev exEnv (.sym "i") = v := fun v => St.ev_of_eval (by simp [Expr.eval, St.val, St.setS_same])
    have hv1 : ∀ v : Int, (σ.setS "i" v).ev exEnv (.add [.sym "i", .int 1]) = v + 1 := fun v =>
      St.ev_of_eval (eval_add2 (by simp [Expr.eval, St.val, St.setS_same]) rfl)
    simp only [exIdx, List.mem_cons, List.not_mem_nil, or_false] at h2
    rcases h2 with h2 | h2 <;> rw [h2] at hc2 <;> simp only [List.map_cons, List.map_nil, hv, hv1, List.cons.injEq, and_true] at hc2 <;> omega
  disjoint := by intro p c h; simp [exDep] at h
  subset := by intro p c h; simp [exDep] at h
  mono := by
    intro _ v
    have : (σ.setS "i" v).ev exEnv (exInc "i") = v + 1 := St.ev_of_eval (eval_add2 (by simp [Expr.eval, St.val, St.setS_same]) rfl)
    omega
  complete := by
    intro b h ρ
    simp only [exDep] at h
    split at h
    · rename_i x s1 y s2
      have hxy : x = y := by simpa using h
      subst hxy
      have h0 : ρ.ev exEnv (.int 0) = 0 := St.ev_of_eval rfl
      simp only [Brs.conds, List.any_cons, List.any_nil, St.cond, Cond.eval, Bool.or_false]
      simp
    · cases h

/-- `B`, `c`, `N` live outside the loop, `t` is a local of its body -/
def exMC : MapCtx := ⟨fun x => decide (x = "t"), ["A", "B", "C", "N", "i"], fun _ => false, fun _ => false, fun _ => false⟩
/-- the loop `for (i = 0; i < 2; i++) s` -/
def exFor (s : Seq) : Node := .loop false "i" (.int 0) (exLt "i" 2) (exInc "i") s

/-- `t := B[i]; A[i] := t; z := 3` -/
def exMapBody : Seq := .cons (.block [.tasklet "assign" [("B", [.sym "i"])] "t" [], .tasklet "assign" [("t", [])] "A" [.sym "i"]]) [("z", .int 3)] .nil

/-- the hypotheses of `for2map_partial` hold for it -/
example (σ : St) : canMap (exDep id) exMC [] "i" (exInc "i") exMapBody = true ∧ exMapBody.straight = true ∧ isLocal exMC exMapBody "t" = true ∧
    Iters exEnv "i" (exLt "i" 2) (exInc "i") σ (σ.ev exEnv (.int 0)) [0, 1] 2 ∧
    DepOk (exDep id) exEnv σ "i" [0, 1] (exMapBody.rdUsrs [] 0) (exMapBody.wrUsrs [] 0) exMapBody.transSyms ∧
    (∀ x, x = "i" ∨ x ∈ (exLt "i" 2).atoms ∨ x ∈ (exInc "i").atoms → x ∈ exMC.outside ∧ ∀ w ∈ exMapBody.wrUsrs [] 0, w.cont ≠ x) ∧
    (exDep id).scalar "i" = true ∧ (∀ r ∈ (exMapBody.visit (exDep id) [] 0 {}).undef, isLocal exMC exMapBody r.cont = true →
      ∃ w ∈ (exMapBody.visit (exDep id) [] 0 {}).opn, loopDepends (exDep id) "i" w r = true) := by
  refine ⟨by decide, by decide, by decide, exIters _ _, ⟨?_, ?_, ?_,
    fun u hu => (by decide : ∀ u ∈ exMapBody.rdUsrs [] 0 ++ exMapBody.wrUsrs [] 0, (exDep id).scalar u.cont = true → u.sub = [] ∧ u.whole = false) u
      (List.mem_append.2 hu),
    fun u hu => (by decide : ∀ u ∈ exMapBody.rdUsrs [] 0 ++ exMapBody.wrUsrs [] 0, ∀ e ∈ u.sub, ∀ x ∈ e.atoms, ∀ w ∈ exMapBody.wrUsrs [] 0, w.cont ≠ x) u
      (List.mem_append.2 hu), fun _ _ h => h, by decide⟩, ?_, by decide, ?_⟩
  · intro p _ c _ _ h v _ w _ hne l hp hc
    exact (exDep_true id σ).meets p c h v w hne l hp hc
  · intro p _ c _ _ h; simp [exDep] at h
  · intro p hp r hr he _ v _ l hl
    have : ∀ p ∈ exMapBody.wrUsrs [] 0, ∀ r ∈ exMapBody.rdUsrs [] 0, p.cont = r.cont → p.sub = r.sub ∧ p.whole = r.whole := by decide
    obtain ⟨h1, h2⟩ := this p hp r hr he
    exact ⟨by rw [he]; exact hl.1, by rw [h1, h2]; exact hl.2⟩
  · intro x hx
    have : x = "i" := by simpa [exLt, exInc, Cond.atoms, Expr.atoms, Expr.atomsL] using hx
    subst this
    decide
  · decide

/-- **C23 fails** when an iteration reads a location that another iteration writes and the read may overlap an earlier write of its own
iteration: `A[i] := B; C[i] := A[0]` is accepted, because the read of `A[0]` is matched with the write of `A[i]` as soon as the two are
not disjoint (data_dependency_analysis.cpp:115-134); `C[1]` depends on the order. -/
theorem for2map_overlap_violated : ∃ (E : Env) (O : DepOracle) (C : MapCtx) (s : Seq) (σ σ' τ' : St),
    O.True E "i" (exInc "i") σ ∧ canMap O C [] "i" (exInc "i") s = true ∧ (exFor s).den E σ .normal σ' ∧
    Iters E "i" (exLt "i" 2) (exInc "i") σ (σ.ev E (.int 0)) [0, 1] 2 ∧
    RunPar (s.den E) "i" (fun x => x = "i" ∨ isLocal C s x = true) [1, 0] σ τ' ∧ isLocal C s "C" = false ∧ τ' "C" [1] ≠ σ' "C" [1] := by
  let s : Seq := .one (.block [.tasklet "assign" [("B", [])] "A" [.sym "i"], .tasklet "assign" [("A", [.int 0])] "C" [.sym "i"]])
  let σ : St := fun x _ => if x = "B" then 1 else 0
  obtain ⟨σ', h1, h2⟩ := Node.run_obs (E := exEnv) (σ := σ) 60 (x := "C") (j := [1]) (c := .normal) (v := 1) (s := exFor s) (by decide)
  obtain ⟨τ', h3, h4⟩ := parRun_obs (E := exEnv) 60 (s := s) (i := "i") (hv := id) (X := fun x => x = "i" ∨ isLocal exMC s x = true)
    (fun _ _ _ => rfl) (vs := [1, 0]) (σ := σ) (x := "C") (j := [1]) (v := 0) (by decide)
  exact ⟨exEnv, exDep id, exMC, s, σ, σ', τ', exDep_true _ _, by decide, h1, exIters _ _, h3, by decide, by rw [h4, h2]; decide⟩

/-- **C23 fails** when a complete if-else follows a write: `A[0] := B[i]; if (c == 0) A[i + 1] := B[0] else A[i + 1] := B[0]`: the if-else
closes the write of `A[0]` because it writes the same container (data_dependency_analysis.cpp:478-515), so the write-write dependency on
`A[0]` is lost. -/
theorem for2map_ifelse_violated : ∃ (E : Env) (O : DepOracle) (C : MapCtx) (s : Seq) (σ σ' τ' : St),
    O.True E "i" (exInc "i") σ ∧ canMap O C [] "i" (exInc "i") s = true ∧ (exFor s).den E σ .normal σ' ∧
    Iters E "i" (exLt "i" 2) (exInc "i") σ (σ.ev E (.int 0)) [0, 1] 2 ∧
    RunPar (s.den E) "i" (fun x => x = "i" ∨ isLocal C s x = true) [1, 0] σ τ' ∧ isLocal C s "A" = false ∧ τ' "A" [0] ≠ σ' "A" [0] := by
  let w : Seq := .one (.block [.tasklet "assign" [("B", [.int 0])] "A" [.add [.sym "i", .int 1]]])
  let s : Seq := .cons (.block [.tasklet "assign" [("B", [.sym "i"])] "A" [.int 0]]) []
    (.one (.ifElse (.cons (.eq (.sym "c") (.int 0)) w (.cons (.ne (.sym "c") (.int 0)) w .nil))))
  let σ : St := fun x j => if x = "B" ∧ j = [1] then 1 else 0
  obtain ⟨σ', h1, h2⟩ := Node.run_obs (E := exEnv) (σ := σ) 60 (x := "A") (j := [0]) (c := .normal) (v := 1) (s := exFor s) (by decide)
  obtain ⟨τ', h3, h4⟩ := parRun_obs (E := exEnv) 60 (s := s) (i := "i") (hv := id) (X := fun x => x = "i" ∨ isLocal exMC s x = true)
    (fun _ _ _ => rfl) (vs := [1, 0]) (σ := σ) (x := "A") (j := [0]) (v := 0) (by decide)
  exact ⟨exEnv, exDep id, exMC, s, σ, σ', τ', exDep_true _ _, by decide, h1, exIters _ _, h3, by decide, by rw [h4, h2]; decide⟩

/-- **C23 fails** for a local defined on one path only: `if (i == 0) { t := B }; A[i] := t` is accepted or rejected depending on the
iteration order of a hash map: whether the read of `t` counts as undefined is decided by the last matching definition
(data_dependency_analysis.cpp:121-127).  With its own copy of `t`, iteration 1 reads garbage. -/
theorem for2map_conditional_violated : ∃ (E : Env) (O O' : DepOracle) (C : MapCtx) (s : Seq) (σ σ' τ' : St),
    O.True E "i" (exInc "i") σ ∧ O' = { O with order := O'.order } ∧ (∀ l, (O'.order l).Perm (O.order l)) ∧
    canMap O C [] "i" (exInc "i") s = true ∧ canMap O' C [] "i" (exInc "i") s = false ∧ (exFor s).den E σ .normal σ' ∧
    RunPar (s.den E) "i" (fun x => x = "i" ∨ isLocal C s x = true) [0, 1] σ τ' ∧ isLocal C s "A" = false ∧ τ' "A" [1] ≠ σ' "A" [1] := by
  let s : Seq := .cons (.ifElse (.cons (.eq (.sym "i") (.int 0)) (.one (.block [.tasklet "assign" [("B", [])] "t" []])) .nil)) []
    (.one (.block [.tasklet "assign" [("t", [])] "A" [.sym "i"]]))
  let σ : St := fun x _ => if x = "B" then 1 else 0
  obtain ⟨σ', h1, h2⟩ := Node.run_obs (E := exEnv) (σ := σ) 60 (x := "A") (j := [1]) (c := .normal) (v := 1) (s := exFor s) (by decide)
  obtain ⟨τ', h3, h4⟩ := parRun_obs (E := exEnv) 60 (s := s) (i := "i") (hv := fun σ => σ.setS "t" 7) (X := fun x => x = "i" ∨ isLocal exMC s x = true)
    (fun σ l hl => by
      have : l.1 ≠ "t" := fun e => hl (Or.inr (by rw [e]; decide))
      exact (at_setS fun e => this (by rw [e])).symm) (vs := [0, 1]) (σ := σ) (x := "A") (j := [1]) (v := 7) (by decide)
  exact ⟨exEnv, exDep id, exDep List.reverse, exMC, s, σ, σ', τ', exDep_true _ _, rfl, fun l => List.reverse_perm l, by decide, by decide, h1, h3,
    by decide, by rw [h4, h2]; decide⟩

/-- **C23 fails** for a body that assigns a constant to a symbol of the loop bound: `for (i = 0; i < N; i++) { A[i] := B; N := 1 }` with
`N = 2` runs one iteration; as a Map over the iterations given by the header it runs two.  (for2map.cpp:84-99 accepts the write of `N`
because `N` is not read in the body.) -/
theorem for2map_bound_violated : ∃ (E : Env) (O : DepOracle) (C : MapCtx) (s : Seq) (σ σ' : St),
    O.True E "i" (exInc "i") σ ∧ canMap O C [] "i" (exInc "i") s = true ∧
    (Node.loop false "i" (.int 0) (.lt (.sym "i") (.sym "N")) (exInc "i") s).den E σ .normal σ' ∧
    Iters E "i" (.lt (.sym "i") (.sym "N")) (exInc "i") σ (σ.ev E (.int 0)) [0, 1] 2 ∧ isLocal C s "A" = false ∧
    ∀ ws : List Int, ws = [0, 1] ∨ ws = [1, 0] → ∃ τ', RunPar (s.den E) "i" (fun x => x = "i" ∨ isLocal C s x = true) ws σ τ' ∧ τ' "A" [1] ≠ σ' "A" [1] := by
  let s : Seq := .cons (.block [.tasklet "assign" [("B", [])] "A" [.sym "i"]]) [("N", .int 1)] .nil
  let σ : St := fun x _ => if x = "B" then 1 else if x = "N" then 2 else 0
  obtain ⟨σ', h1, h2⟩ := Node.run_obs (E := exEnv) (σ := σ) 60 (x := "A") (j := [1]) (c := .normal) (v := 0)
    (s := .loop false "i" (.int 0) (.lt (.sym "i") (.sym "N")) (exInc "i") s) (by decide)
  refine ⟨exEnv, exDep id, exMC, s, σ, σ', exDep_true _ _, by decide, h1, ?_, by decide, ?_⟩
  · refine .step (by decide) (.step (by decide) ?_)
    exact Iters.done (by decide)
  · rintro ws (rfl | rfl)
    · obtain ⟨τ', h3, h4⟩ := parRun_obs (E := exEnv) 60 (s := s) (i := "i") (hv := id) (X := fun x => x = "i" ∨ isLocal exMC s x = true)
        (fun _ _ _ => rfl) (vs := [0, 1]) (σ := σ) (x := "A") (j := [1]) (v := 1) (by decide)
      exact ⟨τ', h3, by rw [h4, h2]; decide⟩
    · obtain ⟨τ', h3, h4⟩ := parRun_obs (E := exEnv) 60 (s := s) (i := "i") (hv := id) (X := fun x => x = "i" ∨ isLocal exMC s x = true)
        (fun _ _ _ => rfl) (vs := [1, 0]) (σ := σ) (x := "A") (j := [1]) (v := 1) (by decide)
      exact ⟨τ', h3, by rw [h4, h2]; decide⟩

/-- **C23 fails** for a body with a break: `if (i == 0) break; A[i] := B` is accepted.  The loop stops in its first iteration, while
iteration 1, executed on its own, writes `A[1]`. -/
theorem for2map_break_violated : ∃ (E : Env) (O : DepOracle) (C : MapCtx) (s : Seq) (σ σ' τ' : St),
    O.True E "i" (exInc "i") σ ∧ canMap O C [] "i" (exInc "i") s = true ∧ (exFor s).den E σ .normal σ' ∧
    Iters E "i" (exLt "i" 2) (exInc "i") σ (σ.ev E (.int 0)) [0, 1] 2 ∧
    s.den E (σ.setS "i" 1) .normal τ' ∧ isLocal C s "A" = false ∧ τ' "A" [1] ≠ σ' "A" [1] := by
  let s : Seq := .cons (.ifElse (.cons (.eq (.sym "i") (.int 0)) (.one .brk) .nil)) [] (.one (.block [.tasklet "assign" [("B", [])] "A" [.sym "i"]]))
  let σ : St := fun x _ => if x = "B" then 1 else 0
  obtain ⟨σ', h1, h2⟩ := Node.run_obs (E := exEnv) (σ := σ) 60 (x := "A") (j := [1]) (c := .normal) (v := 0) (s := exFor s) (by decide)
  obtain ⟨τ', h3, h4⟩ := Seq.run_obs (E := exEnv) (σ := σ.setS "i" 1) 60 (x := "A") (j := [1]) (c := .normal) (v := 1) (s := s) (by decide)
  exact ⟨exEnv, exDep id, exMC, s, σ, σ', τ', exDep_true _ _, by decide, h1, exIters _ _, h3, by decide, by rw [h4, h2]; decide⟩

end Docc.IR
