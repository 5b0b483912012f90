import Verif.IR.AssumAnProps
import Verif.IR.TilingProps

/-
C69: where the assumptions analysis is wrong.
-/
namespace Docc.IR
open Docc.Sym

/-- SymEngine on the expressions of the examples: `i + 1`, `i + 2`, `2*i + 1`, `i`, `2*i`, `N - i`. -/
def exAEng : PolyEngine := ⟨fun e g => if g ≠ ["i"] then none
  else if e = .add [.sym "i", .int 1] then some [([1], .int 1), ([0], .int 1)]
  else if e = .add [.sym "i", .int 2] then some [([1], .int 1), ([0], .int 2)]
  else if e = .add [.mul [.int 2, .sym "i"], .int 1] then some [([1], .int 2), ([0], .int 1)]
  else if e = .sym "i" then some [([1], .int 1)]
  else if e = .mul [.int 2, .sym "i"] then some [([1], .int 2)]
  else if e = .add [.sym "N", .mul [.int (-1), .sym "i"]] then some [([1], .int (-1)), ([0], .sym "N")] else none,
  id, fun e => match e.intSum with | some n => .int n | none => e⟩

theorem exAEng_norm : exAEng.NormSound := by
  intro ρ e n h
  simp only [exAEng]
  split
  · rename_i k hk; rw [← h, intSum_eval ρ e k hk]; rfl
  · exact h

theorem exAEng_sound (ρ : Val) : exAEng.Sound ρ := by
  constructor
  · intro e n h; exact h
  · intro e gens D n h hv
    simp only [exAEng] at h
    split at h
    · simp at h
    · rename_i hg
      have hg : gens = ["i"] := by simpa using hg
      subst hg
      repeat' split at h
      all_goals first
        | (rename_i he; subst he; simp only [Option.some.injEq] at h; subst h
           simp [Expr.eval, Expr.evalL, V.add, V.mul] at hv
           simp [polyVal, Expr.eval, monoVal, hv]; done)
        | (rename_i he; subst he; simp only [Option.some.injEq] at h; subst h
           simp [Expr.eval, Expr.evalL, V.add, V.mul] at hv
           simp [polyVal, Expr.eval, monoVal]; omega)
        | simp at h

/-- order of values as a program -/
def leB : V → V → Bool
  | .nan, _ => false
  | _, .nan => false
  | .ninf, _ => true
  | _, .pinf => true
  | .fin a, .fin b => decide (a ≤ b)
  | _, _ => false

theorem leB_iff (a b : V) : leB a b = true ↔ a ≤ b := by
  rw [V.le_def]; cases a <;> cases b <;> simp [leB, V.le]

/-- the assumptions are violated: some bound of `x` does not hold -/
def refuted (A : Assums) (ρ : Val) (x : String) : Bool :=
  match A x with
  | none => false
  | some a => a.lowers.any (fun b => !leB (b.eval ρ) (.fin (ρ.sym x))) || a.uppers.any fun b => !leB (.fin (ρ.sym x)) (b.eval ρ)

theorem refuted_sound {A : Assums} {ρ : Val} (x : String) (h : refuted A ρ x = true) : ¬ A.Hold ρ := by
  intro hA
  unfold refuted at h
  split at h
  · simp at h
  · rename_i a ha
    obtain ⟨_, h1, h2, _⟩ := hA x a ha
    simp only [Bool.or_eq_true, List.any_eq_true, Bool.not_eq_true'] at h
    rcases h with ⟨b, hb, h⟩ | ⟨b, hb, h⟩
    · rw [(leB_iff _ _).2 (h1 b hb)] at h; simp at h
    · rw [(leB_iff _ _).2 (h2 b hb)] at h; simp at h

/-- the context of a program: its own memlets, dimensions `d`, everything a symbol and a parameter -/
def exCtx (s : Seq) (d : String → List (Option Expr)) : Ctx := ⟨exAEng, s.accs, d, fun _ => true, fun _ => true⟩

/-- An SDFG for which the analysis reports, without any declared assumption, a bound that does not hold when the element is
entered. -/
def Wrong (s : Seq) (d : String → List (Option Expr)) : Prop := ∃ (E : Env) (σ : St) (p : List Nat) (B : Assums × Assums) (τ : St),
  s.assums (exCtx s d) (rootAssums (fun _ => none) (fun _ => none)) p = some B ∧ s.vis E p σ τ ∧ ¬ B.1.Hold (τ.val E)

/-- `for (i = init; cond; i = upd) body` -/
def exLoop (init : Expr) (cond : Cond) (upd : Expr) (body : Seq) : Node := .loop false "i" init cond upd body

/-- the update `i + 1` -/
def exInc1 : Expr := .add [.sym "i", .int 1]

/-- the literal conditions of the examples are their own normal form -/
theorem cnf_lt (a b : Expr) : cnf (.lt a b) = some [[.lt a b]] := by simp [cnf]
theorem cnf_le (a b : Expr) : cnf (.le a b) = some [[.le a b]] := by simp [cnf]

theorem body_some {C : Ctx} {AT : Assums} {i : String} {init : Expr} {cond : Cond} {upd : Expr} {s : Seq} {f : CNF} {ub : Expr}
    (hm : isMonotonic C.eng AT upd i = true) (hf : cnf cond = some f) (hu : cnfToUpper f i = some ub) :
    C.body AT i init cond upd s = C.bodyUpper AT i init upd ub (C.bodyInit i init (C.bodyBase i cond upd s)) := by
  unfold Ctx.body; simp [hm, hf, hu]

theorem propagate_none (A : Assums) : propagate A (fun _ => none) = A := by
  funext x; simp [propagate]

/-- a program is wrong if the body assumptions of its first loop are refuted in the first or a later iteration -/
theorem wrong_of_loop {d : String → List (Option Expr)} {init : Expr} {cond : Cond} {upd : Expr} {body : Seq} (f : CNF) (ub : Expr)
    (rest : Seq) (s : Seq) (hs : s = .cons (exLoop init cond upd body) [] rest) (σ σ1 : St) (x : String)
    (hm : isMonotonic exAEng (fun _ => none) upd "i" = true) (hf : cnf cond = some f) (hu : cnfToUpper f "i" = some ub)
    (h1 : Rel.iterHeads (fun σ => σ.cond exEnv cond) (fun σ => σ.setS "i" (σ.ev exEnv upd)) (body.den exEnv)
        (σ.setS "i" (σ.ev exEnv init)) σ1) (hc : σ1.cond exEnv cond = true)
    (hr : refuted ((exCtx s d).bodyUpper (fun _ => none) "i" init upd ub ((exCtx s d).bodyInit "i" init
      ((exCtx s d).bodyBase "i" cond upd body))) (σ1.val exEnv) x = true) : Wrong s d := by
  have e : (rootAssums (fun _ => none) (fun _ => none)) = ((fun _ => none), fun _ => none) := rfl
  have hb : (exCtx s d).body (fun _ => none) "i" init cond upd body = _ := body_some hm hf hu
  refine ⟨exEnv, σ, [0, 0], ((exCtx s d).body (fun _ => none) "i" init cond upd body,
    (exCtx s d).body (fun _ => none) "i" init cond upd body), σ1, ?_, ?_, ?_⟩
  · subst hs
    rw [e]
    simp only [Seq.assums, exLoop, Node.assums, propagate_none]
  · subst hs
    refine ⟨σ1, h1, hc, ?_⟩
    cases body <;> simp [Seq.vis]
  · rw [hb]; exact refuted_sound x hr

/-- **C69 fails** for disjunctions: `i < n || i < m` with `n = 1`, `m = 2` reaches `i = 1`, the reported bound is
`min(n - 1, m - 1) = 0`. -/
theorem disjunction_bound_violated : Wrong
    (.one (exLoop (.int 0) (.or [.lt (.sym "i") (.sym "n"), .lt (.sym "i") (.sym "m")]) exInc1 .nil)) (fun _ => []) := by
  have hf : cnf (.or [.lt (.sym "i") (.sym "n"), .lt (.sym "i") (.sym "m")]) = some [[.lt (.sym "i") (.sym "n"), .lt (.sym "i") (.sym "m")]] := by
    simp [cnf, cnfL, distributeOr]
  refine wrong_of_loop _ _ .nil _ rfl (fun x _ => if x = "n" then 1 else if x = "m" then 2 else 0) _ "i" (by decide) hf rfl
    (.next .normal .here (by decide) ⟨rfl, rfl⟩ (Or.inl rfl)) (by decide) (by decide)

/-- **C69 fails** for `i <= N`: with `N = 0` the loop runs once, the reported bound is `N >= 1`. -/
theorem inclusive_bound_violated : Wrong
    (.one (exLoop (.int 0) (.le (.sym "i") (.sym "N")) exInc1 .nil)) (fun _ => []) :=
  wrong_of_loop _ _ .nil _ rfl (fun _ _ => 0) _ "N" (by decide) (cnf_le _ _) rfl .here (by decide) (by decide)

/-- **C69 fails** for compound bounds: `i < N + M` with `N = 1`, `M = 0`: the reported bound is `M >= 1`. -/
theorem sum_bound_violated : Wrong
    (.one (exLoop (.int 0) (.lt (.sym "i") (.add [.sym "N", .sym "M"])) exInc1 .nil)) (fun _ => []) :=
  wrong_of_loop _ _ .nil _ rfl (fun x _ => if x = "N" then 1 else 0) _ "M" (by decide) (cnf_lt _ _) rfl .here (by decide) (by decide)

/-- **C69 fails** for decreasing variables: `2*i + 1` counts as monotonic; from `-3` the loop goes to `-5`, the reported bound is
`i >= -3`. -/
theorem decreasing_bound_violated : Wrong
    (.one (exLoop (.int (-3)) (.lt (.sym "i") (.int 0)) (.add [.mul [.int 2, .sym "i"], .int 1]) .nil)) (fun _ => []) :=
  wrong_of_loop _ _ .nil _ rfl (fun _ _ => 0) _ "i" (by decide) (cnf_lt _ _) rfl (.next .normal .here (by decide) ⟨rfl, rfl⟩ (Or.inl rfl)) (by decide)
    (by decide)

/-- **C69 fails** when the initial value mentions the loop variable: `for (i = i + 1; i < 5; i++)`: the reported bound is
`i >= i + 1`. -/
theorem own_init_violated : Wrong
    (.one (exLoop (.add [.sym "i", .int 1]) (.lt (.sym "i") (.int 5)) exInc1 .nil)) (fun _ => []) :=
  wrong_of_loop _ _ .nil _ rfl (fun _ _ => 0) _ "i" (by decide) (cnf_lt _ _) rfl .here (by decide) (by decide)

/-- `A[e] = ...` -/
def exPut (e : List Expr) : Seq := .one (.block [.tasklet "f" [] "A" e])

/-- **C69 fails** for strided indices: `A[2*i]` with 3 elements allows `i = 1`; the reported bound is `3/2 - 1 = 0`. -/
theorem strided_index_violated : Wrong
    (.one (exLoop (.int 0) (.lt (.sym "i") (.int 2)) exInc1 (exPut [.mul [.int 2, .sym "i"]]))) (fun _ => [some (.int 3)]) :=
  wrong_of_loop _ _ .nil _ rfl (fun _ _ => 0) _ "i" (by decide) (cnf_lt _ _) rfl
    (.next .normal .here (by decide) (by simp only [exPut, Seq.one, Seq.den, Node.den, Rel.upd_upd]; exact ⟨rfl, rfl⟩) (Or.inl rfl)) (by decide)
    (by decide)

/-- **C69 fails** for reversed indices: `A[N - i]` with `N = 1` and 2 elements allows `i = 0`; the reported bound is `i >= N`. -/
theorem reversed_index_violated : Wrong
    (.one (exLoop (.int 0) (.lt (.sym "i") (.int 2)) exInc1 (exPut [.add [.sym "N", .mul [.int (-1), .sym "i"]]]))) (fun _ => [some (.int 2)]) :=
  wrong_of_loop _ _ .nil _ rfl (fun _ _ => 1) _ "i" (by decide) (cnf_lt _ _) rfl .here (by decide) (by decide)

/-- **C69 fails** for several dimensions: `A[i][j]` with `2 x 1` elements allows `i = 1`; the subset is traversed backwards and the
type forwards, so the reported bound is `i <= 0`. -/
theorem dimensions_swapped_violated : Wrong
    (.one (exLoop (.int 0) (.lt (.sym "i") (.int 2)) exInc1 (exPut [.sym "i", .sym "j"]))) (fun _ => [some (.int 2), some (.int 1)]) :=
  wrong_of_loop _ _ .nil _ rfl (fun _ _ => 0) _ "i" (by decide) (cnf_lt _ _) rfl
    (.next .normal .here (by decide) (by simp only [exPut, Seq.one, Seq.den, Node.den, Rel.upd_upd]; exact ⟨rfl, rfl⟩) (Or.inl rfl)) (by decide)
    (by decide)

/-- **C69 fails** for conditional accesses: `for (i = 0; i < 2; i++) if (i < 1) A[i] = ...` with one element: the reported bound is
`i <= 0` in the whole body. -/
theorem conditional_access_violated : Wrong
    (.one (exLoop (.int 0) (.lt (.sym "i") (.int 2)) exInc1
      (.one (.ifElse (.cons (.lt (.sym "i") (.int 1)) (exPut [.sym "i"]) .nil))))) (fun _ => [some (.int 1)]) := by
  refine wrong_of_loop _ _ .nil _ rfl (fun _ _ => 0) _ "i" (by decide) (cnf_lt _ _) rfl
    (Rel.iterHeads.next (σ2 := fun _ _ => 0) .normal .here (by decide) ?_ (Or.inl rfl)) (by decide) (by decide)
  simp only [exPut, Seq.one, Seq.den, Node.den, Brs.den, Rel.upd_upd, Rel.seq_skip]
  show Rel.seq _ _ _ _ _
  refine Or.inl ⟨_, ?_, rfl, rfl⟩
  show (if _ then _ else _)
  rw [if_pos (by decide)]
  refine ⟨rfl, ?_⟩
  funext x j
  show _ = (if _ then (0 : Int) else if _ then 0 else 0)
  split
  · rfl
  · split <;> rfl

/-- **C69 fails** for accesses outside the loop: `A[i]` in a later loop with the same variable bounds this one. -/
theorem other_loop_access_violated : Wrong
    (.cons (exLoop (.int 0) (.lt (.sym "i") (.int 2)) exInc1 .nil) []
      (.one (exLoop (.int 0) (.lt (.sym "i") (.int 1)) exInc1 (exPut [.sym "i"])))) (fun _ => [some (.int 1)]) :=
  wrong_of_loop _ _ _ _ rfl (fun _ _ => 0) _ "i" (by decide) (cnf_lt _ _) rfl (.next .normal .here (by decide) ⟨rfl, rfl⟩ (Or.inl rfl)) (by decide)
    (by decide)

/-- **C69 fails** for steps other than one: `for (i = 0; i <= N; i += 2) A[i] = ...` with one element and `N = 1` accesses `A[0]` only;
the bound `i <= 0` of the index is reported for `N`. -/
theorem step_bound_violated : Wrong
    (.one (exLoop (.int 0) (.le (.sym "i") (.sym "N")) (.add [.sym "i", .int 2]) (exPut [.sym "i"]))) (fun _ => [some (.int 1)]) :=
  wrong_of_loop _ _ .nil _ rfl (fun _ _ => 1) _ "N" (by decide) (cnf_le _ _) rfl .here (by decide) (by decide)

/-- **C69 fails** for initial values changed by the body: `for (i = a; i < 5; i++) { ...; a = 7; ... }`: behind the assignment the
reported bound is still `i >= a`. -/
theorem init_changed_violated : Wrong
    (.one (exLoop (.sym "a") (.lt (.sym "i") (.int 5)) exInc1 (.cons (.block []) [("a", .int 7)] (.one (.block []))))) (fun _ => []) := by
  refine ⟨exEnv, fun _ _ => 0, [0, 0, 1], _, fun x j => if x = "a" ∧ j = [] then 7 else 0, rfl, ⟨_, .here, by decide, _, ⟨rfl, rfl⟩, ?_⟩, ?_⟩
  · show _ = runTrans _ _ _
    funext x j
    simp [runTrans, St.setS, St.set, runBlock, St.ev, Expr.eval, St.val]
  · have e : (rootAssums (fun _ => none) (fun _ => none)) = ((fun _ => none), fun _ => none) := rfl
    simp only [e, propagate_none]
    rw [body_some (f := [[.lt (.sym "i") (.int 5)]]) (ub := ssub (.int 5) (.int 1)) (by decide) (cnf_lt _ _) rfl]
    exact refuted_sound "i" (by decide)

/-- **C69 fails** for a loop variable used by two nested loops: `for (i = 0; i < 1; i++) for (i = 2; i < 3; i++)`: in the inner body the
reported bounds are `i <= 0` and `i >= 2`. -/
theorem nested_variable_violated : Wrong
    (.one (exLoop (.int 0) (.lt (.sym "i") (.int 1)) exInc1 (.one (exLoop (.int 2) (.lt (.sym "i") (.int 3)) exInc1 .nil)))) (fun _ => []) := by
  refine ⟨exEnv, fun _ _ => 0, [0, 0, 0, 0], _, _, rfl, ⟨_, .here, by decide, _, .here, by decide, rfl⟩, ?_⟩
  have e : (rootAssums (fun _ => none) (fun _ => none)) = ((fun _ => none), fun _ => none) := rfl
  simp only [e, propagate_none]
  rw [body_some (init := .int 0) (f := [[.lt (.sym "i") (.int 1)]]) (ub := ssub (.int 1) (.int 1)) (by decide) (cnf_lt _ _) rfl,
    body_some (init := .int 2) (f := [[.lt (.sym "i") (.int 3)]]) (ub := ssub (.int 3) (.int 1)) (by decide) (cnf_lt _ _) rfl]
  exact refuted_sound "i" (by decide)

/-- **C69 fails** for condition symbols written by the body: in `for (i = 0; i < N; i++) { N = 0; }` the symbol `N` is reported constant
in the body and the body changes it. -/
theorem condition_symbol_constant_violated : ∃ (s : Seq) (E : Env) (σ : St) (p : List Nat) (B : Assums × Assums) (τ : St) (R : Rel)
    (c : Ctl) (τ' : St), s.assums (exCtx s fun _ => []) (rootAssums (fun _ => none) (fun _ => none)) p = some B ∧
      s.vis E p σ τ ∧ s.denAt E p = some R ∧ R τ c τ' ∧ (∃ a, B.1 "N" = some a ∧ a.constant = true) ∧ τ' "N" ≠ τ "N" := by
  refine ⟨.one (exLoop (.int 0) (.lt (.sym "i") (.sym "N")) exInc1 (.cons (.block []) [("N", .int 0)] .nil)), exEnv, fun _ _ => 1, [0, 0],
    _, _, _, .normal, runTrans exEnv [("N", .int 0)] (St.setS (fun _ _ => 1) "i" 0), rfl, ⟨_, .here, by decide, rfl⟩, rfl, ?_, ?_, ?_⟩
  · simp only [Seq.den, Node.den, Rel.upd_upd]; exact ⟨rfl, rfl⟩
  · have e : (rootAssums (fun _ => none) (fun _ => none)) = ((fun _ => none), fun _ => none) := rfl
    simp only [e, propagate_none]
    rw [body_some (f := [[.lt (.sym "i") (.sym "N")]]) (ub := ssub (.sym "N") (.int 1)) (by decide) (cnf_lt _ _) rfl]
    exact ⟨_, rfl, rfl⟩
  · intro h; exact absurd (congrFun h []) (by decide)

/-- **C69 fails for every tiled loop**: the assumptions reported for the body of the inner loop produced by `LoopTiling` contradict
themselves (`i_tile >= i_tile + 1`): no state satisfies them.  For every loop whose condition has a normal form and whose update
`i + 1` is recognised as monotonic. -/
theorem tiled_assumptions_contradictory (C : Ctx) (AT : Assums) (io : String) (T : Nat) (i : String) (k : Cond) (s : Seq) (f : CNF)
    (hio : io ≠ i) (hk : cnf k = some f) (hm : isMonotonic C.eng AT (.add [.sym i, .int 1]) i = true) (A : Assums × Assums)
    (B : Assums × Assums) (hA : A.2 = AT) (m : Bool) (hB : (tileInner m io T i k s).assums C A [0] = some B) (ρ : Val) :
    ¬ B.1.Hold ρ ∧ ¬ B.2.Hold ρ := by
  have hcnf : cnf (.and [.lt (.sym i) (.add [.sym io, .int T]), k]) = some ([.lt (.sym i) (.add [.sym io, .int T])] :: f) := by
    simp [cnf, cnfL, hk]
  have hl : literalUpper i (.lt (.sym i) (.add [.sym io, .int T])) = some (ssub (.add [.sym io, .int T]) (.int 1)) := by
    simp [literalUpper, Expr.uses, Expr.usesL, hio]
  obtain ⟨ub, hub, hmem⟩ : ∃ ub, cnfToUpper ([.lt (.sym i) (.add [.sym io, .int T])] :: f) i = some ub ∧ io ∈ ub.atoms := by
    unfold cnfToUpper
    have hc : upperCandidates ([.lt (.sym i) (.add [.sym io, .int T])] :: f) i =
        ssub (.add [.sym io, .int T]) (.int 1) :: upperCandidates f i := by
      simp [upperCandidates, List.filterMap_cons, hl]
    rw [hc]
    refine ⟨_, rfl, ?_⟩
    have : ∀ (r : List Expr) (c : Expr), io ∈ c.atoms → io ∈ (r.foldl (fun a b => Expr.min [a, b]) c).atoms := by
      intro r
      induction r with
      | nil => exact fun c h => h
      | cons b r ih =>
        intro c h
        rw [List.foldl_cons]
        exact ih _ (by simp [Expr.atoms, Expr.atomsL, h])
    exact this _ _ (by simp [ssub, Expr.atoms, Expr.atomsL])
  have hbody := body_some (C := C) (AT := AT) (init := .sym io) (s := s) hm hcnf hub
  have hent : ∃ a, C.body AT i (.sym io) (.and [.lt (.sym i) (.add [.sym io, .int T]), k]) (.add [.sym i, .int 1]) s io = some a ∧
      .add [.sym io, .int 1] ∈ a.lowers := by
    rw [hbody]
    unfold Ctx.bodyUpper
    generalize (_ : Assums) = A0
    have hin : ∀ (b : Expr) (a : Assum), b ∈ (a.addLowerBound b).lowers := by
      intro b a; unfold Assum.addLowerBound; split
      · assumption
      · simp
    have keep : ∀ (xs : List String) (A0 : Assums), (∃ a, A0 io = some a ∧ .add [.sym io, .int 1] ∈ a.lowers) →
        ∃ a, Sym.updAll A0 xs (fun a => { a.addLowerBound (.add [.sym io, .int 1]) with lower := .add [.sym io, .int 1] }) io = some a ∧
          .add [.sym io, .int 1] ∈ a.lowers := by
      intro xs
      induction xs with
      | nil => exact fun A0 h => h
      | cons x r ih =>
        intro A0 h
        refine ih _ ?_
        unfold Sym.upd
        by_cases hx : io = x
        · subst hx; exact ⟨_, if_pos rfl, hin _ _⟩
        · simpa [hx] using h
    have : ∀ (xs : List String) (A0 : Assums), io ∈ xs →
        ∃ a, Sym.updAll A0 xs (fun a => { a.addLowerBound (.add [.sym io, .int 1]) with lower := .add [.sym io, .int 1] }) io = some a ∧
          .add [.sym io, .int 1] ∈ a.lowers := by
      intro xs
      induction xs with
      | nil => intro A0 h; simp at h
      | cons x r ih =>
        intro A0 h
        by_cases hx : io = x
        · subst hx
          exact keep r _ ⟨_, if_pos rfl, hin _ _⟩
        · exact ih _ (by simpa [hx] using h)
    exact this _ _ hmem
  obtain ⟨a, ha, hlow⟩ := hent
  have bad : ∀ O : Assums, ¬ (propagate (C.body AT i (.sym io) (.and [.lt (.sym i) (.add [.sym io, .int T]), k])
      (.add [.sym i, .int 1]) s) O).Hold ρ := by
    intro O h
    have : ∃ a', propagate (C.body AT i (.sym io) (.and [.lt (.sym i) (.add [.sym io, .int T]), k]) (.add [.sym i, .int 1]) s) O io = some a' ∧
        .add [.sym io, .int 1] ∈ a'.lowers := by
      unfold propagate
      rw [ha]
      cases O io with
      | none => exact ⟨a, rfl, hlow⟩
      | some o =>
        refine ⟨_, rfl, ?_⟩
        simp only [mergeAssum]
        have h1 : ∀ (l : List Expr) (c : Assum), Expr.add [.sym io, .int 1] ∈ c.lowers →
            Expr.add [.sym io, .int 1] ∈ (l.foldl Assum.addUpperBound c).lowers := by
          intro l; induction l with
          | nil => exact fun c h => h
          | cons b r ih => intro c h; rw [List.foldl_cons]; refine ih _ ?_; unfold Assum.addUpperBound; split <;> exact h
        have h2 : ∀ (l : List Expr) (c : Assum), Expr.add [.sym io, .int 1] ∈ c.lowers →
            Expr.add [.sym io, .int 1] ∈ (l.foldl Assum.addLowerBound c).lowers := by
          intro l; induction l with
          | nil => exact fun c h => h
          | cons b r ih => intro c h; rw [List.foldl_cons]; refine ih _ ?_; unfold Assum.addLowerBound; split <;> simp [h]
        exact h2 _ _ (h1 _ _ hlow)
    obtain ⟨a', ha', hl'⟩ := this
    have := (h io a' ha').2.1 _ hl'
    rw [Docc.Sym.eval_add2 (show (Expr.sym io).eval ρ = .fin (ρ.sym io) from rfl) (show (Expr.int 1).eval ρ = .fin 1 from rfl)] at this
    have : ρ.sym io + 1 ≤ ρ.sym io := this
    omega
  subst hA
  have hB' : B = (propagate (C.body A.2 i (.sym io) (.and [.lt (.sym i) (.add [.sym io, .int T]), k]) (.add [.sym i, .int 1]) s) A.1,
      propagate (C.body A.2 i (.sym io) (.and [.lt (.sym i) (.add [.sym io, .int T]), k]) (.add [.sym i, .int 1]) s) A.2) := by
    simp only [tileInner, Node.assums] at hB
    cases s <;> simpa [Seq.assums] using hB.symm
  subst hB'
  exact ⟨bad _, bad _⟩

/-- the hypotheses are met by tiling `for (i = 0; i < N; i++)` with tile size 32 -/
example (s : Seq) (ρ : Val) : ∃ B, (tileInner false "i_tile0" 32 "i" (.lt (.sym "i") (.sym "N")) s).assums (exCtx s fun _ => [])
    ((fun _ => none), fun _ => none) [0] = some B ∧ ¬ B.1.Hold ρ ∧ ¬ B.2.Hold ρ := by
  obtain ⟨B, hB⟩ : ∃ B, (tileInner false "i_tile0" 32 "i" (.lt (.sym "i") (.sym "N")) s).assums (exCtx s fun _ => [])
      ((fun _ => none), fun _ => none) [0] = some B := by
    simp only [tileInner, Node.assums]; cases s <;> exact ⟨_, rfl⟩
  exact ⟨B, hB, tiled_assumptions_contradictory (exCtx s fun _ => []) (fun _ => none) "i_tile0" 32 "i" _ s _ (by decide) (cnf_lt _ _)
    (show isMonotonic exAEng (fun _ => none) (.add [.sym "i", .int 1]) "i" = true by decide) _ B rfl false hB ρ⟩

/-! ### the hypotheses of the soundness theorems are met -/

/-- `for (i = 0; i < N; i++) A[i] = ...` with `N` elements -/
def exFillN : Seq := .one (exLoop (.int 0) (.lt (.sym "i") (.sym "N")) exInc1 (exPut [.sym "i"]))
/-- the header of the loop -/
def exFillHdr : LoopHdr := ⟨"i", .int 0, .lt (.sym "i") (.sym "N"), exInc1, exPut [.sym "i"]⟩
/-- the context -/
def exFillCtx : Ctx := exCtx exFillN fun _ => [some (.sym "N")]

theorem exFill_loops (p : List Nat) (L : LoopHdr) (h : exFillN.loopAt p = some L) : p = [0] ∧ L = exFillHdr := by
  match p with
  | [] => cases h
  | [0] => exact ⟨rfl, (Option.some.inj h).symm⟩
  | 0 :: 0 :: [] => cases h
  | 0 :: 0 :: 0 :: q => cases q <;> cases h
  | 0 :: 0 :: (k + 1) :: q => cases h
  | 0 :: (k + 1) :: q => cases h
  | (k + 1) :: q => cases h

theorem exFill_ok (E : Env) (AT : Assums) : LoopOk E exFillCtx AT exFillHdr where
  initDef := fun σ => ⟨0, rfl⟩
  ownInit := by decide
  frozen := by decide
  grows := fun _ σ _ _ _ => by
    show σ "i" [] ≤ σ.ev E exInc1
    rw [St.ev_of_eval (n := σ "i" [] + 1) (by
      exact Docc.Sym.eval_add2 (show (Expr.sym "i").eval (σ.val E) = .fin (σ "i" []) from rfl) rfl)]
    omega
  plain := by
    intro f hf cl hcl l hl _
    rw [show exFillHdr.cond = .lt (.sym "i") (.sym "N") from rfl, cnf_lt] at hf
    simp only [Option.some.injEq] at hf; subst hf
    simp only [List.mem_singleton] at hcl; subst hcl
    simp only [List.mem_singleton] at hl; subst hl
    exact ⟨rfl, Or.inl ⟨"N", by decide, rfl⟩⟩
  unit := by
    refine ⟨by decide, ?_⟩
    intro a ha _
    simp [exFillCtx, exCtx, exFillN, exLoop, exPut, Seq.one, Seq.accs, Node.accs, Stmt.accs] at ha
    subst ha
    refine ⟨.sym "i", rfl, fun ρ => ⟨0, fun k => ?_⟩, exAEng_sound, ?_, ?_⟩
    · simp [Expr.eval, Val.set, exFillHdr]
    · intro D hD
      have : D = [([1], .int 1)] := (Option.some.inj hD).symm
      subst this; simp
    · intro D A hD hA
      have : D = [([1], .int 1)] := (Option.some.inj hD).symm
      subst this
      have : A = _ := (Option.some.inj hA).symm
      subst this
      exact ⟨rfl, rfl, fun ρ => by simp [pickSymbol, exFillHdr, Expr.eval, Expr.evalL, V.add]⟩
  fixedIdx := by decide

/-- the theorem applies: in the body `0 <= i <= N - 1` and `N >= 1` -/
example (E : Env) (σ τ : St) (B : Assums × Assums)
    (hB : exFillN.assums exFillCtx (rootAssums (fun _ => none) (fun _ => none)) [0, 0, 0] = some B)
    (hv : exFillN.vis E [0, 0, 0] σ τ) : B.1.Hold (τ.val E) := by
  refine (assumptions_sound_partial E exFillCtx _ _ exFillN σ (fun p τ _ => ⟨fun x a h => by simp at h, fun x a h => by simp at h⟩)
    (fun p L B h _ => ?_) (fun p L τ h hv => ?_) [0, 0, 0] B τ hB hv).1
  · obtain ⟨rfl, rfl⟩ := exFill_loops p L h
    exact exFill_ok E _
  · obtain ⟨rfl, rfl⟩ := exFill_loops p L h
    simp only [exFillN, Seq.one, List.cons_append, List.nil_append, Seq.vis, exLoop, Node.vis, exPut] at hv
    obtain ⟨σ1, h1, h2, rfl⟩ := hv
    have h0 : 0 ≤ τ "i" [] := by
      refine Rel.iterHeads_inv (P := fun σ => 0 ≤ σ "i" []) (fun σ h => ?_) (fun σ c σ' h hr => ?_) h1 (by
        rw [St.setS_same]; exact Int.le_of_eq rfl)
      · have h : 0 ≤ σ "i" [] := h
        show 0 ≤ (σ.setS "i" (σ.ev E exInc1)) "i" []
        rw [St.setS_same, St.ev_of_eval (n := σ "i" [] + 1) (by
          exact Docc.Sym.eval_add2 (show (Expr.sym "i").eval (σ.val E) = .fin (σ "i" []) from rfl) rfl)]
        omega
      · have := Seq.frame_inv E "i" (σ "i") _ (by decide) σ c σ' rfl hr
        show 0 ≤ σ' "i" []
        rw [show σ' "i" = σ "i" from this]; exact h
    have hlt : τ "i" [] < τ "N" [] := of_decide_eq_true h2
    intro a ha _ q hq
    simp [exFillCtx, exCtx, exFillN, exLoop, exPut, Seq.one, Seq.accs, Node.accs, Stmt.accs] at ha
    subst ha
    have hq : q = (.sym "i", some (.sym "N")) := by simpa [exFillCtx, exCtx] using hq
    subst hq
    refine ⟨⟨τ "i" [], rfl⟩, h0, fun n hn => ?_⟩
    have : n = .sym "N" := by simpa [Ctx.extent] using hn.symm
    subst this
    exact ⟨⟨τ "N" [], rfl⟩, hlt⟩

/-- the reported assumptions of the body are the expected ones, and the body is entered -/
example : ∃ B, exFillN.assums exFillCtx (rootAssums (fun _ => none) (fun _ => none)) [0, 0, 0] = some B ∧
    (∃ a, B.1 "N" = some a ∧ a.lowers = [.add [.int 0, .int 1]] ∧ a.constant = true) ∧
    (∃ a, B.1 "i" = some a ∧ a.lower = .int 0 ∧ a.tightUpper = some (ssub (.sym "N") (.int 1))) ∧
    ∃ τ, exFillN.vis exEnv [0, 0, 0] (fun _ _ => 3) τ := by
  refine ⟨_, rfl, ?_, ?_, _, ⟨_, .here, by decide, rfl⟩⟩ <;>
  · have e : (rootAssums (fun _ => none) (fun _ => none)) = ((fun _ => none), fun _ => none) := rfl
    simp only [e, propagate_none]
    rw [body_some (f := [[.lt (.sym "i") (.sym "N")]]) (ub := ssub (.sym "N") (.int 1)) (by decide) (cnf_lt _ _) rfl]
    exact ⟨_, rfl, rfl, rfl⟩

/-- hypotheses of the constants theorem -/
example : ∀ p L, exFillN.loopAt p = some L → ∀ x ∈ L.i :: L.cond.atoms, ¬ writes L.body.users x := by
  intro p L h
  obtain ⟨rfl, rfl⟩ := exFill_loops p L h
  decide

/-- parameters: `N` and the pointer, not the written scalar -/
example : parameters [("N", .scalar), ("A", .pointer), ("i", .scalar)] exFillN = ["N", "A"] := by decide

/-- hypotheses of `grows_of_affine` -/
example (E : Env) (σ : St) (h : σ.ev E (.int 0) ≤ σ "i" []) : σ "i" [] ≤ σ.ev E exInc1 := by
  refine grows_of_affine E exFillCtx (fun _ => none) exFillHdr exAEng_sound exAEng_norm (by decide) ?_ ?_ (by decide)
    (fun σ => Int.le_of_eq rfl) (fun σ => ⟨σ "i" [] + 1, ?_⟩) σ h
  · intro D hD
    have : D = [([1], .int 1), ([0], .int 1)] := (Option.some.inj hD).symm
    subst this; simp
  · intro D A hD hA
    have : D = [([1], .int 1), ([0], .int 1)] := (Option.some.inj hD).symm
    subst this
    have : A = _ := (Option.some.inj hA).symm
    subst this
    exact ⟨⟨1, by decide⟩, ⟨1, by decide⟩⟩
  · exact Docc.Sym.eval_add2 (show (Expr.sym "i").eval (σ.val E) = .fin (σ "i" []) from rfl) rfl

end Docc.IR
