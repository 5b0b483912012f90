import Verif.Struct.Nested
import Verif.IR.LoopNormProps
import Verif.IR.UsersProps

namespace Docc.Struct
open Docc.Sym Docc.IR

/-! ### the trees Boost computes

Used for the examples and counterexamples only; the theorems of `Nested.lean` hold for all trees. -/

/-- the states that are reachable from `l` without entering `av` -/
def reach (succ : Nat → List Nat) (n av : Nat) (l : List Nat) : List Nat :=
  rounds (fun l => l ++ ((l.flatMap succ).filter fun k => k != av && !l.contains k).eraseDups) n l

/-- successors -/
def succs (M : Mach) (k : Nat) : List Nat := (M.at k).out.map (·.dst)

/-- predecessors -/
def preds (M : Mach) (k : Nat) : List Nat := (M.inE k).map (·.1.1)

/-- The immediate dominator of `b`, by definition: the closest of the states without which `b` is not reachable from `src`
(sdfg/src/graph/graph.cpp:89-122, `boost::lengauer_tarjan_dominator_tree`). -/
def idoms (n : Nat) (succ : Nat → List Nat) (src : List Nat) (b : Nat) : Option Nat :=
  let dom := fun a b => !(reach succ n a (src.filter (· != a))).contains b
  if !(reach succ n n src).contains b then none else
  let ds := (List.range n).filter fun a => a != b && dom a b
  ds.find? fun a => ds.all fun d => dom d a

/-- `boost::depth_first_search`, edges in order; collects the edges to states on the current path
(sdfg/src/graph/graph.cpp:208-217). -/
def dfsNode (M : Mach) : Nat → List Nat → List Nat × List EdgeId → Nat → List Nat × List EdgeId
  | 0, _, acc, _ => acc
  | f + 1, grey, acc, k =>
    let r := (M.outE k).foldl (fun acc e =>
      if (k :: grey).contains e.2.dst then (acc.1, acc.2 ++ [e.1])
      else if acc.1.contains e.2.dst then acc
      else dfsNode M f (k :: grey) acc e.2.dst) acc
    (k :: r.1, r.2)

/-- as a table -/
def table (n : Nat) (f : Nat → Option Nat) : Nat → Option Nat :=
  let l := (List.range n).map f
  fun k => l.getD k none

/-- Back edges, dominator tree and post-dominator tree (sdfg/src/graph/graph.cpp:89-190 and 208-217).  With several sinks the
post-dominators are those of the graph with an additional common sink, which itself is no state. -/
def boost (M : Mach) : Trees :=
  let n := M.states.length
  { back := (dfsNode M (n + 1) [] ([], []) M.start).2
    dom := table n (idoms n (succs M) [M.start])
    pdom := table n (idoms n (preds M) ((List.range n).filter fun k => (M.at k).out.isEmpty)) }

/-! ### running a machine -/

/-- run a machine for at most `fuel` steps -/
def Mach.exec (M : Mach) (E : Env) : Nat → Nat → St → Option (String × Bool × St)
  | 0, _, _ => none
  | f + 1, k, σ => match (M.at k).out with
    | [] => match (M.at k).ret with
      | none => none
      | some (d, q) => some (d, q, runBlock E (M.at k).stmts σ)
    | e :: es => match (e :: es).find? fun e => (runBlock E (M.at k).stmts σ).cond E e.cond with
      | none => none
      | some e => Mach.exec M E f e.dst (runTrans E e.asg (runBlock E (M.at k).stmts σ))

theorem Mach.exec_sound (M : Mach) (E : Env) {d : String} {q : Bool} {τ : St} : ∀ f k σ, M.exec E f k σ = some (d, q, τ) →
    ∃ n, M.EndsIn E d q τ n k σ
  | 0, _, _, h => by simp [Mach.exec] at h
  | f + 1, k, σ, h => by
    rw [Mach.exec] at h
    split at h
    · rename_i ho
      split at h
      · cases h
      · rename_i hr
        simp only [Option.some.injEq, Prod.mk.injEq] at h
        obtain ⟨rfl, rfl, rfl⟩ := h
        exact ⟨0, .ret ho hr rfl⟩
    · rename_i e0 es ho
      split at h
      · cases h
      · rename_i e he
        obtain ⟨n, hn⟩ := Mach.exec_sound M E f _ _ h
        exact ⟨n + 1, .step ⟨e, ho ▸ List.mem_of_find?_eq_some he, by simpa using List.find?_some he, rfl, rfl⟩ hn⟩

/-- what a run returns and the value of one location afterwards -/
theorem Mach.exec_obs {M : Mach} {E : Env} {σ : St} (f : Nat) {d : String} {q : Bool} {x : String} {j : List Int} {v : Int}
    (h : (M.exec E f M.start σ).map (fun r => (r.1, r.2.1, r.2.2 x j)) = some (d, q, v)) : ∃ τ, M.Returns E σ d q τ ∧ τ x j = v := by
  cases hr : M.exec E f M.start σ with
  | none => rw [hr] at h; cases h
  | some r =>
    obtain ⟨d', q', τ⟩ := r
    rw [hr] at h
    simp only [Option.map_some, Option.some.injEq, Prod.mk.injEq] at h
    obtain ⟨rfl, rfl, hv⟩ := h
    exact ⟨τ, M.exec_sound E f _ _ hr, hv⟩

/-! ### building machines -/

/-- a state that goes on at `a` if `c` holds, otherwise at `b` -/
def sw (c : Cond) (a b : Nat × Trans) : MState := { out := [⟨a.1, c, a.2⟩, ⟨b.1, .not c, b.2⟩] }
/-- a state that goes on at `a` -/
def goto (a : Nat × Trans) : MState := { out := [⟨a.1, .tt, a.2⟩] }
/-- a return state -/
def ret (d : String) : MState := { ret := some (d, false) }
/-- an assignment -/
def put (x : String) (v : Int) : Trans := [(x, .int v)]
/-- `x = v` -/
def is (x : String) (v : Int) : Cond := .eq (.sym x) (.int v)

/-- the states of a machine have no edge, one edge, or two edges with opposite conditions -/
def MState.simple (s : MState) : Prop :=
  s.out = [] ∨ (∃ e, s.out = [e]) ∨ ∃ e f, s.out = [e, f] ∧ f.cond = .not e.cond

theorem sw_simple (c : Cond) (a b : Nat × Trans) : (sw c a b).simple := Or.inr (Or.inr ⟨_, _, rfl, rfl⟩)
theorem goto_simple (a : Nat × Trans) : (goto a).simple := Or.inr (Or.inl ⟨_, rfl⟩)
theorem ret_simple (d : String) : (ret d).simple := Or.inl rfl

theorem cond_not (E : Env) (σ : St) (c : Cond) : σ.cond E (.not c) = !σ.cond E c := by
  first | rfl | simp [St.cond, Cond.eval]

theorem deterministic_of_simple {M : Mach} (E : Env) (h : ∀ s ∈ M.states, s.simple) : M.Deterministic E := by
  have hk : ∀ k, (M.at k).simple := by
    intro k
    unfold Mach.at
    rw [List.getD_eq_getElem?_getD]
    cases hg : M.states[k]? with
    | none => exact Or.inl rfl
    | some s => exact h s (List.mem_of_getElem? hg)
  constructor
  · intro k σ hl
    rcases hk k with h | ⟨e, h⟩ | ⟨e, f, h, hc⟩
    · rw [h] at hl; simp at hl
    · rw [h] at hl; simp at hl
    · rw [h]
      cases hv : σ.cond E e.cond
      · exact ⟨f, by simp, by rw [hc, cond_not, hv]; rfl⟩
      · exact ⟨e, by simp, hv⟩
  · intro k σ e he f hf h1 h2
    rcases hk k with h | ⟨e', h⟩ | ⟨e', f', h, hc⟩
    · rw [h] at he; simp at he
    · rw [h] at he hf; simp at he hf; rw [he, hf]
    · rw [h] at he hf
      simp only [List.mem_cons, List.not_mem_nil, or_false] at he hf
      rcases he with rfl | rfl <;> rcases hf with rfl | rfl
      · rfl
      · rw [hc, cond_not, h1] at h2; cases h2
      · rw [hc, cond_not, h2] at h1; cases h1
      · rfl

/-! ### C70 fails -/

/-- structuring changes the behaviour of the machine: with the true trees a program is produced, and there is a memory in which
the machine returns and the program does not return the same data with the same memory -/
def Breaks (M : Mach) : Prop :=
  ∃ (E : Env) (fuel : Nat) (s : Seq) (ev : List Ev) (σ : St) (d : String) (q : Bool) (τ : St), M.Deterministic E ∧
    structure' M (boost M) fuel = some (s, ev) ∧ M.Returns E σ d q τ ∧ ¬ s.den E σ (.ret d q) τ

theorem breaks_of {M : Mach} {s : Seq} {ev : List Ev} (h1 : ∀ t ∈ M.states, t.simple) (fuel : Nat)
    (h2 : structure' M (boost M) fuel = some (s, ev)) {σ : St} {d d' x : String} {q q' : Bool} {v v' : Int}
    (h3 : (M.exec exEnv 40 M.start σ).map (fun r => (r.1, r.2.1, r.2.2 x [])) = some (d, q, v))
    (h4 : (Seq.run exEnv 60 s σ).map (fun p => (p.1, p.2 x [])) = some (Ctl.ret d' q', v')) (h5 : (d, v) ≠ (d', v')) : Breaks M := by
  obtain ⟨τ, hr, hv⟩ := Mach.exec_obs 40 h3
  refine ⟨exEnv, fuel, s, ev, σ, d, q, τ, deterministic_of_simple _ h1, h2, hr, fun h => h5 ?_⟩
  have := Seq.run_obs_all 60 h4 h
  obtain ⟨hc, hv'⟩ := this
  simp only [Ctl.ret.injEq] at hc
  rw [hc.1, ← hv, hv']

/-- **C70 fails**: a return inside of an endless loop becomes a break.
`for (;;) { if (x == 1) break; if (x == 0) return r; } return x;` returns `x`. -/
def exReturn : Mach := ⟨[goto (1, []), sw (is "x" 1) (4, []) (2, []), sw (is "x" 0) (5, []) (3, []), goto (0, []),
  goto (6, []), ret "r", ret "x"], 0⟩

theorem structure_return_violated : Breaks exReturn :=
  breaks_of (by simp [exReturn, sw_simple, goto_simple, ret_simple]) 40 (s := _) (ev := _) rfl (σ := fun _ _ => 0) (x := "x") (d := "r")
    (d' := "x") (q := false) (q' := false) (v := 0) (v' := 0) (by decide) (by decide) (by decide)

/-- **C70 fails**: a jump to the header of an outer loop becomes a continue of the inner loop.
`while (x != 1) { while (x == 0) { if (g == 0) { x := 1; continue outer; } } y := 7; }`: the result sets `y`. -/
def exOuterCont : Mach := ⟨[sw (is "x" 1) (4, []) (1, []), sw (is "x" 0) (2, []) (3, put "y" 7), sw (is "g" 0) (0, put "x" 1) (1, []), goto (0, []), ret "x"], 0⟩

theorem structure_outer_continue_violated : Breaks exOuterCont :=
  breaks_of (by simp [exOuterCont, sw_simple, goto_simple, ret_simple]) 40 (s := _) (ev := _) rfl (σ := fun _ _ => 0) (x := "y") (d := "x")
    (d' := "x") (q := false) (q' := false) (v := 0) (v' := 7) (by decide) (by decide) (by decide)

/-- **C70 fails**: an inner loop whose only exit leaves the outer loop as well only ends the inner loop.
`while (x != 1) { if (z == 0) { while (z == 1) { } x := 1; break; } }` followed, on the normal exit of the outer loop, by `y := 7`: the
result sets `y`. -/
def exInnerExit : Mach := ⟨[sw (is "x" 1) (5, put "y" 7) (1, []), sw (is "z" 0) (2, []) (4, []), sw (is "z" 1) (3, []) (5, put "x" 1), goto (2, []), goto (0, []), ret "x"], 0⟩

theorem structure_inner_exit_violated : Breaks exInnerExit :=
  breaks_of (by simp [exInnerExit, sw_simple, goto_simple, ret_simple]) 40 (s := _) (ev := _) rfl (σ := fun _ _ => 0) (x := "y") (d := "x")
    (d' := "x") (q := false) (q' := false) (v := 0) (v' := 7) (by decide) (by decide) (by decide)

/-- **C70 fails**: a jump out of two loops becomes a break of the inner loop.
`while (x != 1) { while (x == 0) { if (g == 0) { x := 1; break outer; } } y := 7; }`: the result sets `y`. -/
def exOuterBreak : Mach := ⟨[sw (is "x" 1) (4, []) (1, []), sw (is "x" 0) (2, []) (3, []), sw (is "g" 0) (4, put "x" 1) (1, []), goto (0, put "y" 7), ret "x"], 0⟩

theorem structure_outer_break_violated : Breaks exOuterBreak :=
  breaks_of (by simp [exOuterBreak, sw_simple, goto_simple, ret_simple]) 40 (s := _) (ev := _) rfl (σ := fun _ _ => 0) (x := "y") (d := "x")
    (d' := "x") (q := false) (q' := false) (v := 0) (v' := 7) (by decide) (by decide) (by decide)

/-- **C70 fails**: irreducible control flow inside of a loop is not rejected: the jump into the middle of the inner loop becomes a
continue of the outer loop, and `y := 7` is skipped. -/
def exIrreducible : Mach := ⟨[sw (is "x" 1) (4, []) (1, []), sw (is "z" 1) (2, []) (3, []), goto (3, put "y" 7), sw (is "x" 0) (2, put "x" 1) (0, []), ret "x"], 0⟩

theorem structure_irreducible_violated : Breaks exIrreducible :=
  breaks_of (by simp [exIrreducible, sw_simple, goto_simple, ret_simple]) 40 (s := _) (ev := _) rfl (σ := fun _ _ => 0) (x := "y") (d := "x")
    (d' := "x") (q := false) (q' := false) (v := 7) (v' := 0) (by decide) (by decide) (by decide)

/-! ### a checker for well-nested loops, and an example -/

/-- the targets of back edges -/
def headers (M : Mach) (T : Trees) : List Nat := (M.edges.map (·.2.dst)).filter fun h => isHeader M T h

/-- decides `WellNested` -/
def wellNested (M : Mach) (T : Trees) : Bool :=
  (headers M T).all fun h =>
    let b := loopBody M T h
    b.contains h &&
    M.edges.all (fun e => b.contains e.1.1 || !b.contains e.2.dst || e.2.dst == h) &&
    (!b.contains M.start || M.start == h) &&
    M.edges.all (fun e => !b.contains e.1.1 || !T.back.contains e.1 || b.contains e.2.dst) &&
    (match loopAt M T h with
      | none => true
      | some I => M.edges.all fun e => !b.contains e.1.1 || T.back.contains e.1 || b.contains e.2.dst || e.2.dst == I.exit) &&
    (headers M T).all fun t =>
      let b' := loopBody M T t
      (!b.contains t || t == h || b'.all b.contains) &&
      (b'.contains h || b.contains t || b.all fun k => !b'.contains k) &&
      (match loopAt M T t with
        | none => true
        | some I => !b.contains t || t == h || b.contains I.exit)

theorem mem_headers {M : Mach} {T : Trees} {h : Nat} (hh : isHeader M T h = true) : h ∈ headers M T := by
  refine List.mem_filter.mpr ⟨?_, hh⟩
  unfold isHeader at hh
  obtain ⟨e, he, _⟩ := List.any_eq_true.mp hh
  obtain ⟨h1, h2⟩ := List.mem_filter.mp he
  exact List.mem_map.mpr ⟨e, h1, by simpa using h2⟩

theorem wellNested_sound {M : Mach} {T : Trees} (h : wellNested M T = true) : WellNested M T := by
  unfold wellNested at h
  rw [List.all_eq_true] at h
  have H : ∀ x, isHeader M T x = true → _ := fun x hx => h x (mem_headers hx)
  simp only [Bool.and_eq_true] at H
  constructor
  · intro x hx
    simpa using (H x hx).1.1.1.1.1
  · intro x hx k hk e he hd
    have := List.all_eq_true.mp (H x hx).1.1.1.1.2 e (mem_edges he)
    rw [outE_src he] at this
    simpa [hk, hd] using this
  · intro x hx hs
    simpa [hs] using (H x hx).1.1.1.2
  · intro x t hx ht htb hne k hk
    have := List.all_eq_true.mp (H x hx).2 t (mem_headers ht)
    simp only [Bool.and_eq_true] at this
    have := this.1.1
    simp [htb, hne] at this
    exact this k hk
  · intro x t k hx ht hk hk'
    have := List.all_eq_true.mp (H x hx).2 t (mem_headers ht)
    simp only [Bool.and_eq_true] at this
    have := this.1.2
    simp only [Bool.or_eq_true, List.contains_iff_mem, List.all_eq_true] at this
    rcases this with (h | h) | h
    · exact Or.inl h
    · exact Or.inr h
    · exact absurd hk' (by simpa using h k hk)
  · intro x I hx hI k hk e he hb hd
    have := (H x hx).1.2
    rw [hI] at this
    have := List.all_eq_true.mp this e (mem_edges he)
    rw [outE_src he] at this
    simpa [hk, hd, hb] using this
  · intro x hx k hk e he hb
    have := List.all_eq_true.mp (H x hx).1.1.2 e (mem_edges he)
    rw [outE_src he] at this
    simpa [hk, hb] using this
  · intro x t I hx ht hI htb hne
    have := List.all_eq_true.mp (H x hx).2 t (mem_headers ht)
    simp only [Bool.and_eq_true] at this
    have := this.2
    rw [hI] at this
    simpa [htb, hne] using this

/-- nested loops with a break and a continue:
`while (x != 1) { if (w == 1) continue; while (y != 2) { if (z == 0) break; y := 2 } x := 1 } return x` -/
def exNested : Mach := ⟨[sw (is "x" 1) (6, []) (1, []), sw (is "w" 1) (0, []) (2, []), sw (is "y" 2) (5, []) (3, []),
  sw (is "z" 0) (5, []) (4, []), goto (2, put "y" 2), goto (0, put "x" 1), ret "x"], 0⟩

/-- the hypotheses of `structure_correct_partial` are met -/
example : ∃ fuel s ev, exNested.Deterministic exEnv ∧ WellNested exNested (boost exNested) ∧
    structure' exNested (boost exNested) fuel = some (s, ev) ∧ (boost exNested).back.length = 3 ∧
    ∃ τ, exNested.Returns exEnv (fun _ _ => 0) "x" false τ ∧ τ "x" [] = 1 :=
  ⟨40, _, _, deterministic_of_simple _ (by simp [exNested, sw_simple, goto_simple, ret_simple]), wellNested_sound (by decide), rfl, by decide,
    Mach.exec_obs 40 (by decide)⟩

/-- the hypotheses of `structure_acyclic` are met: a diamond with two returns -/
def exDiamond : Mach := ⟨[sw (is "x" 1) (1, []) (2, put "y" 3), goto (3, put "y" 2), sw (is "z" 0) (3, []) (4, []), ret "x", ret "y"], 0⟩

example : ∃ fuel s ev, exDiamond.Deterministic exEnv ∧ (boost exDiamond).back = [] ∧
    structure' exDiamond (boost exDiamond) fuel = some (s, ev) ∧
    ∃ τ, exDiamond.Returns exEnv (fun _ _ => 0) "x" false τ ∧ τ "y" [] = 3 :=
  ⟨40, _, _, deterministic_of_simple _ (by simp [exDiamond, sw_simple, goto_simple, ret_simple]), by decide, rfl,
    Mach.exec_obs 40 (by decide)⟩

end Docc.Struct
