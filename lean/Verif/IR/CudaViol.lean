import Verif.IR.CudaProps
import Verif.IR.For2MapViol

/-
CUDAParallelizeNestedMap: the nest it builds, and the nests it should not build.
-/
namespace Docc.IR
open Docc.Sym Docc.Expand

/-- **C87** (partial), for `CUDAParallelizeNestedMap`: if it accepts the innermost map `m` of a perfect nest whose other maps `m0 :: r` are on CUDA, then launching the nest with
the new schedule leaves the same memory as the sequential nest, for every order of the threads and every block size.  That the condition of `m` does not
use the loop variables around it is checked by the transformation.  Missing: see `cuda_launch_partial`. -/
theorem cuda_parallelize_nested_partial {K : Cuda} {E : Env} {X : String → Prop} {σ : St} {s : Seq} {m0 m : CMap} {r : List CMap} {ns : List Nat}
    {res : List Int → St} {R W : List Int → Loc → Prop} {b : Int} (hb : 0 < b) (hK : ∀ l, (K.order l).Perm l)
    (hcu : ∀ q ∈ m0 :: r, (K.dim q.i).isSome ∧ K.sync q.i = false ∧ ∀ d, 0 < K.block d q.i)
    (hap : K.canNest (((m0 :: r).reverse).map fun q => (true, q)) m = true)
    (hs0 : s.cmaps (K.nested ((m0 :: r).getLast (by simp)).i m.i b) = [])
    (hla : (nestNode s m0 (r ++ [m])).launchable (K.nested ((m0 :: r).getLast (by simp)).i m.i b) [] = true)
    (hnd : ((m0 :: (r ++ [m])).map (·.i)).Nodup) (hI : NestIters E σ (m0 :: (r ++ [m])) ns)
    (hH : ∀ q ∈ m0 :: (r ++ [m]), ∀ x ∈ q.cond.atoms, x ≠ q.i →
      (q = m ∧ x ∈ (m0 :: r).map (·.i)) ∨ (¬ X x ∧ ∀ v ∈ instances ns, ¬ W v (x, [])))
    (hdef : ∀ q ∈ m0 :: (r ++ [m]), ∀ (v : Int), ∀ e ∈ q.cond.ops, (σ.setS q.i v).defd E e)
    (hself : ∀ q ∈ m0 :: (r ++ [m]), ∀ b, canonicalBound (K.mono q.i) q.i q.cond = some b → q.i ∉ b.atoms)
    (I : TupIndep (s.den E) ((m0 :: (r ++ [m])).map (·.i)) X σ (instances ns) res R W) :
    ∃ σ', (nestNode s m0 (r ++ [m])).den E σ .normal σ' ∧
      ∀ ts : List Thread, ts.Perm ((K.nested ((m0 :: r).getLast (by simp)).i m.i b).threads E σ (nestNode s m0 (r ++ [m]))) →
      (∃ τ', Launch (K.nested ((m0 :: r).getLast (by simp)).i m.i b) E X (nestNode s m0 (r ++ [m])) ts σ τ') ∧
      ∀ τ', Launch (K.nested ((m0 :: r).getLast (by simp)).i m.i b) E X (nestNode s m0 (r ++ [m])) ts σ τ' → OffX X τ' σ' := by
  have hne : ∀ q ∈ m0 :: r, q.i ≠ m.i := by
    intro q hq e
    rw [← List.cons_append, List.map_append] at hnd
    exact (List.nodup_append.1 hnd).2.2 q.i (List.mem_map.2 ⟨q, hq, rfl⟩) m.i (by simp) e
  generalize hp : (m0 :: r).getLast (by simp) = p at *
  have hpm : p ∈ m0 :: r := hp ▸ List.getLast_mem _
  simp only [Cuda.canNest, Bool.and_eq_true] at hap
  obtain ⟨⟨⟨_, hanc⟩, _⟩, _⟩ := hap
  have hrev : ∃ l, (m0 :: r).reverse = p :: l := by
    have : (m0 :: r) ≠ [] := by simp
    have h := List.dropLast_append_getLast this
    rw [hp] at h
    exact ⟨((m0 :: r).dropLast).reverse, by rw [← h]; simp⟩
  obtain ⟨l, hl⟩ := hrev
  rw [hl] at hanc
  simp only [List.map_cons, Bool.and_eq_true] at hanc
  obtain ⟨hnx, hall⟩ := hanc
  obtain ⟨d, hd⟩ := Option.isSome_iff_exists.1 (hcu p hpm).1
  rw [hd] at hnx
  simp only at hnx
  have hvars : ∀ x ∈ (m0 :: r).map (·.i), x ∉ m.cond.atoms := by
    intro x hx
    obtain ⟨q, hq, rfl⟩ := List.mem_map.1 hx
    have hq' : q ∈ p :: l := by rw [← hl]; exact List.mem_reverse.2 hq
    have := List.all_eq_true.1 hall (true, q) (by rw [← List.map_cons (f := fun q => (true, q))]; exact List.mem_map.2 ⟨q, hq', rfl⟩)
    simpa using this
  refine cuda_launch_partial (K := K.nested p.i m.i b) hK ?_ hs0 hla hnd hI ?_ hdef hself I
  · intro q hq
    rw [← List.cons_append] at hq
    rcases List.mem_append.1 hq with hq | hq
    · have h1 := hne q hq
      obtain ⟨a, a2, a3⟩ := hcu q hq
      refine ⟨by simpa [Cuda.nested, h1] using a, by simpa [Cuda.nested, h1] using a2, fun d => ?_⟩
      have := a3 d
      simpa [Cuda.nested, Cuda.block, h1] using this
    · rw [List.mem_singleton] at hq
      subst hq
      refine ⟨by simpa [Cuda.nested, hd] using hnx, by simp [Cuda.nested], fun d => ?_⟩
      simpa [Cuda.nested, Cuda.block] using hb
  · intro q hq x hx hxq
    rcases hH q hq x hx hxq with ⟨rfl, h⟩ | h
    · exact absurd hx (hvars x h)
    · exact h

/-! ### examples -/

theorem canonicalBound_lt (i : String) (e : Expr) : canonicalBound true i (.lt (.sym i) e) = some e := by
  simp [canonicalBound, cnf, foldBound, literalBound]

/-- `i < n` from 0 by 1 -/
def exHdr (i : String) (n : Int) : CMap := ⟨i, .int 0, exLt i n, exInc i⟩

/-- `i` on X, `j` and `k` as given -/
def exCuda (j k : Option CDim) (b : Int) : Cuda where
  dim := fun x => if x = "i" then some .x else if x = "j" then j else if x = "k" then k else none
  blockProp := fun _ => some b
  sync := fun _ => false
  mono := fun _ => true
  order := id

/-- `A[i, j] := B[j]` -/
def exCuStmt : Stmt := .tasklet "assign" [("B", [.sym "j"])] "A" [.sym "i", .sym "j"]

theorem exIters_hdr (i : String) (n : Nat) (σ : St) : Iters exEnv i (exLt i n) (exInc i) σ 0 ((List.range n).map Int.ofNat) n := by
  have key : ∀ (k j : Nat), j + k = n → Iters exEnv i (exLt i n) (exInc i) σ j ((List.range' j k).map Int.ofNat) n := by
    intro k
    induction k with
    | zero =>
      intro j h
      have : j = n := by omega
      subst this
      refine .done ?_
      rw [exLt, cond_lt]
      simp [St.ev_int, St.setS, St.set]
    | succ k ih =>
      intro j h
      rw [List.range'_succ, List.map_cons]
      refine .step ?_ ?_
      · rw [exLt, cond_lt]
        simp [St.ev_int, St.setS, St.set]; omega
      · rw [exInc, ev_succ]
        have : (σ.setS i (j : Int)) i [] + 1 = ((j + 1 : Nat) : Int) := by simp [St.setS, St.set]
        rw [this]
        exact ih (j + 1) (by omega)
  have := key n 0 (by omega)
  rw [List.range_eq_range']
  exact this

/-- the hypotheses of `cuda_parallelize_nested_partial` hold for `map i < 5 { map j < 3 { A[i, j] := B[j] } }` with blocks of 2 -/
example (σ : St) : (exCuda none none 2).canNest [(true, exHdr "i" 5)] (exHdr "j" 3) = true ∧
    (Seq.one (.block [exCuStmt])).cmaps ((exCuda none none 2).nested "i" "j" 2) = [] ∧
    (nestNode (.one (.block [exCuStmt])) (exHdr "i" 5) [exHdr "j" 3]).launchable ((exCuda none none 2).nested "i" "j" 2) [] = true ∧
    NestIters exEnv σ [exHdr "i" 5, exHdr "j" 3] [5, 3] ∧
    (∀ q ∈ [exHdr "i" 5, exHdr "j" 3], ∀ (v : Int), ∀ e ∈ q.cond.ops, (σ.setS q.i v).defd exEnv e) ∧
    (∀ q ∈ [exHdr "i" 5, exHdr "j" 3], ∀ x ∈ q.cond.atoms, x = q.i) ∧
    (∀ q ∈ [exHdr "i" 5, exHdr "j" 3], ∀ b, canonicalBound ((exCuda none none 2).mono q.i) q.i q.cond = some b → q.i ∉ b.atoms) ∧
    TupIndep ((Seq.one (.block [exCuStmt])).den exEnv) ["i", "j"] (fun x => x = "i" ∨ x = "j") σ (instances [5, 3])
      (fun v => exCuStmt.run exEnv (setIx ["i", "j"] v σ))
      (fun v l => l = ("i", []) ∨ l = ("j", []) ∨ ∃ a b, v = [a, b] ∧ l = ("B", [b])) (fun v l => l = ("A", v)) := by
  refine ⟨by decide, rfl, ?_, .cons (exIters_hdr "i" 5 σ) (.cons (exIters_hdr "j" 3 σ) .nil), ?_, ?_, ?_, ?_⟩
  · simp [nestNode, Node.launchable, Seq.launchable, mapNest, Seq.one, Cuda.dimOf, Cuda.nested, exCuda, exHdr, Cuda.iterations, Cuda.first, Node.cmaps,
      Seq.cmaps, exInc, loopStride, CDim.next, exLt, canonicalBound_lt]
  · intro q hq v e he
    simp only [List.mem_cons, List.not_mem_nil, or_false] at hq
    rcases hq with rfl | rfl <;> simp [exHdr, exLt, Cond.ops] at he <;> rcases he with rfl | rfl <;> simp [St.defd, Expr.eval, St.val]
  · simp [exHdr, exLt, Cond.atoms, Expr.atoms]
  · simp [exHdr, exLt, exCuda, canonicalBound_lt, Expr.atoms]
  · have hlen : ∀ v ∈ instances [5, 3], ∃ a b, v = [a, b] := by
      intro v hv
      simp only [instances, mem_box] at hv
      match v, hv with
      | [a, b], _ => exact ⟨a, b, rfl⟩
      | [], h => simp [Types.InRange] at h
      | [_], h => simp [Types.InRange] at h
      | _ :: _ :: _ :: _, h => simp [Types.InRange] at h
    refine ⟨by simp, ?_, by simp, ?_, ?_⟩
    · intro v hv
      obtain ⟨a, b, rfl⟩ := hlen v hv
      rw [Seq.one, one_child_den, Node.den]
      have hi : (setIx ["i", "j"] [a, b] σ).ev exEnv (.sym "i") = a := St.ev_of_eval (by simp [setIx, Expr.eval, St.val, St.setS, St.set])
      have hj : (setIx ["i", "j"] [a, b] σ).ev exEnv (.sym "j") = b := St.ev_of_eval (by simp [setIx, Expr.eval, St.val, St.setS, St.set])
      have hw : ∀ l, exCuStmt.wr exEnv (setIx ["i", "j"] [a, b] σ) l ↔ l = ("A", [a, b]) := by
        intro l; simp only [exCuStmt, Stmt.wr, List.map_cons, List.map_nil, hi, hj]
      have hr : ∀ l, exCuStmt.rd exEnv (setIx ["i", "j"] [a, b] σ) l →
          l = ("i", []) ∨ l = ("j", []) ∨ ∃ a' b', [a, b] = [a', b'] ∧ l = ("B", [b']) := by
        intro l hl
        have hatom : ∀ x : String, l.1 = x → l.2 = [] → l = (x, []) := fun x h1 h2 => Prod.ext h1 h2
        simp only [exCuStmt, Stmt.rd, List.map_cons, List.map_nil, hj, List.mem_cons, List.not_mem_nil, or_false, exists_eq_left,
          exists_eq_or_imp, Expr.atoms] at hl
        rcases hl with (h | h) | h | h
        · exact Or.inr (Or.inr ⟨a, b, rfl, h⟩)
        · exact Or.inr (Or.inl (hatom _ h.1 h.2))
        · exact Or.inl (hatom _ h.1 h.2)
        · exact Or.inr (Or.inl (hatom _ h.1 h.2))
      exact (exCuStmt.foot exEnv _).mono hr (fun l h => (hw l).1 h) (fun l h h' => absurd ((hw l).2 h) h')
    · rintro v hv l (h | h | ⟨a, b, _, rfl⟩) hl
      · exact absurd h (hl "i" (by simp))
      · exact absurd h (hl "j" (by simp))
      · simp
    · rintro v hv w hw hne l rfl hx
      simp [hne]

/-! ### violations -/

/-- run the threads in order -/
def cuRun (K : Cuda) (E : Env) (f : Nat) (n : Node) (p : Node) (ms : List CMap) : List Thread → St → Option St
  | [], σ => some σ
  | t :: ts, σ => match p.run E f (K.setVars t ms σ) with
    | some (.normal, σ1) => cuRun K E f n p ms ts σ1
    | _ => none

theorem cuRun_sound {K : Cuda} {E : Env} {f : Nat} {n p : Node} {ms : List CMap} {X : String → Prop} (hp : n.thread K = p) (hm : n.cmaps K = ms) :
    (ts : List Thread) → (σ σ' : St) → cuRun K E f n p ms ts σ = some σ' → Launch K E X n ts σ σ'
  | [], σ, σ', h => by simp only [cuRun, Option.some.injEq] at h; subst h; exact .nil
  | t :: ts, σ, σ', h => by
    simp only [cuRun] at h
    split at h
    · rename_i σ1 h1
      exact .cons (fun _ _ => rfl) (by rw [hp, hm]; exact (Docc.IR.run_sound E f).1 _ _ _ _ h1) (cuRun_sound hp hm ts σ1 σ' h)
    · cases h

theorem cuRun_obs {K : Cuda} {E : Env} (f : Nat) {n p : Node} {ms : List CMap} {X : String → Prop} (hp : n.thread K = p) (hm : n.cmaps K = ms)
    {ts : List Thread} {σ : St} {x : String} {j : List Int} {v : Int} (h : (cuRun K E f n p ms ts σ).map (fun r => r x j) = some v) :
    ∃ τ', Launch K E X n ts σ τ' ∧ τ' x j = v := by
  cases hr : cuRun K E f n p ms ts σ with
  | none => rw [hr] at h; simp at h
  | some r =>
    rw [hr] at h
    exact ⟨r, cuRun_sound hp hm _ _ _ hr, by simpa using h⟩

/-- the loop of a header -/
def CMap.loop (m : CMap) (s : Seq) : Node := .loop true m.i m.init m.cond m.upd s
/-- `if (i < n)` -/
def exCuGuard (i : String) (n : Expr) (s : Seq) : Node := .ifElse (.cons (.lt (.sym i) n) s .nil)
/-- `x[i] := x[i] + 1` -/
def exBump (x : String) (i : String) : Node := .block [.tasklet "add" [(x, [.sym i]), ("one", [])] x [.sym i]]
/-- only `one` is not 0 -/
def exCuSt : St := fun x _ => if x = "one" then 1 else 0

/-- **C87 fails** for code beside a nested map: `map i < 1 { A[i] += 1; map j < 2 { B[j] += 1 } }`: `CUDAParallelizeNestedMap` accepts the inner map
(cuda_parallelize_nested_map.cpp:17-68 does not ask for a perfect nest), and then each of the two threads of dimension Y executes `A[i] += 1`. -/
theorem cuda_imperfect_nest_violated : ∃ (E : Env) (K : Cuda) (m : CMap) (b : Int) (n : Node) (s : Seq) (σ σ' τ' : St),
    n = (exHdr "i" 1).loop (.cons (exBump "A" "i") [] (.cons (m.loop s) [] .nil)) ∧ K.canNest [(true, exHdr "i" 1)] m = true ∧ 0 < b ∧
    n.launchable (K.nested "i" m.i b) [] = true ∧ n.den E σ .normal σ' ∧
    Launch (K.nested "i" m.i b) E (fun x => x = "i" ∨ x = "j") n ((K.nested "i" m.i b).threads E σ n) σ τ' ∧ τ' "A" [0] ≠ σ' "A" [0] := by
  let K : Cuda := exCuda none none 1
  let n : Node := (exHdr "i" 1).loop (.cons (exBump "A" "i") [] (.cons ((exHdr "j" 2).loop (.one (exBump "B" "j"))) [] .nil))
  let p : Node := exCuGuard "i" (.int 1) (.cons (exBump "A" "i") [] (.cons (exCuGuard "j" (.int 2) (.one (exBump "B" "j"))) [] .nil))
  have hp : n.thread (K.nested "i" "j" 2) = p := by
    simp [n, p, K, CMap.loop, exCuGuard, exBump, Node.thread, Seq.thread, Seq.one, Cuda.dimOf, Cuda.nested, exCuda, exHdr, Cuda.iterations, Cuda.first, Node.cmaps,
      Seq.cmaps, exInc, loopStride, CDim.next, exLt, canonicalBound_lt]
  have hm : n.cmaps (K.nested "i" "j" 2) = [exHdr "i" 1, exHdr "j" 2] := by
    simp [n, K, CMap.loop, exBump, Seq.one, Cuda.dimOf, Cuda.nested, exCuda, exHdr, Node.cmaps, Seq.cmaps, CDim.next]
  have ht : (K.nested "i" "j" 2).threads exEnv exCuSt n = [⟨0, 0, 0⟩, ⟨0, 1, 0⟩] := by
    have hf : ∀ d, (K.nested "i" "j" 2).first d n = ((K.nested "i" "j" 2).order [exHdr "i" 1, exHdr "j" 2]).find? fun m => (K.nested "i" "j" 2).dim m.i == some d := fun d => by rw [Cuda.first, hm]
    simp only [Cuda.threads, Cuda.blocks, Cuda.blockSize, Cuda.iterations, hf]
    simp [K, Cuda.nested, exCuda, exHdr, exInc, loopStride, CDim.next, exLt,
      canonicalBound_lt, ceilDiv, Expr.atoms, St.ev_int, Cuda.block]
    decide
  obtain ⟨σ', h1, h2⟩ := Node.run_obs (E := exEnv) (σ := exCuSt) 60 (x := "A") (j := [0]) (c := .normal) (v := 1) (s := n) (by decide)
  obtain ⟨τ', h3, h4⟩ := cuRun_obs (K := K.nested "i" "j" 2) (E := exEnv) 60 (X := fun x => x = "i" ∨ x = "j") hp hm (ts := [⟨0, 0, 0⟩, ⟨0, 1, 0⟩]) (σ := exCuSt)
    (x := "A") (j := [0]) (v := 2) (by decide)
  refine ⟨exEnv, K, exHdr "j" 2, 2, n, .one (exBump "B" "j"), exCuSt, σ', τ', rfl, by decide, by decide, ?_, h1, ?_, by rw [h2, h4]; decide⟩
  · simp [n, K, CMap.loop, exBump, Node.launchable, Seq.launchable, Seq.one, Cuda.dimOf, Cuda.nested, exCuda, exHdr, Cuda.iterations, Cuda.first, Node.cmaps,
      Seq.cmaps, exInc, loopStride, CDim.next, exLt, canonicalBound_lt]
  · change Launch (K.nested "i" "j" 2) exEnv _ n ((K.nested "i" "j" 2).threads exEnv exCuSt n) exCuSt τ'
    rw [ht]; exact h3

/-- **C87 fails** for two nested maps: `map i < 1 { map j < 1 { A[j] += 1 }; map k < 2 { B[k] += 1 } }`: `CUDAParallelizeNestedMap` accepts both and gives both the dimension Y;
the number of threads is taken from the first one found (cuda_map_dispatcher.cpp:404-450 returns before it compares the bounds), so `B[1]` is not updated. -/
theorem cuda_sibling_bounds_violated : ∃ (E : Env) (K : Cuda) (b : Int) (n : Node) (σ σ' τ' : St),
    n = (exHdr "i" 1).loop (.cons ((exHdr "j" 1).loop (.one (exBump "A" "j"))) [] (.cons ((exHdr "k" 2).loop (.one (exBump "B" "k"))) [] .nil)) ∧
    K.canNest [(true, exHdr "i" 1)] (exHdr "j" 1) = true ∧ (K.nested "i" "j" b).canNest [(true, exHdr "i" 1)] (exHdr "k" 2) = true ∧ 0 < b ∧
    (∀ l, (K.order l).Perm l) ∧ n.launchable ((K.nested "i" "j" b).nested "i" "k" b) [] = true ∧ n.den E σ .normal σ' ∧
    Launch ((K.nested "i" "j" b).nested "i" "k" b) E (fun x => x = "i" ∨ x = "j" ∨ x = "k") n
      (((K.nested "i" "j" b).nested "i" "k" b).threads E σ n) σ τ' ∧ τ' "B" [1] ≠ σ' "B" [1] := by
  let K : Cuda := exCuda none none 1
  let n : Node := (exHdr "i" 1).loop (.cons ((exHdr "j" 1).loop (.one (exBump "A" "j"))) [] (.cons ((exHdr "k" 2).loop (.one (exBump "B" "k"))) [] .nil))
  let K' := (K.nested "i" "j" 1).nested "i" "k" 1
  let p : Node := exCuGuard "i" (.int 1) (.cons (exCuGuard "j" (.int 1) (.one (exBump "A" "j"))) [] (.cons (exCuGuard "k" (.int 2) (.one (exBump "B" "k"))) [] .nil))
  have hp : n.thread K' = p := by
    simp [n, p, K, K', CMap.loop, exCuGuard, exBump, Node.thread, Seq.thread, Seq.one, Cuda.dimOf, Cuda.nested, exCuda, exHdr, Cuda.iterations, Cuda.first, Node.cmaps,
      Seq.cmaps, exInc, loopStride, CDim.next, exLt, canonicalBound_lt]
  have hm : n.cmaps K' = [exHdr "i" 1, exHdr "j" 1, exHdr "k" 2] := by
    simp [n, K, K', CMap.loop, exBump, Seq.one, Cuda.dimOf, Cuda.nested, exCuda, exHdr, Node.cmaps, Seq.cmaps, CDim.next]
  have ht : K'.threads exEnv exCuSt n = [⟨0, 0, 0⟩] := by
    have hf : ∀ d, K'.first d n = (K'.order [exHdr "i" 1, exHdr "j" 1, exHdr "k" 2]).find? fun m => K'.dim m.i == some d := fun d => by rw [Cuda.first, hm]
    simp only [Cuda.threads, Cuda.blocks, Cuda.blockSize, Cuda.iterations, hf]
    simp [K, K', Cuda.nested, exCuda, exHdr, exInc, loopStride, CDim.next, exLt,
      canonicalBound_lt, ceilDiv, Expr.atoms, St.ev_int, Cuda.block]
    decide
  obtain ⟨σ', h1, h2⟩ := Node.run_obs (E := exEnv) (σ := exCuSt) 60 (x := "B") (j := [1]) (c := .normal) (v := 1) (s := n) (by decide)
  obtain ⟨τ', h3, h4⟩ := cuRun_obs (K := K') (E := exEnv) 60 (X := fun x => x = "i" ∨ x = "j" ∨ x = "k") hp hm (ts := [⟨0, 0, 0⟩]) (σ := exCuSt)
    (x := "B") (j := [1]) (v := 0) (by decide)
  refine ⟨exEnv, K, 1, n, exCuSt, σ', τ', rfl, by decide, by decide, by decide, fun l => List.Perm.refl l, ?_, h1, ?_, by rw [h2, h4]; decide⟩
  · simp [n, K, CMap.loop, exBump, Node.launchable, Seq.launchable, Seq.one, Cuda.dimOf, Cuda.nested, exCuda, exHdr, Cuda.iterations, Cuda.first, Node.cmaps,
      Seq.cmaps, exInc, loopStride, CDim.next, exLt, canonicalBound_lt]
  · change Launch K' exEnv _ n (K'.threads exEnv exCuSt n) exCuSt τ'
    rw [ht]; exact h3

end Docc.IR
