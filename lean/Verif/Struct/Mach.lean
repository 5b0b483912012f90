import Verif.IR.Sem

/-
Unstructured SDFGs (state machines; sdfg/include/sdfg/sdfg.h, control_flow/state.h, control_flow/interstate_edge.h) and
their conversion to structured control flow (sdfg/src/builder/structured_sdfg_builder.cpp:19-350).
-/
namespace Docc.Struct
open Docc.Sym Docc.IR

/-! ### state machines -/

/-- control_flow/interstate_edge.h: an edge to a state, with condition and assignments. -/
structure MEdge where
  dst : Nat
  cond : Cond
  asg : Trans

/-- control_flow/state.h `State`/`ReturnState`: a dataflow graph (its computations in topological order), the outgoing edges
in the order of `out_edges`, and for a return state the returned data (`true`: a constant). -/
structure MState where
  stmts : List Stmt := []
  out : List MEdge := []
  ret : Option (String × Bool) := none

instance : Inhabited MState := ⟨{}⟩

/-- sdfg.h `SDFG`: states `0 .. n-1` and the start state. -/
structure Mach where
  states : List MState
  start : Nat

/-- the state with number `k` -/
def Mach.at (M : Mach) (k : Nat) : MState := M.states.getD k {}

/-- an edge is identified by its source and its position among the outgoing edges -/
abbrev EdgeId := Nat × Nat

/-- outgoing edges with their identity -/
def Mach.outE (M : Mach) (k : Nat) : List (EdgeId × MEdge) := (M.at k).out.zipIdx.map fun p => ((k, p.2), p.1)

/-- all edges -/
def Mach.edges (M : Mach) : List (EdgeId × MEdge) := (List.range M.states.length).flatMap M.outE

/-- sdfg.cpp `in_edges` -/
def Mach.inE (M : Mach) (k : Nat) : List (EdgeId × MEdge) := M.edges.filter fun e => e.2.dst == k

/-! ### what Boost computes on the graph of the states -/

/-- The results of `back_edges` (Boost depth-first search), `dominator_tree` and `post_dominator_tree` (Boost
Lengauer-Tarjan), sdfg/src/graph/graph.cpp:93-190; `none` is `nullptr`.  The theorems hold for any such results; the
counterexamples use the true ones. -/
structure Trees where
  back : List EdgeId
  dom : Nat → Option Nat
  pdom : Nat → Option Nat

/-- climb a tree from `b` until `a` (structured_sdfg_builder.cpp:46-54 and 110-127) -/
def climbs (t : Nat → Option Nat) (a : Nat) : Nat → Nat → Bool
  | 0, _ => false
  | f + 1, b => if b = a then true else match t b with
    | none => false
    | some p => climbs t a f p

/-- structured_sdfg_builder.cpp:46-54 -/
def dominates (M : Mach) (T : Trees) (a b : Nat) : Bool := climbs T.dom a (M.states.length + 1) b

/-- structured_sdfg_builder.cpp:110-127 -/
def postDominates (M : Mach) (T : Trees) (a b : Nat) : Bool := climbs T.pdom a (M.states.length + 1) b

/-! ### loops -/

/-- iterate `n` times -/
def rounds (f : List Nat → List Nat) : Nat → List Nat → List Nat
  | 0, l => l
  | n + 1, l => rounds f n (f l)

/-- structured_sdfg_builder.cpp:26-42: the sources of edges into the nodes (not into the header `e`).  (Simplification: the
work list is replaced by rounds that add all predecessors at once; the set that is reached is the same.) -/
def backRound (M : Mach) (e : Nat) (l : List Nat) : List Nat :=
  l ++ ((l.filter (· != e)).flatMap fun k => (M.inE k).map fun x => x.1.1).filter (fun k => !l.contains k)

/-- the natural loop -/
def natural (M : Mach) (s e : Nat) : List Nat := rounds (backRound M e) M.states.length [s]

/-- edges from `l` to states outside -/
def leaving (M : Mach) (l : List Nat) : List (EdgeId × MEdge) :=
  l.flatMap fun k => (M.outE k).filter fun x => !l.contains x.2.dst

/-- structured_sdfg_builder.cpp:56-81: the states at which the extension of the loop stops: the exits of the header, else
those of the latch, else all exits. -/
def stops (M : Mach) (l : List Nat) (s e : Nat) : List Nat :=
  let h := ((M.outE e).filter fun x => !l.contains x.2.dst).map (·.2.dst)
  let t := ((M.outE s).filter fun x => !l.contains x.2.dst).map (·.2.dst)
  if h ≠ [] then h else if t ≠ [] then t else (leaving M l).map (·.2.dst)

/-- structured_sdfg_builder.cpp:83-104: add the successors that are dominated by the header. -/
def extRound (M : Mach) (T : Trees) (st : List Nat) (e : Nat) (l : List Nat) : List Nat :=
  l ++ ((leaving M l).map (·.2.dst)).filter fun k => !l.contains k && !st.contains k && dominates M T e k

/-- structured_sdfg_builder.cpp:19-108 `determine_loop_nodes`. -/
def loopNodes (M : Mach) (T : Trees) (s e : Nat) : List Nat :=
  let l := natural M s e
  rounds (extRound M T (stops M l s e) e) M.states.length l

/-- what `structure_region` determines about the loop with a header: the states of the body, the edges that leave it and
the state after the loop -/
structure LoopInfo where
  body : List Nat
  exits : List EdgeId
  exit : Nat

/-- structured_sdfg_builder.cpp:183-196: the states of the loop with header `c`. -/
def loopBody (M : Mach) (T : Trees) (c : Nat) : List Nat :=
  (((M.inE c).filter fun x => T.back.contains x.1).flatMap fun x => loopNodes M T x.1.1 c).eraseDups

/-- structured_sdfg_builder.cpp:198-230: body, exit edges and exit state of the loop with header `c`; `none`: the exception
for unstructured control flow. -/
def loopAt (M : Mach) (T : Trees) (c : Nat) : Option LoopInfo :=
  let body := loopBody M T c
  let ex := (leaving M body).filter fun x => !T.back.contains x.1
  let xs := (ex.map (·.2.dst)).eraseDups
  let ys := if xs.length > 1 then
      let nr := xs.filter fun k => (M.at k).ret.isNone && !(M.at k).out.isEmpty
      if nr.length = 1 then nr else xs
    else xs
  match ys with
  | [x] => some ⟨body, ex.map (·.1), x⟩
  | _ => none

/-- structured_sdfg_builder.cpp:171-179: a state with an incoming back edge is a loop header. -/
def isHeader (M : Mach) (T : Trees) (c : Nat) : Bool := (M.inE c).any fun x => T.back.contains x.1

/-! ### structuring -/

/-- The loop whose body is being structured: `current_traverse_loop_` (only whether there is one matters to the program);
header, body and exit are remembered for the ghost events. -/
structure LoopCtx where
  header : Nat
  body : List Nat
  exit : Nat

/-- Ghost events, recorded for the statements of the theorems only: the jumps that are emitted and the loops that are
emitted inside of another loop. -/
inductive Ev where
  | brk (e : MEdge) (L : LoopCtx)
  | cont (e : MEdge) (L : LoopCtx)
  | inner (exit : Nat) (L : LoopCtx)

/-- a block, unless it would be empty (structured_sdfg_builder.cpp:271-273, 298-300, 323-325, 354-356) -/
def blockOf (l : List Stmt) (t : Trans) (r : Seq) : Seq :=
  if l.isEmpty && t.isEmpty then r else .cons (.block l) t r

mutual
/-- can the code behind be reached (ghost) -/
def Node.falls : Node → Bool
  | .block _ => true
  | .seq s => Seq.falls s
  | .ifElse b => Brs.falls b
  | .whileL _ => true
  | .loop .. => true
  | .brk => false
  | .cont => false
  | .ret _ _ => false
/-- of a sequence -/
def Seq.falls : Seq → Bool
  | .nil => true
  | .cons n _ r => Node.falls n && Seq.falls r
/-- of the cases of a complete if-else -/
def Brs.falls : Brs → Bool
  | .nil => false
  | .cons _ s r => Seq.falls s || Brs.falls r
end

/-- structured_sdfg_builder.cpp:328-345: the state at which the cases of a branch meet. -/
def mergeOf (M : Mach) (T : Trees) (c : Nat) (exit : Option Nat) (vis : List Nat) : Option Nat :=
  let m := T.pdom c
  let m := match exit, m with
    | some x, some p => if postDominates M T p x then exit else m
    | _, _ => m
  let m := match m with
    | some p => if vis.contains p then exit else m
    | none => m
  match m with
  | none => exit
  | some p => some p

mutual
/-- structured_sdfg_builder.cpp:145-380 `structure_region`: the sequence for the region from `cur` up to `exit` (`none`:
`nullptr`); result `none`: `UnstructuredControlFlowException` (or a sink that is no return state, an assertion).
`fuel` bounds the recursion (`structure` supplies enough).  Not modelled: the cut-off on the number of created elements
(it only adds exceptions) and debug information. -/
def region (M : Mach) (T : Trees) (exit : Option Nat) (brks : List EdgeId) (L : Option LoopCtx) :
    Nat → Option Nat → List Nat → Bool → Option (Seq × List Ev)
  | 0, _, _, _ => none
  | fuel + 1, cur, vis, isBody =>
    if cur = exit then some (.nil, [])
    else match cur with
    | none => some (.nil, [])
    | some c =>
      if vis.contains c then none
      else
        if !isBody && isHeader M T c then
          match loopAt M T c with
          | none => none
          | some I =>
            match region M T (some I.exit) (I.exits ++ brks) (some ⟨c, I.body, I.exit⟩) fuel (some c) (vis.filter (· != c)) true with
            | none => none
            | some (b, eb) =>
              match region M T exit brks L fuel (some I.exit) (c :: vis) false with
              | none => none
              | some (r, er) => some (.cons (.whileL b) [] r, eb ++ (L.map fun l => Ev.inner I.exit l).toList ++ er)
        else match M.outE c with
        | [] => match (M.at c).ret with
          | none => none
          | some (d, q) => some (blockOf (M.at c).stmts [] (.cons (.ret d q) [] .nil), [])
        | [e] => match e.2.cond with
          | .tt =>
            if T.back.contains e.1 then match L with
              | none => none
              | some l => some (blockOf (M.at c).stmts e.2.asg (.cons .cont [] .nil), [Ev.cont e.2 l])
            else if brks.contains e.1 then match L with
              | none => none
              | some l => some (blockOf (M.at c).stmts e.2.asg (.cons .brk [] .nil), [Ev.brk e.2 l])
            else match region M T exit brks L fuel (some e.2.dst) (c :: vis) false with
              | none => none
              | some (r, er) => some (blockOf (M.at c).stmts e.2.asg r, er)
          | _ => none
        | es =>
          match branches M T (mergeOf M T c exit (c :: vis)) brks L fuel es (c :: vis) with
          | none => none
          | some (b, eb) =>
            match region M T exit brks L fuel (mergeOf M T c exit (c :: vis)) (c :: vis) false with
            | none => none
            | some (r, er) => some (blockOf (M.at c).stmts [] (.cons (.ifElse b) [] r), eb ++ if Brs.falls b then er else [])
/-- structured_sdfg_builder.cpp:347-375: the cases of a branch. -/
def branches (M : Mach) (T : Trees) (merge : Option Nat) (brks : List EdgeId) (L : Option LoopCtx) :
    Nat → List (EdgeId × MEdge) → List Nat → Option (Brs × List Ev)
  | 0, _, _ => none
  | _ + 1, [], _ => some (.nil, [])
  | fuel + 1, e :: es, vis =>
    match branches M T merge brks L fuel es vis with
    | none => none
    | some (bs, ebs) =>
      if T.back.contains e.1 then match L with
        | none => none
        | some l => some (.cons e.2.cond (blockOf [] e.2.asg (.cons .cont [] .nil)) bs, Ev.cont e.2 l :: ebs)
      else if brks.contains e.1 then match L with
        | none => none
        | some l => some (.cons e.2.cond (blockOf [] e.2.asg (.cons .brk [] .nil)) bs, Ev.brk e.2 l :: ebs)
      else match region M T merge brks L fuel (some e.2.dst) vis false with
        | none => none
        | some (s, es') => some (.cons e.2.cond (blockOf [] e.2.asg s) bs, es' ++ ebs)
end

/-- structured_sdfg_builder.cpp:130-144 `traverse` -/
def structure' (M : Mach) (T : Trees) (fuel : Nat) : Option (Seq × List Ev) := region M T none [] none fuel (some M.start) [] false

/-! ### specification: execution of a state machine -/

/-- One step: run the dataflow of the state, take an edge whose condition holds, run its assignments
(control_flow/interstate_edge.h, "Execution Semantics"). -/
def Mach.Step (M : Mach) (E : Env) (k : Nat) (σ : St) (k' : Nat) (σ' : St) : Prop :=
  ∃ e ∈ (M.at k).out, (runBlock E (M.at k).stmts σ).cond E e.cond = true ∧ k' = e.dst ∧
    σ' = runTrans E e.asg (runBlock E (M.at k).stmts σ)

/-- In state `k` the machine, started with memory `σ`, returns after `n` steps with memory `σ'`. -/
inductive Mach.EndsIn (M : Mach) (E : Env) (d : String) (q : Bool) (τ : St) : Nat → Nat → St → Prop
  | ret {k σ} : (M.at k).out = [] → (M.at k).ret = some (d, q) → τ = runBlock E (M.at k).stmts σ → EndsIn M E d q τ 0 k σ
  | step {n k σ k' σ'} : M.Step E k σ k' σ' → EndsIn M E d q τ n k' σ' → EndsIn M E d q τ (n + 1) k σ

/-- the machine, started with memory `σ`, returns `d` with memory `τ` -/
def Mach.Returns (M : Mach) (E : Env) (σ : St) (d : String) (q : Bool) (τ : St) : Prop :=
  ∃ n, M.EndsIn E d q τ n M.start σ

/-- Where a state has several outgoing edges, in every memory exactly one of their conditions holds. -/
structure Mach.Deterministic (M : Mach) (E : Env) : Prop where
  total : ∀ k (σ : St), 1 < (M.at k).out.length → ∃ e ∈ (M.at k).out, σ.cond E e.cond = true
  unique : ∀ k (σ : St), ∀ e ∈ (M.at k).out, ∀ f ∈ (M.at k).out, σ.cond E e.cond = true → σ.cond E f.cond = true → e = f

/-- a ghost event is in order: a break is emitted for an edge to the state behind the loop, a continue for an edge to its
header, and an inner loop continues inside the outer one -/
def Ev.Ok : Ev → Prop
  | .brk e L => e.dst = L.exit
  | .cont e L => e.dst = L.header
  | .inner x L => x ∈ L.body

end Docc.Struct
