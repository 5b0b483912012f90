/-
DataFlowGraph::topological_sort (sdfg/src/data_flow/data_flow_graph.cpp:266-521; the non-const overload at 523-778 is the same
code), the order in which block_dispatcher.cpp:47-70 emits the nodes of a block and in which users.cpp:84,
data_dependency_analysis.cpp:66 and reference_analysis.cpp:56 visit them.
-/
namespace Docc.Flow

/-- node classes; a tasklet keeps the number of its code, a code node its connectors -/
inductive Kind where
  | access (data : String)
  | tasklet (code : Nat) (ins outs : List String)
  | lib (code : String) (ins outs : List String)
  deriving Repr, DecidableEq

/-- a node: vertex, element id, class -/
structure Node where
  v : Nat
  eid : Nat
  kind : Kind
  deriving Repr, DecidableEq

/-- a memlet: source, destination and connectors -/
structure Edge where
  src : Nat
  sc : String
  dst : Nat
  dc : String
  deriving Repr, DecidableEq

/-- a data flow graph.  The lists are in the order in which the containers of the implementation happen to iterate; the theorems hold for
every order. -/
structure Gr where
  nodes : List Node
  edges : List Edge
  deriving Repr, DecidableEq

namespace Gr

/-- the vertices -/
def vs (g : Gr) : List Nat := g.nodes.map (·.v)

/-- the class of a vertex (`nodes_.at(v)` and `dynamic_cast`) -/
def kind (g : Gr) (v : Nat) : Kind := ((g.nodes.find? fun n => n.v == v).map (·.kind)).getD (.access "")

/-- `element_id()` -/
def eid (g : Gr) (v : Nat) : Nat := ((g.nodes.find? fun n => n.v == v).map (·.eid)).getD 0

/-- `out_edges` -/
def outE (g : Gr) (v : Nat) : List Edge := g.edges.filter fun e => e.src == v
/-- `in_edges` -/
def inE (g : Gr) (v : Nat) : List Edge := g.edges.filter fun e => e.dst == v
/-- data_flow_graph.cpp:92-94 `out_degree` -/
def outDeg (g : Gr) (v : Nat) : Nat := (g.outE v).length

/-- 331-339, 410-418: the sort key of a node -/
def value (g : Gr) (v : Nat) : Nat :=
  match g.kind v with
  | .access _ => 0
  | .tasklet c _ _ => c
  | .lib c _ _ => 52 + (c.toList.map (·.toNat)).foldl (· + ·) 0

end Gr

/-- `std::sort` with a strict order -/
def insertBy {α : Type} (lt : α → α → Bool) (x : α) : List α → List α
  | [] => [x]
  | y :: r => if lt x y then x :: y :: r else y :: insertBy lt x r
@[inherit_doc insertBy] def sortBy {α : Type} (lt : α → α → Bool) : List α → List α
  | [] => []
  | x :: r => insertBy lt x (sortBy lt r)

/-- 322-329, 403-408: the loop with `local_visited` -/
def uniq : List Nat → List Nat → List Nat
  | _, [] => []
  | seen, x :: r => if x ∈ seen then uniq seen r else x :: uniq (x :: seen) r

namespace Gr

/-- 341-344, 421-424: larger value first, then smaller element id -/
def keyLt (g : Gr) (a b : Nat) : Bool :=
  decide (g.value b < g.value a) || (decide (g.value a = g.value b) && decide (g.eid a < g.eid b))

/-- 306-351: `dependency_id` of the edge from `v` to its successor; `none` is -1 -/
def depId (g : Gr) (v s : Nat) : Option Nat :=
  let code (outs : List String) : Option Nat :=
    match (g.outE v).find? fun e => e.dst == s with
    | some e => outs.findIdx? (· == e.sc)
    | none => none
  match g.kind v with
  | .access _ => (sortBy g.keyLt (uniq [] ((g.outE v).map (·.dst)))).findIdx? (· == s)
  | .tasklet _ _ outs => code outs
  | .lib _ _ outs => code outs

/-- 367-428: the predecessors in the order in which they are pushed -/
def preds (g : Gr) (v : Nat) : List Nat :=
  let code (ins : List String) : List Nat :=
    uniq [] (ins.filterMap fun c => ((g.inE v).find? fun e => e.dc == c).map (·.src))
  match g.kind v with
  | .access _ => sortBy g.keyLt (uniq [] ((g.inE v).map (·.src)))
  | .tasklet _ ins _ => code ins
  | .lib _ ins _ => code ins

end Gr

/-- outcomes: a value, `boost::not_a_dag`, the runtime error of 352-354, `std::out_of_range` of a map lookup, or the fuel of the
model ran out (shown impossible for the graphs of the theorems) -/
inductive Res (α : Type) where
  | ok (a : α)
  | notADag
  | noDependency
  | outOfRange
  | fuel
  deriving Repr, DecidableEq

/-- sequencing of calls that can throw -/
def Res.bind {α β : Type} : Res α → (α → Res β) → Res β
  | .ok a, f => f a
  | .notADag, _ => .notADag
  | .noDependency, _ => .noDependency
  | .outOfRange, _ => .outOfRange
  | .fuel, _ => .fuel

/-- the variables changed by one reversed DFS: `visited`, `lists[start]`, `dependencies[start]`, `backward_dependencies`, `queue` -/
structure DS where
  vis : List Nat
  lst : List Nat
  deps : List (Nat × Nat)
  bwd : List ((Nat × Nat) × Nat)
  queue : List Nat
  deriving Repr, DecidableEq

/-- 296-431: the reversed DFS from `start`; the head of the list is the top of the stack -/
def dfs (g : Gr) (start : Nat) : Nat → List (Nat × Option Nat) → DS → Res DS
  | 0, _, _ => .fuel
  | _ + 1, [], st => .ok st
  | f + 1, (c, succ) :: stk, st =>
    if c ≠ start ∧ 1 < g.outDeg c then
      match succ.bind (g.depId c) with
      | none => .noDependency
      | some id =>
        if (st.bwd.lookup (c, id)).isSome then .noDependency
        else dfs g start f stk
          { st with queue := st.queue ++ [c], deps := (c, id) :: st.deps, bwd := ((c, id), start) :: st.bwd }
    else if c ∈ st.vis then .notADag
    else dfs g start f ((g.preds c).reverse.map (fun x => (x, some c)) ++ stk) { st with vis := c :: st.vis, lst := c :: st.lst }

/-- `visited`, `lists`, `dependencies`, `backward_dependencies` -/
structure PS where
  vis : List Nat
  lists : List (Nat × List Nat)
  deps : List (Nat × List (Nat × Nat))
  bwd : List ((Nat × Nat) × Nat)
  deriving Repr, DecidableEq

/-- 286-432: the loop over the queue -/
def phase1 (g : Gr) : Nat → List Nat → PS → Res PS
  | 0, _, _ => .fuel
  | _ + 1, [], ps => .ok ps
  | f + 1, s :: q, ps =>
    if s ∈ ps.vis then phase1 g f q ps
    else (dfs g s (g.edges.length + 2) [(s, none)] ⟨ps.vis, [], [], ps.bwd, q⟩).bind fun r =>
      phase1 g f r.queue ⟨r.vis, (s, r.lst) :: ps.lists, (s, r.deps) :: ps.deps, r.bwd⟩

/-- 435-462: the order of the sinks -/
def Gr.sinkLt (g : Gr) (a b : Nat) : Bool :=
  match g.kind a, g.kind b with
  | .tasklet ca _ _, .tasklet cb _ _ => decide (ca < cb) || (decide (ca = cb) && decide (g.eid a < g.eid b))
  | .tasklet _ _ _, .lib _ _ _ => true
  | .tasklet _ _ _, .access _ => true
  | .lib ca _ _, .lib cb _ _ => decide (ca < cb) || (decide (ca = cb) && decide (g.eid a < g.eid b))
  | .lib _ _ _, .access _ => true
  | .access da, .access db => decide (da < db) || (decide (da = db) && decide (g.eid a < g.eid b))
  | _, _ => false

/-- 484-494: the first consumer of `n` with a smaller dependency id that is not visited -/
def backNeed (bwd : List ((Nat × Nat) × Nat)) (vis : List Nat) (n id : Nat) : Option Nat :=
  ((List.range id).filterMap fun j => bwd.lookup (n, j)).find? fun x => decide (x ∉ vis)

/-- 476-498: what has to be put on the stack before the current list can be appended -/
def need (bwd : List ((Nat × Nat) × Nat)) (vis : List Nat) : List (Nat × Nat) → Option Nat
  | [] => none
  | (n, id) :: r => if n ∉ vis then some n else match backNeed bwd vis n id with
    | some x => some x
    | none => need bwd vis r

/-- 470-506: the stitching loop for one sink; `out` is `components.at(i)` -/
def stitch (ps : PS) : Nat → List Nat → List Nat → List Nat → Res (List Nat × List Nat)
  | 0, _, _, _ => .fuel
  | _ + 1, [], vis, out => .ok (vis, out)
  | f + 1, cur :: stk, vis, out =>
    let vis' := if cur ∈ vis then vis else cur :: vis
    match ps.deps.lookup cur with
    | none => .outOfRange
    | some d => match need ps.bwd vis' d with
      | some x => stitch ps f (x :: cur :: stk) vis' out
      | none => match ps.lists.lookup cur with
        | none => .outOfRange
        | some l => stitch ps f stk vis' (out ++ l)

/-- 465-507: the loop over the sinks -/
def stitchAll (ps : PS) (fuel : Nat) : List Nat → List Nat → List Nat → Res (List Nat)
  | [], _, out => .ok out
  | s :: r, vis, out =>
    if s ∈ vis then stitchAll ps fuel r vis out
    else (stitch ps fuel [s] vis out).bind fun x => stitchAll ps fuel r x.1 x.2

/-- 271-508: one weakly connected component with vertices `c` -/
def component (g : Gr) (c : List Nat) : Res (List Nat) :=
  let sinks := c.filter fun v => g.outDeg v == 0
  if sinks = [] then (if c = [] then .ok [] else .notADag)
  else (phase1 g (c.length + g.edges.length + 1) sinks ⟨[], [], [], []⟩).bind fun ps =>
    stitchAll ps (2 * g.nodes.length + 2) (if 1 < sinks.length then sortBy g.sinkLt sinks else sinks) [] []

/-- the loop over the components -/
def components (g : Gr) (comp : Nat → Nat) : List Nat → Res (List (List Nat))
  | [] => .ok []
  | i :: r => (component g (g.vs.filter fun v => comp v == i)).bind fun c => (components g comp r).bind fun cs => .ok (c :: cs)

/-- 511-514: larger components first -/
def Gr.compLt (g : Gr) (a b : List Nat) : Bool :=
  decide (b.length < a.length) ||
    (decide (a.length = b.length) && decide (0 < a.length) && decide (g.eid (a.headD 0) < g.eid (b.headD 0)))

/-- 266-521 `topological_sort`.  `num` and `comp` are the result of `graph::weakly_connected_components` (boost); its contract is a
hypothesis of the theorems. -/
def topoSort (g : Gr) (num : Nat) (comp : Nat → Nat) : Res (List Nat) :=
  (components g comp (List.range num)).bind fun cs => .ok (sortBy g.compLt cs).flatten

end Docc.Flow
