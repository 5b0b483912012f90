/-
Clearing nodes of a data flow graph: `StructuredSDFGBuilder::clear_node` (sdfg/src/builder/structured_sdfg_builder.cpp:1517-1595).
-/
namespace Docc.Builder

/-- A data flow graph: its nodes (`true` for access nodes, `false` for tasklets and library nodes) and its memlets from node to node
(data_flow_graph.h).  The memlets are a list: two memlets may connect the same nodes (`y = x * x`). -/
structure FG where
  nodes : List (Nat × Bool)
  edges : List (Nat × Nat)

/-- the node exists -/
def FG.has (g : FG) (n : Nat) : Bool := g.nodes.any fun a => a.1 == n
/-- the node is an access node -/
def FG.isAccess (g : FG) (n : Nat) : Bool := g.nodes.contains (n, true)
/-- in-memlets of a node -/
def FG.ins (g : FG) (n : Nat) : List (Nat × Nat) := g.edges.filter fun e => e.2 == n
/-- out-memlets of a node -/
def FG.outs (g : FG) (n : Nat) : List (Nat × Nat) := g.edges.filter fun e => e.1 == n
/-- no memlet at the node -/
def FG.isolated (g : FG) (n : Nat) : Bool := (g.ins n).isEmpty && (g.outs n).isEmpty
/-- `nodes_.erase`, `boost::remove_vertex`: the node is destroyed; memlets are not touched -/
def FG.drop (g : FG) (n : Nat) : FG := ⟨g.nodes.filter fun a => a.1 != n, g.edges⟩
/-- `edges_.erase`, `boost::remove_edge` for all in-memlets of a node -/
def FG.cutIn (g : FG) (n : Nat) : FG := ⟨g.nodes, g.edges.filter fun e => e.2 != n⟩
/-- the same for all out-memlets -/
def FG.cutOut (g : FG) (n : Nat) : FG := ⟨g.nodes, g.edges.filter fun e => e.1 != n⟩

/-- structured_sdfg_builder.cpp:1517-1558 `clear_node(block, CodeNode)`: all memlets of the node are removed, then the node and those of its
neighbours that have no memlet left.  (`to_delete` is a set; the order in which it is visited does not matter, as removing isolated
nodes changes no degree.) -/
def FG.clearCode (g : FG) (n : Nat) : FG :=
  let near := (g.ins n).map (·.1) ++ (g.outs n).map (·.2) ++ [n]
  let g1 := (g.cutIn n).cutOut n
  ⟨g1.nodes.filter fun a => !(near.contains a.1 && g1.isolated a.1), g1.edges⟩

theorem FG.ins_cut (g : FG) (n : Nat) : (g.ins n).length + (g.cutIn n).edges.length = g.edges.length := by
  simp only [FG.ins, FG.cutIn]
  induction g.edges with
  | nil => rfl
  | cons e l ih => by_cases h : e.2 = n <;> simp [h] <;> omega

/-- structured_sdfg_builder.cpp:1560-1595 `clear_node(block, AccessNode)`: `queue` holds the nodes to visit.  `none`: a node that was
destroyed is visited (undefined behaviour). -/
def FG.clearLoop (node : Nat) (queue : List Nat) (g : FG) : Option FG :=
  match queue with
  | [] => some g
  | c :: q =>
    if g.has c = false then none
    else if c ≠ node ∧ g.isAccess c = true ∧ g.isolated c = false then FG.clearLoop node q g
    else
      let g1 := g.cutIn c
      FG.clearLoop node (q ++ (g.ins c).map (·.1)) (if c ≠ node ∨ g1.outs c = [] then g1.drop c else g1)
termination_by 2 * g.edges.length + queue.length
decreasing_by
  · simp only [List.length_cons]; omega
  · have := g.ins_cut c
    simp only [List.length_cons, List.length_append, List.length_map]
    split
    · simp only [FG.drop]; omega
    · omega

/-- the queue starts with the node -/
def FG.clearAccess (g : FG) (node : Nat) : Option FG := FG.clearLoop node [node] g

/-- the graph of a block: distinct nodes, memlets between existing nodes, and no memlet between two code nodes
(data_flow_graph.cpp:35-70 `validate`, memlet.cpp `validate`) -/
structure FG.Ok (g : FG) : Prop where
  distinct : (g.nodes.map (·.1)).Nodup
  ends : ∀ e ∈ g.edges, g.has e.1 = true ∧ g.has e.2 = true
  mixed : ∀ e ∈ g.edges, g.isAccess e.1 = true ∨ g.isAccess e.2 = true

end Docc.Builder
