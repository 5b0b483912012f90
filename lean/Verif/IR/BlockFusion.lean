import Verif.IR.Exchange

/-
Model of BlockFusion (sdfg/src/passes/structured_control_flow/block_fusion.cpp): two neighbouring blocks are merged into one data flow graph.
-/
namespace Docc.IR
open Docc.Sym
open Docc.Flow (Gr Kind Edge Before)

/-- a data flow graph with the subsets of its memlets; every memlet is computational (block_fusion.cpp:92-103 rejects others) -/
structure DF where
  nodes : List Flow.Node
  edges : List (Edge × List Expr)
  deriving DecidableEq

namespace DF
/-- the graph -/
def gr (g : DF) : Gr := ⟨g.nodes, g.edges.map (·.1)⟩

/-- `AccessNode::data` -/
def name (g : DF) (v : Nat) : String := match g.gr.kind v with
  | .access d => d
  | _ => ""

/-- the node is an access node -/
def isAccess (g : DF) (v : Nat) : Bool := match g.gr.kind v with
  | .access _ => true
  | _ => false

/-- what the code node `v` reads through the connector `c`: container and subset (block_dispatcher.cpp `dispatch_tasklet`) -/
def opd (g : DF) (v : Nat) (c : String) : String × List Expr :=
  match g.edges.find? fun e => e.1.dst == v && e.1.dc == c with
  | some e => (g.name e.1.src, e.2)
  | none => ("", [])

/-- where the code node `v` writes through the connector `c` -/
def res (g : DF) (v : Nat) (c : String) : String × List Expr :=
  match g.edges.find? fun e => e.1.src == v && e.1.sc == c with
  | some e => (g.name e.1.dst, e.2)
  | none => ("", [])

/-- the computation of a node; access nodes compute nothing (block_dispatcher.cpp:47-70) -/
def stmt (g : DF) (v : Nat) : Option Stmt :=
  match g.gr.kind v with
  | .access _ => none
  | .tasklet code ins outs => some (.tasklet (toString code) (ins.map (g.opd v)) (g.res v (outs.headD "")).1 (g.res v (outs.headD "")).2)
  | .lib code ins outs => some (.lib code (ins.map fun c => (g.opd v c).1) (outs.map fun c => (g.res v c).1))

/-- block_fusion.cpp:23-50: the symbols a block writes; `isSym` says whether a container has an integer type -/
def writtenSyms (isSym : String → Bool) (g : DF) : List String :=
  (g.gr.vs.filter fun v => g.isAccess v && !(g.gr.inE v).isEmpty && isSym (g.name v)).map g.name

/-- the symbols of the subsets -/
def subsetSyms (g : DF) : List String := g.edges.flatMap fun e => Expr.atomsL e.2

/-- data_flow_graph.cpp:804-813 `post_dominators`: the last access node of the container in the topological order `o` -/
def lastOf (g : DF) (o : List Nat) (d : String) : Option Nat := (o.filter fun v => g.isAccess v && g.name v == d).getLast?

end DF

/-- block_fusion.cpp:14-158 `can_be_applied` (the first transition is empty).  `cst` are the data of constant nodes; `comp1` and `comp2` are the weakly connected
components.  Not modelled: side effects of library nodes, symbols of library nodes. -/
def bfAccepts (isSym cst : String → Bool) (g1 g2 : DF) (comp1 comp2 : Nat → Nat) : Bool :=
  (g1.subsetSyms.all fun s => !decide (s ∈ g2.writtenSyms isSym)) && (g2.subsetSyms.all fun s => !decide (s ∈ g1.writtenSyms isSym)) &&
    (g1.gr.vs.all fun n1 => g2.gr.vs.all fun n2 =>
      !(g1.isAccess n1 && g2.isAccess n2 && g1.name n1 == g2.name n2 && !cst (g1.name n1)) ||
        g1.gr.vs.any fun m1 => g2.gr.vs.any fun m2 =>
          g1.isAccess m1 && g2.isAccess m2 && g1.name m1 == g2.name m2 && !cst (g1.name m1) && comp1 m1 == comp1 n1 && comp2 m2 == comp2 n2 &&
            (g1.gr.outE m1).isEmpty && (g2.gr.inE m2).isEmpty)

/-- block_fusion.cpp:174-206: `node_mapping`: sources of the second graph are identified with the last access node of their container in the
first graph (in the topological order `o1`), all other nodes get a new vertex -/
def bfMap (g1 g2 : DF) (o1 : List Nat) (fr : Nat → Nat) (w : Nat) : Nat :=
  if g2.isAccess w && (g2.gr.inE w).isEmpty then (g1.lastOf o1 (g2.name w)).getD (fr w) else fr w

/-- whether the node is copied -/
def bfCopied (g1 g2 : DF) (o1 : List Nat) (w : Nat) : Bool :=
  !(g2.isAccess w && (g2.gr.inE w).isEmpty && (g1.lastOf o1 (g2.name w)).isSome)

/-- block_fusion.cpp:160-225 `apply`; `fr` numbers the copied nodes, `ids` their element ids -/
def bfuse (g1 g2 : DF) (o1 : List Nat) (fr ids : Nat → Nat) : DF where
  nodes := g1.nodes ++ (g2.nodes.filter fun n => bfCopied g1 g2 o1 n.v).map fun n => { n with v := fr n.v, eid := ids n.v }
  edges := g1.edges ++ g2.edges.map fun e =>
    ({ e.1 with src := bfMap g1 g2 o1 fr e.1.src, dst := bfMap g1 g2 o1 fr e.1.dst }, e.2)

/-! ### specification -/

/-- a well formed data flow graph: memlets connect access nodes and code nodes, all connectors are connected, no access node is isolated -/
structure DF.Wf (g : DF) : Prop where
  ids : g.gr.vs.Nodup
  ends : ∀ e ∈ g.gr.edges, e.src ∈ g.gr.vs ∧ e.dst ∈ g.gr.vs
  bip : ∀ e ∈ g.gr.edges, g.isAccess e.src = !g.isAccess e.dst
  ins : ∀ v ∈ g.gr.vs, ∀ i o, (g.gr.kind v).conns = some (i, o) → ∀ c ∈ i, ∃ e ∈ g.gr.edges, e.dst = v ∧ e.dc = c
  outs : ∀ v ∈ g.gr.vs, ∀ i o, (g.gr.kind v).conns = some (i, o) → o ≠ [] ∧ ∀ c ∈ o, ∃ e ∈ g.gr.edges, e.src = v ∧ e.sc = c
  used : ∀ v ∈ g.gr.vs, g.isAccess v = true → ∃ e ∈ g.gr.edges, e.src = v ∨ e.dst = v

/-- there is a path of memlets -/
inductive Reaches (g : Gr) : Nat → Nat → Prop
  | one {a b} : g.Arc a b → Reaches g a b
  | step {a b c} : g.Arc a b → Reaches g b c → Reaches g a c

/-- an execution order: every node once, sources of memlets before destinations -/
structure Order (g : Gr) (o : List Nat) : Prop where
  nodup : o.Nodup
  mem : ∀ v, v ∈ o ↔ v ∈ g.vs
  arcs : ∀ a b, g.Arc a b → Before o a b

/-- conflicting computations are connected by a path: the block has one meaning, whatever the order -/
def RaceFree (g : DF) : Prop := ∀ a ∈ g.gr.vs, ∀ b ∈ g.gr.vs, a ≠ b → ConflictAt g.stmt a b → Reaches g.gr a b ∨ Reaches g.gr b a

end Docc.IR
