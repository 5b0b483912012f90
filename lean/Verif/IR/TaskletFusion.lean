import Verif.IR.BlockFusionProps

/-
Model of TaskletFusion (sdfg/src/passes/dataflow/tasklet_fusion.cpp): assignments to a scalar that is accessed in one access node only are fused into the
computations that read it ("input") or into the computation that writes it ("output").  Types are not modelled: the pass requires all of them to be the same
scalar type (46-50, 60-77, 162-190), for which memlets have the empty subset.
-/
namespace Docc.IR
open Docc.Sym
open Docc.Flow (Gr Kind Edge Before)

namespace DF
/-- `in_edges` with subsets -/
def ins (g : DF) (v : Nat) : List (Edge × List Expr) := g.edges.filter fun e => e.1.dst == v
/-- `out_edges` with subsets -/
def outs (g : DF) (v : Nat) : List (Edge × List Expr) := g.edges.filter fun e => e.1.src == v

/-- the node is a tasklet -/
def isTasklet (g : DF) (v : Nat) : Bool := match g.gr.kind v with
  | .tasklet _ _ _ => true
  | _ => false

/-- the node is a tasklet with `TaskletCode::assign` -/
def isAssign (g : DF) (v : Nat) : Bool := match g.gr.kind v with
  | .tasklet code _ _ => code == 0
  | _ => false

/-- tasklet_fusion.cpp:24-32 `container_allowed_accesses`, inside the block -/
def onlyHere (g : DF) (n : Nat) : Bool :=
  (g.gr.vs.all fun m => !g.isAccess m || g.name m != g.name n || m == n) && !decide (g.name n ∈ g.subsetSyms)

/-- tasklet.cpp:20-59 `Tasklet::validate`: the edges of a tasklet are its connectors, an assignment has one input -/
structure Valid (g : DF) : Prop where
  inDeg : ∀ v code i o, g.gr.kind v = .tasklet code i o → (g.ins v).length = i.length
  outDeg : ∀ v code i o, g.gr.kind v = .tasklet code i o → (g.outs v).length = 1 ∧ o.length = 1
  arity : ∀ v i o, g.gr.kind v = .tasklet 0 i o → i.length = 1
end DF

/-- 42-81: the criterion for fusing an "input" assignment; `i` is the memlet into the access node, `e0` the memlet into the assignment -/
def tfInAccepts (g : DF) (n : Nat) (i e0 : Edge × List Expr) : Bool :=
  g.isAccess n && decide (g.ins n = [i]) && !(g.outs n).isEmpty && decide (i.2 = []) && g.isAssign i.1.src && decide (g.ins i.1.src = [e0]) &&
    ((g.outs n).all fun e => g.isTasklet e.1.dst && decide (e.2 = [])) && g.onlyHere n

/-- a tasklet reads the access node `n` -/
def tfConsumer (g : DF) (n v : Nat) : Bool := (g.outs n).any fun e => e.1.dst == v

/-- 91-122: memlets from other access nodes with the container of the source of the assignment; constant nodes (`cst`) are left alone -/
def tfOther (g : DF) (cst : Nat → Bool) (n : Nat) (e0 e : Edge × List Expr) : Bool :=
  e.1.src != n && tfConsumer g n e.1.dst && g.isAccess e.1.src && !cst e.1.src && g.name e.1.src == g.name e0.1.src

/-- 85-144: the new memlet -/
def tfMove (g : DF) (cst : Nat → Bool) (n : Nat) (e0 e : Edge × List Expr) : Edge × List Expr :=
  if e.1.src = n then ({ e.1 with src := e0.1.src, sc := e0.1.sc }, e0.2)
  else if tfOther g cst n e0 e then ({ e.1 with src := e0.1.src }, e.2) else e

/-- 83-152: fuse the "input" assignment -/
def tfIn (g : DF) (cst : Nat → Bool) (n : Nat) (e0 : Edge × List Expr) : DF :=
  let es := (g.edges.filter fun e => e.1.dst != e0.1.dst && e.1.dst != n).map (tfMove g cst n e0)
  { nodes := g.nodes.filter fun m => m.v != e0.1.dst && m.v != n &&
      !((g.edges.any fun e => e.1.src == m.v && tfOther g cst n e0 e) && (es.all fun e => e.1.src != m.v && e.1.dst != m.v))
    edges := es }

/-- 155-206: the criterion for fusing an "output" assignment; `i`, `e` are the memlets of the access node, `m` is the memlet from the assignment -/
def tfOutAccepts (g : DF) (n : Nat) (i e m : Edge × List Expr) : Bool :=
  g.isAccess n && decide (g.ins n = [i]) && decide (g.outs n = [e]) && decide (i.2 = []) && decide (e.2 = []) && g.isTasklet i.1.src &&
    g.isAssign e.1.dst && decide (g.outs e.1.dst = [m]) && g.onlyHere n

/-- 208-238: fuse the "output" assignment -/
def tfOut (g : DF) (n : Nat) (e m : Edge × List Expr) : DF where
  nodes := g.nodes.filter fun x => x.v != n && x.v != e.1.dst
  edges := (g.edges.filter fun x => x.1.src != n && x.1.src != e.1.dst).map fun x =>
    if x.1.dst = n then ({ x.1 with dst := m.1.dst, dc := m.1.dc }, m.2) else x

end Docc.IR
