import Verif.IR.DeadCFG
import Verif.IR.SeqFusion

/-
Pipelines of passes (sdfg/src/passes/pipeline.cpp, sdfg/src/passes/pass.cpp) and the pipeline DeadCodeElimination.
-/
namespace Docc.IR
open Docc.Sym

/-- A pass on programs `P`: the new program and whether the pass reports a change (pass.h `run_pass`).  The pass gets the analyses that are in the cache of the
analysis manager and returns the cache with the analyses it requested (analysis.h:47-61 `get`); `K` are the kinds of analyses, `V` their results. -/
structure Pass (P K V : Type) where
  run : P → (K → Option V) → P × (K → Option V) × Bool

/-- pass.cpp:16-26, 34-38 `Pass::run`: all cached analyses are dropped if the pass reports a change. -/
def Pass.exec {P K V : Type} (p : Pass P K V) (x : P × (K → Option V)) : (P × (K → Option V)) × Bool :=
  match p.run x.1 x.2 with
  | (s, c, true) => ((s, fun _ => none), true)
  | (s, c, false) => ((s, c), false)

/-- pipeline.cpp:45-48: a pass is repeated until it reports no change; whether it did once -/
inductive Rep {P K V : Type} (p : Pass P K V) : P × (K → Option V) → P × (K → Option V) → Bool → Prop
  | done {x y} : p.exec x = (y, false) → Rep p x y false
  | more {x y z b} : p.exec x = (y, true) → Rep p y z b → Rep p x z true

/-- pipeline.cpp:43-49: all passes once -/
inductive Sweep {P K V : Type} : List (Pass P K V) → P × (K → Option V) → P × (K → Option V) → Bool → Prop
  | nil {x} : Sweep [] x x false
  | cons {p ps x y z a b} : Rep p x y a → Sweep ps y z b → Sweep (p :: ps) x z (a || b)

/-- pipeline.cpp:38-54 `Pipeline::run`: sweeps until one reports no change.  (A relation: the loops need not end.) -/
inductive Pipe {P K V : Type} (ps : List (Pass P K V)) : P × (K → Option V) → P × (K → Option V) → Bool → Prop
  | done {x y} : Sweep ps x y false → Pipe ps x y false
  | more {x y z b} : Sweep ps x y true → Pipe ps y z b → Pipe ps x z true

/-! ### what the passes of the pipeline report -/

/-- dead_cfg_elimination.cpp:115-138: the node is replaced by its children: a branch that is always taken, a trivial Map -/
def DCE.opened (D : DCE) : Node → Bool
  | .ifElse (.cons c _ _) => c.isTT
  | .loop true i a c u _ => D.isTrivial i a c u
  | _ => false

/-- dead_cfg_elimination.cpp:76-143: whether `applied` is set for a sequence -/
def DCE.seq1A (D : DCE) (s : Seq) : Bool :=
  match s with
  | .nil => false
  | .cons (.ret _ _) t r => !t.isEmpty || !r.isNil
  | .cons n t r =>
    if (dropSelf t).length < t.length then true
    else if !t.isEmpty then D.seq1A r
    else if D.isDead n then true
    else D.opened n || D.seq1A r

/-- dead_cfg_elimination.cpp:155-161: a case with the condition false -/
def Brs.hasFalse : Brs → Bool
  | .nil => false
  | .cons c _ r => c.isFF || r.hasFalse

/-- dead_cfg_elimination.cpp:164-169: the last case is empty -/
def Brs.lastDead : Brs → Bool
  | .nil => false
  | .cons _ s .nil => s.isNil
  | .cons _ _ r => r.lastDead

/-- dead_cfg_elimination.cpp:172-184 -/
def Brs.simpleA : Brs → Bool
  | .cons c0 s0 (.cons c1 s1 .nil) => decide (c0.neg = c1) && (s1.isNil || s0.isNil)
  | _ => false

/-- whether `applied` is set for an if-else -/
def Brs.dceA (b : Brs) : Bool := b.hasFalse || b.dropFalse.lastDead || b.dropFalse.dropLast.simpleA

mutual
/-- dead_cfg_elimination.cpp:69-205: whether `applied` is set for a node or below -/
def DCE.nodeA (D : DCE) (n : Node) : Bool :=
  match n with
  | .seq s => D.seq1A s || D.kidsA (D.seq1 s)
  | .ifElse b => b.dceA || D.casesA b.dce
  | .whileL s => D.seq1A s || D.kidsA (D.seq1 s)
  | .loop _ _ _ _ _ s => D.seq1A s || D.kidsA (D.seq1 s)
  | _ => false
termination_by n.w
decreasing_by
  · have := D.w_seq1 s; simp only [Node.w]; omega
  · have := Brs.w_dce b; simp only [Node.w]; omega
  · have := D.w_seq1 s; simp only [Node.w]; omega
  · have := D.w_seq1 s; simp only [Node.w]; omega
/-- the same for the children of a sequence -/
def DCE.kidsA (D : DCE) (s : Seq) : Bool :=
  match s with
  | .nil => false
  | .cons n _ r => D.nodeA n || D.kidsA r
termination_by s.w
decreasing_by
  all_goals simp only [Seq.w]
  all_goals omega
/-- the same for the branches of an if-else -/
def DCE.casesA (D : DCE) (b : Brs) : Bool :=
  match b with
  | .nil => false
  | .cons _ s r => D.seq1A s || D.kidsA (D.seq1 s) || D.casesA r
termination_by b.w
decreasing_by
  · simp only [Brs.w]; have := D.w_seq1 s; omega
  · simp only [Brs.w]; omega
end

/-- dead_cfg_elimination.cpp:63-207: what `run_pass` returns -/
def DCE.applied (D : DCE) (root : Seq) : Bool := D.seq1A root || D.kidsA (D.seq1 root)

mutual
/-- sequence_fusion.cpp:17-57: whether `applied` is set for a node or below -/
def Node.fuseA : Node → Bool
  | .seq s => s.fuseA
  | .ifElse b => b.fuseA
  | .whileL s => s.fuseA
  | .loop _ _ _ _ _ s => s.fuseA
  | _ => false
/-- the same for a sequence: a child that is a sequence -/
def Seq.fuseA : Seq → Bool
  | .nil => false
  | .cons n _ r => n.seq?.isSome || n.fuseA || r.fuseA
/-- the same for the cases of an if-else -/
def Brs.fuseA : Brs → Bool
  | .nil => false
  | .cons _ s r => s.fuseA || r.fuseA
end

/-- DeadCFGElimination as a pass (it uses no analysis) -/
def deadCfgPass (D : DCE) (K V : Type) : Pass Seq K V := ⟨fun s c => (D.run s, c, D.applied s)⟩
/-- SequenceFusion as a pass (it uses no analysis) -/
def fusionPass (K V : Type) : Pass Seq K V := ⟨fun s c => (s.fuse, c, s.fuseA)⟩

/-- pipeline.cpp:74-81 `Pipeline::dead_code_elimination` -/
def deadCodePipeline (D : DCE) (K V : Type) : List (Pass Seq K V) := [deadCfgPass D K V, fusionPass K V]

end Docc.IR
