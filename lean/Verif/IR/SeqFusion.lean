import Verif.IR.Syntax

/-
SequenceFusion (sdfg/src/passes/structured_control_flow/sequence_fusion.cpp).
-/
namespace Docc.IR
open Docc.Sym

/-- the node is a sequence -/
def Node.seq? : Node → Option Seq
  | .seq s => some s
  | _ => none

mutual
/-- sequence_fusion.cpp:41-53: the traversal continues into the children of every node. -/
def Node.fuse : Node → Node
  | .seq s => .seq s.fuse
  | .ifElse b => .ifElse b.fuse
  | .whileL s => .whileL s.fuse
  | .loop m i a c u s => .loop m i a c u s.fuse
  | .block l => .block l
  | .brk => .brk
  | .cont => .cont
  | .ret d q => .ret d q
/-- sequence_fusion.cpp:26-39: a child sequence is replaced by its children (`move_children`,
structured_sdfg_builder.cpp:607-623) and removed together with its transition (`remove_child`, 574-577); the moved
children are inspected in turn (`Seq.fuse_seq` shows the loop step). -/
def Seq.fuse : Seq → Seq
  | .nil => .nil
  | .cons (.seq s) _ r => s.fuse ++ r.fuse
  | .cons n t r => .cons n.fuse t r.fuse
/-- the cases of an if-else -/
def Brs.fuse : Brs → Brs
  | .nil => .nil
  | .cons c s r => .cons c s.fuse r.fuse
end

theorem Seq.fuse_append (a b : Seq) : (a ++ b).fuse = a.fuse ++ b.fuse := by
  match a with
  | .nil => simp [Seq.fuse]
  | .cons (.seq s) t r => simp [Seq.fuse, Seq.fuse_append r b, Seq.append_assoc]
  | .cons (.block l) t r => simp [Seq.fuse, Seq.fuse_append r b]
  | .cons (.ifElse l) t r => simp [Seq.fuse, Seq.fuse_append r b]
  | .cons (.whileL l) t r => simp [Seq.fuse, Seq.fuse_append r b]
  | .cons (.loop _ _ _ _ _ _) t r => simp [Seq.fuse, Seq.fuse_append r b]
  | .cons .brk t r => simp [Seq.fuse, Seq.fuse_append r b]
  | .cons .cont t r => simp [Seq.fuse, Seq.fuse_append r b]
  | .cons (.ret _ _) t r => simp [Seq.fuse, Seq.fuse_append r b]

/-- One step of the loop: the children of the sub-sequence take its place and are inspected next. -/
theorem Seq.fuse_seq (s : Seq) (t : Trans) (r : Seq) : (Seq.cons (.seq s) t r).fuse = (s ++ r).fuse := by
  rw [Seq.fuse_append, Seq.fuse]

mutual
/-- every sequence that is a child of a sequence has an empty transition -/
def Node.plainSubs : Node → Prop
  | .seq s => s.plainSubs
  | .ifElse b => b.plainSubs
  | .whileL s => s.plainSubs
  | .loop _ _ _ _ _ s => s.plainSubs
  | .block _ => True
  | .brk => True
  | .cont => True
  | .ret _ _ => True
/-- every sequence that is a child of a sequence has an empty transition -/
def Seq.plainSubs : Seq → Prop
  | .nil => True
  | .cons n t r => (n.seq?.isSome → t = []) ∧ n.plainSubs ∧ r.plainSubs
/-- the same in the cases of an if-else -/
def Brs.plainSubs : Brs → Prop
  | .nil => True
  | .cons _ s r => s.plainSubs ∧ r.plainSubs
end

mutual
/-- no sequence is a direct child of a sequence -/
def Node.flat : Node → Prop
  | .seq s => s.flat
  | .ifElse b => b.flat
  | .whileL s => s.flat
  | .loop _ _ _ _ _ s => s.flat
  | .block _ => True
  | .brk => True
  | .cont => True
  | .ret _ _ => True
/-- no sequence is a direct child of a sequence -/
def Seq.flat : Seq → Prop
  | .nil => True
  | .cons n _ r => n.seq? = none ∧ n.flat ∧ r.flat
/-- the same in the cases of an if-else -/
def Brs.flat : Brs → Prop
  | .nil => True
  | .cons _ s r => s.flat ∧ r.flat
end

end Docc.IR
