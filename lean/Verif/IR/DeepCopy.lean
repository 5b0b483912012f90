import Verif.IR.ScopeThm

/-
Deep copies of control flow nodes (sdfg/src/deepcopy/structured_sdfg_deep_copy.cpp).

Addresses of new nodes come from a counter.  The copy of a dataflow graph (`add_block` with a graph, structured_sdfg_builder.cpp:652-670, 1597-1620) is the same
list of statements.  Not modelled: debug information, schedules, the types of constant returns, a target inside of the source (then the loop over
`source.size()` follows its own insertions).
-/
namespace Docc.IR.Scope
open Docc.Sym

mutual
/-- structured_sdfg_deep_copy.cpp:12-80 (for children) and 85-147 (`insert`): the copy of one node; the copy, the next address and the assignments
`node_mapping[node] = copy` in their order.  `none`: the exception for unknown classes. -/
def Cn.dup : Cn → Nat → Option (Cn × Nat × List (Nat × Nat))
  | .mk i k l, c =>
    match k with
    | .block _ | .brk | .cont | .ret _ _ => some (.mk c k .nil, c + 1, [(i, c)])
    | .seq | .ifElse => (l.dup (c + 1)).map fun r => (.mk c k r.1, r.2.1, (i, c) :: r.2.2)
    | .whileL | .loop .. => (l.dupBody (c + 1)).map fun r => (.mk c k r.1, r.2.1, (i, c) :: r.2.2)
    | .other => none
/-- structured_sdfg_deep_copy.cpp:9-12, 25-30: all children with their transitions, all cases with their conditions -/
def Cs.dup : Cs → Nat → Option (Cs × Nat × List (Nat × Nat))
  | .nil, c => some (.nil, c, [])
  | .cons n e r, c => do
    let a ← n.dup c
    let b ← r.dup a.2.1
    some (.cons a.1 e b.1, b.2.1, a.2.2 ++ b.2.2)
/-- structured_sdfg_deep_copy.cpp:32-34, 54-64, 65-77: a loop comes with a new body; `append` copies the children of the body. -/
def Cs.dupBody : Cs → Nat → Option (Cs × Nat × List (Nat × Nat))
  | .nil, c => some (.nil, c, [])
  | .cons n _ _, c => (n.dupKids (c + 1)).map fun r => (.cons (.mk c .seq r.1) .none .nil, r.2.1, r.2.2)
/-- `append` with the body of a loop as source -/
def Cn.dupKids : Cn → Nat → Option (Cs × Nat × List (Nat × Nat))
  | .mk _ _ l, c => l.dup c
end

/-- children added at the end of a sequence -/
def Cs.append : Cs → Cs → Cs
  | .nil, b => b
  | .cons n e r, b => .cons n e (r.append b)

/-- structured_sdfg_deep_copy.cpp:157-162 `copy()`: the children of the target afterwards and the mapping -/
def copyInto (root : Cs) (src : Cn) (c : Nat) : Option (Cs × List (Nat × Nat)) :=
  (src.dup c).map fun r => (root.append (.cons r.1 (.trans []) .nil), r.2.2.reverse)

/-- structured_sdfg_deep_copy.cpp:164-173 `insert()`; `none` also if the source is not a sequence -/
def insertInto (root : Cs) (src : Cn) (c : Nat) : Option (Cs × List (Nat × Nat)) :=
  match src with
  | .mk _ .seq l => (l.dup c).map fun r => (root.append r.1, r.2.2.reverse)
  | _ => none

/-! Specification: the program that a tree with addresses stands for, and positions in trees -/

mutual
/-- the node of IR/Syntax -/
def Cn.toNode : Cn → Node
  | .mk _ k l =>
    match k with
    | .block s => .block s
    | .seq => .seq l.toSeq
    | .ifElse => .ifElse l.toBrs
    | .whileL => .whileL l.toBody
    | .loop m i a b u => .loop m i a b u l.toBody
    | .brk => .brk
    | .cont => .cont
    | .ret d b => .ret d b
    | .other => .block []
/-- children of a sequence -/
def Cs.toSeq : Cs → Seq
  | .nil => .nil
  | .cons n (.trans t) r => .cons n.toNode t r.toSeq
  | .cons n _ r => .cons n.toNode [] r.toSeq
/-- cases -/
def Cs.toBrs : Cs → Brs
  | .nil => .nil
  | .cons n (.cond c) r => .cons c n.toKids r.toBrs
  | .cons n _ r => .cons .tt n.toKids r.toBrs
/-- the body of a loop -/
def Cs.toBody : Cs → Seq
  | .nil => .nil
  | .cons n _ _ => n.toKids
/-- the children of a sequence node -/
def Cn.toKids : Cn → Seq
  | .mk _ _ l => l.toSeq
end

/-- loops -/
def Kd.isLoop : Kd → Bool
  | .whileL | .loop .. => true
  | _ => false

/-- a body of a loop: one sequence -/
def Cs.isBody : Cs → Bool
  | .cons (.mk _ .seq _) .none .nil => true
  | _ => false

/-- the nodes have the children of their classes: a loop has one body, other nodes without children have none -/
def Cn.Shaped (t : Cn) : Prop :=
  t.Leafy ∧ ∀ u, Sub u t → u.kind.isLoop = true → u.kids.isBody = true

/-- the node that is reached by going to the children with these numbers -/
def Cn.at : Cn → List Nat → Option Cn
  | t, [] => some t
  | t, k :: r => (t.kids.list[k]?).bind fun c => c.at r

/-- this position is the body of a loop -/
def Cn.BodyAt (t : Cn) (p : List Nat) : Prop := ∃ q k v, p = q ++ [k] ∧ t.at q = some v ∧ v.kind.isLoop = true

/-- the node `j` of `t'` stands where the node `i` of `t` stands, and this is not the body of a loop -/
def Copied (t t' : Cn) (i j : Nat) : Prop :=
  ∃ p u u', t.at p = some u ∧ t'.at p = some u' ∧ u.id = i ∧ u'.id = j ∧ ¬ t.BodyAt p

end Docc.IR.Scope
