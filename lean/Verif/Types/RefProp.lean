import Verif.Types.Memlet

/-
ReferencePropagation, the memlets (sdfg/src/passes/dataflow/reference_propagation.cpp): an access to a pointer that was assigned
`p = &A[move]` is rewritten to an access to `A`.
-/
namespace Docc.Types
open Docc.Sym

/-- An access node and its memlets. -/
structure RNode where
  data : String
  ins : List Mlt
  outs : List Mlt
  deriving Repr

/-- `symbolic::add`: the sum; two constants are folded. -/
def sadd : Expr → Expr → Expr
  | .int a, .int b => .int (a + b)
  | a, b => .add [a, b]

/-- reference_propagation.cpp:25-28 -/
def Ty.isNested : Ty → Bool
  | .array _ _ _ => true
  | .structure _ _ => true
  | _ => false

/-- reference_propagation.cpp:49-57: both inferred types exist and are equal; exceptions are answered by false -/
def sameInferred : Res Ty → Res Ty → Bool
  | .ok a, .ok b => a.eq b
  | _, _ => false

/-- reference_propagation.cpp:18-58 `compatible_type`.  (A pointer without pointee has no valid subscripts; not modelled: `pointee_type` on it.) -/
def compatibleType (S : Structs) (move tar : Mlt) : Bool :=
  match move.base, tar.base with
  | .ptr _ p, .ptr _ q =>
    p.isNested && q.isScalar && tar.subset.all (fun d => d == .int 0) &&
      sameInferred (infer S move.base (move.subset ++ tar.subset)) (infer S tar.base tar.subset)
  | _, _ => false

/-- reference_propagation.cpp:155 `ref_type`: the pointer type of the reference (default attributes) -/
def refTy (T : Ty) : Ty := .ptr default T

/-- reference_propagation.cpp:159-205: the criteria for one memlet of the node -/
def edgeOk (S : Structs) (move : Mlt) (T : Ty) (m : Mlt) : Bool :=
  (m.kind == .comp || m.kind == .ref) && !m.subset.isEmpty && (m.base.eq (refTy T) || compatibleType S move m)

/-- reference_propagation.cpp:225-246: the index behind the reference is added to the last index of the reference -/
def joinSubset (move : List Expr) : List Expr → List Expr
  | [] => move
  | k :: r => move.dropLast ++ sadd (move.getLastD (.int 0)) k :: r

/-- reference_propagation.cpp:215-280: the rewritten memlet -/
def rewriteEdge (move : Mlt) (T : Ty) (m : Mlt) : Mlt :=
  ⟨m.kind, move.base.clone, if m.base.eq (refTy T) then joinSubset move.subset m.subset else move.subset ++ m.subset⟩

/-- reference_propagation.cpp:104-107 and 139-282 for one user of an access node; `none`: the user is skipped. -/
def RNode.propagate (S : Structs) (viewed : String) (move : Mlt) (N : RNode) : Option RNode :=
  if move.subset = [] then none
  else if move.subset = [.int 0] then some { N with data := viewed }
  else
    match infer S move.base move.subset with
    | .ok T =>
      if (N.outs ++ N.ins).all (edgeOk S move T) then
        some ⟨viewed, N.ins.map (rewriteEdge move T), N.outs.map (rewriteEdge move T)⟩
      else none
    | _ => none

/-- users.cpp:91-134: a node with memlets into it has a `WRITE` (or `MOVE`) user, one with memlets out of it a `READ` (or `VIEW`) user -/
def RNode.users (N : RNode) : Nat := (if N.ins = [] then 0 else 1) + (if N.outs = [] then 0 else 1)

/-- reference_propagation.cpp:92-283: every user of the node with this move is handled, each time the whole node -/
def RNode.handle (S : Structs) (viewed : String) (move : Mlt) : Nat → RNode → RNode
  | 0, N => N
  | k + 1, N => RNode.handle S viewed move k ((N.propagate S viewed move).getD N)

end Docc.Types
