import Verif.Types.Ty

/-
Passes that rewrite memlets: sdfg/src/passes/dataflow/{memlet_linearization,tensor_to_pointer_conversion,
trivial_array_elimination}.cpp.
-/
namespace Docc.Types
open Docc.Sym

/-- memlet.h `MemletType` (memlet.cpp:260-270 `type`). -/
inductive MKind where
  | comp
  | ref
  | derefSrc
  | derefDst
  deriving Repr, DecidableEq

/-- memlet.h `Memlet`: its kind, base type and subset.  The graph edge, connectors and debug info, which the passes
leave alone, are omitted. -/
structure Mlt where
  kind : MKind
  base : Ty
  subset : List Expr
  deriving Repr

/-- memlet_linearization.cpp:38-47, the loop collecting the array extents: the extents (without the leading `1`) and
the type below the arrays. -/
def arrayDims : Ty → List Expr × Ty
  | .array _ e n => (n :: (arrayDims e).1, (arrayDims e).2)
  | t => ([], t)

/-- memlet_linearization.cpp:66-71: the product of the extents behind dimension `i`.  `array_dimensions` is `1` followed
by the extents, and the loop starts at `i + 1`, so these are the extents from position `i`. -/
def linStride (dims : List Expr) (i : Nat) : Expr :=
  (dims.drop i).foldl (fun s d => .mul [s, d]) (.int 1)

/-- memlet_linearization.cpp:63-73: the linearised index. -/
def linIndex (dims subset : List Expr) : Expr :=
  subset.zipIdx.foldl (fun acc p => .add [acc, .mul [p.1, linStride dims p.2]]) (.int 0)

/-- memlet_linearization.cpp:23-79, the body of the loop over the edges. -/
def linearize (m : Mlt) : Mlt :=
  if m.subset = [] then m
  else
    match m.base with
    | .ptr a p =>
      match arrayDims p with
      | (dims, .scalar sa q) =>
        if dims = [] then m
        else { m with base := .ptr a (.scalar sa q), subset := [linIndex dims m.subset] }
      | _ => m
    | _ => m

/-- tensor_to_pointer_conversion.cpp:66-68: the sum over the dimensions of the shape from `i`; `at(i)` throws (null)
when the subset or the strides are shorter than the shape. -/
def tensorIndex : (shape subset strides : List Expr) → (acc : Expr) → Res Expr
  | [], _, _, acc => .ok acc
  | _ :: ns, i :: is, s :: ss, acc => tensorIndex ns is ss (.add [acc, .mul [i, s]])
  | _ :: _, _, _, _ => .null

/-- tensor_to_pointer_conversion.cpp:24-76, the body of the loop over the edges; `cont` is the type of the container
(or constant) at the access node of the memlet. -/
def tensorToPointer (cont : Ty) (m : Mlt) : Res Mlt :=
  match m.base with
  | .tensor _ ea t =>
    if cont.isScalar then .ok { m with base := cont.clone, subset := [] }
    else if m.subset = [] then .ok m
    else (tensorIndex t.shape m.subset t.strides t.offset).bind fun e =>
      .ok { m with base := .ptr {} (.scalar ea t.elem), subset := [e] }
  | _ => .ok m

/-- trivial_array_elimination.cpp:30-40: the depth of the first array level with extent `1` and the type below it
(`symbolic::eq` is structural equality). -/
def trivialDim : Ty → Option (Nat × Ty)
  | .array _ e n =>
    if n = .int 1 then some (0, e)
    else (trivialDim e).map fun r => (r.1 + 1, r.2)
  | _ => none

/-- The parts of a structured SDFG the pass sees: the container types, which containers are transient, and the memlets,
each with the container and direction (`true`: leaves the access node) of an access node it is attached to.  A memlet
between two access nodes is listed once for each. -/
structure MProg where
  types : String → Ty
  transient : String → Bool
  mems : List (String × Bool × Mlt)

/-- users.cpp:88-133: an access node with an out-edge of kind `Reference` or `Dereference_Dst` is a view, one with an
in-edge of kind `Reference` or `Dereference_Src` a move. -/
def MProg.movedOrViewed (P : MProg) (x : String) : Bool :=
  P.mems.any fun u => decide (u.1 = x) && (if u.2.1 then u.2.2.kind == .ref || u.2.2.kind == .derefDst
    else u.2.2.kind == .ref || u.2.2.kind == .derefSrc)

/-- trivial_array_elimination.cpp:62-65 and 76-79: `subset.erase(subset.begin() + depth)` is undefined behaviour when
the subset has no such position. -/
def dropDim (depth : Nat) (new : Ty) (m : Mlt) : Res Mlt :=
  if depth < m.subset.length then .ok { m with subset := m.subset.eraseIdx depth, base := new.clone } else .ub

/-- trivial_array_elimination.cpp:55-82, both loops over the access nodes. -/
def dropDims (x : String) (depth : Nat) (new : Ty) : List (String × Bool × Mlt) → Res (List (String × Bool × Mlt))
  | [] => .ok []
  | (y, d, m) :: r =>
    (if y = x then dropDim depth new m else .ok m).bind fun m' =>
      (dropDims x depth new r).bind fun r' => .ok ((y, d, m') :: r')

/-- trivial_array_elimination.cpp:22-85, the body of the loop over the containers. -/
def elimTrivial (P : MProg) (x : String) : Res MProg :=
  if !P.transient x then .ok P
  else if P.movedOrViewed x then .ok P
  else
    match trivialDim (P.types x) with
    | none => .ok P
    | some (depth, inner) =>
      (recombineArray (P.types x) depth inner).bind fun new =>
        (dropDims x depth new P.mems).bind fun ms =>
          .ok { P with types := fun y => if y = x then new.clone else P.types y, mems := ms }

/-- trivial_array_elimination.cpp:16-91 `run_pass` over the given container names. -/
def elimTrivials : List String → MProg → Res MProg
  | [], P => .ok P
  | x :: r, P => (elimTrivial P x).bind (elimTrivials r)

/-- memlet.cpp:69-113 `validate`, the checks on computational memlets with a tensor base type (`is_scalar`: no
dimensions). -/
def validTensor (cont : Ty) (m : Mlt) : Bool :=
  match m.base with
  | .tensor _ _ t =>
    if t.shape = [] then cont.isScalar
    else cont.isPtr && decide (m.subset.length ≤ t.shape.length) && decide (t.shape.length = t.strides.length)
  | _ => true

end Docc.Types
