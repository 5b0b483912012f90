import Verif.Expand.Nest
/-
The expansions of elementwise tensor nodes, TransposeNode, FillNode and BroadcastNode into loop nests
(sdfg/src/data_flow/library_nodes/math/tensor/{elementwise_node,transpose_node,broadcast_node}.cpp, elementwise_ops/*.cpp).
-/
namespace Docc.Expand
open Docc.Sym Docc.IR Docc.Types

/-- passes/dataflow/tensor_to_pointer_conversion.cpp:60-63: `offset + sum_i subset_i * stride_i` -/
def linExpr : Expr → List Expr → List Expr → Expr
  | acc, i :: is, s :: ss => linExpr (.add [acc, .mul [i, s]]) is ss
  | acc, _, _ => acc

/-- tensor_to_pointer_conversion.cpp:44-70: the subset a tensor memlet is lowered to; tensors of rank 0 are scalars -/
def sub (T : Tensor) (ix : List Expr) : List Expr := if T.shape = [] then [] else [linExpr T.offset ix T.strides]

/-- an access node connected to a tensor node, with the tensor type of the memlet; constants are containers named by their text -/
structure Opd where
  data : String
  ty : Tensor
  deriving Repr, DecidableEq

/-- the memlet of an operand at an index -/
def Opd.ref (o : Opd) (ix : List Expr) : String × List Expr := (o.data, sub o.ty ix)

/-- loop variables as expressions -/
def syms (vs : List String) : List Expr := vs.map .sym

/-- the levels of a nest over a shape -/
def dims (m : Bool) (vs : List String) (shape : List Expr) : List Dim := (vs.zip shape).map fun p => (m, p.1, p.2)

/-- a block with one tasklet -/
def point (op : String) (ins : List (String × List Expr)) (out : String × List Expr) : Seq := Seq.one (.block [.tasklet op ins out.1 out.2])

/-- elementwise_node.cpp:83-168, 238-335, elementwise_ops/tasklet_node.cpp:150-260, fill_node.cpp:50-130 and the `expand_operation`s that
consist of one tasklet (add, sub, mul, div, minimum, maximum, ...): one Map per dimension, every operand is accessed at the loop variables
(scalars without index). `vs` are the names `find_new_name` returned. -/
def elementwise (op : String) (ins : List Opd) (out : Opd) (shape : List Expr) (vs : List String) : Seq :=
  nest (point op (ins.map (·.ref (syms vs))) (out.ref (syms vs))) (dims true vs shape)

/-- transpose_node.cpp:29-38: the default permutation reverses the dimensions -/
def permOf (shape : List Expr) (perm : List Nat) : List Nat := if perm = [] then (List.range shape.length).reverse else perm

/-- transpose_node.cpp:97-185; an entry of the permutation beyond the rank is undefined behaviour (`none`) -/
def transpose (x y : Opd) (shape : List Expr) (perm : List Nat) (vs : List String) : Option Seq :=
  ((permOf shape perm).mapM fun p => (syms vs)[p]?).map fun oix =>
    nest (point "assign" [x.ref (syms vs)] (y.ref oix)) (dims true vs shape)

/-- transpose_node.cpp:29-38, 42-77, what construction and validation check: the ranks, the input's shape, and that the output's shape is the
permuted shape (`symbolic::eq` as syntactic equality; `shape_.at` throws out of range) -/
def transposeValid (x y : Opd) (shape : List Expr) (perm : List Nat) : Bool :=
  (perm = [] || perm.length = shape.length) && x.ty.shape = shape && (permOf shape perm).mapM (fun p => shape[p]?) = some y.ty.shape

/-- broadcast_node.cpp:158-169: index 0 in dimensions of extent (syntactically) 1, the loop variable otherwise; `loop_vars[i]` beyond the
output rank is undefined behaviour -/
def broadcastIx : List Expr → List Expr → Option (List Expr)
  | [], _ => some []
  | e :: r, [] => if e = .int 1 then (broadcastIx r []).map (.int 0 :: ·) else none
  | e :: r, v :: vs => (broadcastIx r vs).map ((if e = .int 1 then .int 0 else v) :: ·)

/-- broadcast_node.cpp:97-188; without output dimensions a null pointer is dereferenced -/
def broadcast (x y : Opd) (inShape outShape : List Expr) (vs : List String) : Option Seq :=
  if outShape = [] then none
  else (if x.ty.shape = [] then some [] else broadcastIx inShape (syms vs)).map fun iix =>
    nest (point "assign" [x.ref iix] (y.ref (syms vs))) (dims true vs outShape)

/-- The block of the tensor node in its sequence: the computations of other nodes in the same block, and the transition after the block. -/
structure Site where
  others : List Stmt
  trans : Trans

/-- elementwise_node.cpp:113, 165, transpose_node.cpp:125, 182, reduce_node.cpp:181, 340: a new sequence with the transition's assignments
replaces the whole block -/
def Site.put (site : Site) (e : Seq) : Seq := .cons (.seq e) site.trans .nil

/-- broadcast_node.cpp:124-134, 186-187: the nest is added without assignments, block and transition are removed -/
def Site.putBroadcast (_ : Site) (e : Seq) : Seq := e

/-! ### specification -/

/-- the element of a tensor at an index: container position in terms of the strides and the offset -/
def elemAddr (E : Env) (σ : St) (T : Tensor) (ix : List Int) : List Int :=
  if T.shape = [] then [] else [addr (T.strides.map (σ.ev E)) (σ.ev E T.offset) ix]

/-- the value of that element -/
def Opd.elem (E : Env) (σ : St) (o : Opd) (ix : List Int) : Int := σ o.data (elemAddr E σ o.ty ix)

/-- the symbols of a tensor type -/
def tySyms (T : Tensor) : List String := Expr.atomsL T.strides ++ T.offset.atoms

/-- strides and offset have values -/
def Concrete (E : Env) (σ : St) (T : Tensor) : Prop := (∀ e ∈ T.strides, σ.defd E e) ∧ σ.defd E T.offset

/-- different elements have different positions -/
def Injective (E : Env) (σ : St) (T : Tensor) (ns : List Int) : Prop :=
  ∀ a b, InRange ns a → InRange ns b → elemAddr E σ T a = elemAddr E σ T b → a = b

/-- an input that is not overwritten before it is read: another container, or the output itself with the same layout -/
def Apart (E : Env) (σ : St) (o out : Opd) : Prop :=
  o.data ≠ out.data ∨ ∀ ix, elemAddr E σ o.ty ix = elemAddr E σ out.ty ix

/-- fresh loop variables, one per dimension -/
structure FreshVars (vs : List String) (Y : String) (shape : List Expr) : Prop where
  nodup : vs.Nodup
  rank : vs.length = shape.length
  out : Y ∉ vs
  shape : ∀ e ∈ shape, ∀ x ∈ e.atoms, x ∉ vs ∧ x ≠ Y

/-- what an operand needs -/
structure OpdOk (E : Env) (σ : St) (vs : List String) (Y : String) (o : Opd) : Prop where
  conc : Concrete E σ o.ty
  fresh : ∀ x ∈ tySyms o.ty, x ∉ vs ∧ x ≠ Y
  data : o.data ∉ vs

end Docc.Expand
