import Verif.Expand.Gemm
/-
The expansion of MatMulNode (sdfg/src/data_flow/library_nodes/math/tensor/matmul_node.cpp).
-/
namespace Docc.Expand
open Docc.Sym Docc.IR Docc.Types

/-- matmul_node.h: shapes, strides and offsets of the two inputs; the containers of the block -/
structure MatMul where
  shapeA : List Expr
  shapeB : List Expr
  stridesA : List Expr
  stridesB : List Expr
  offA : Expr
  offB : Expr
  a : String
  b : String
  y : String
  /-- the type of the output's memlet (not looked at) -/
  tyY : Tensor

/-- the names `find_new_name` returned -/
structure MMVars where
  copyA : String
  ciA : List String
  copyB : String
  ciB : List String
  batch : List String
  refA : String
  refB : String
  refC : String
  g : GVars

/-- matmul_node.cpp:208-218: some stride is not the one of the row-major layout. `symbolic::eq` is modelled as syntactic equality. -/
def isView (shape strides : List Expr) : Bool := (strides.zip (stridesFromShape shape)).any fun p => decide (p.1 ≠ p.2)

/-- matmul_node.cpp:197-277: copy a view into a new row-major buffer. The allocation of the buffer and its release (:279-292) are not modelled: the
buffer is a container of its own. -/
def copyIfView (p : Prim) (name copy : String) (ci : List String) (shape strides : List Expr) (off : Expr) : Seq × String :=
  if isView shape strides then
    (nest (point "assign" [(Opd.mk name ⟨p, shape, strides, off⟩).ref (syms ci)] ((Opd.mk copy (.ofShape p shape)).ref (syms ci))) (dims true ci shape), copy)
  else (.nil, name)

/-- matmul_node.cpp:375-389: extent of a batch loop: of A if it has the dimension, else of B -/
def batchBound (M : MatMul) (i : Nat) : Expr :=
  let da := M.shapeA.length - 2
  let db := M.shapeB.length - 2
  let mx := max da db
  if da ≥ mx - i then M.shapeA.getD (i - (mx - da)) (.int 0) else M.shapeB.getD (i - (mx - db)) (.int 0)

/-- matmul_node.cpp:410-422: `offset + sum_i b_i * stride_i`; the strides are those of the copy by then (:347, 350) -/
def batchOffset (batch : List String) (mx : Nat) (shape : List Expr) (off : Expr) : Expr :=
  let d := shape.length - 2
  (List.range d).foldl (fun acc i => .add [acc, .mul [.sym (batch.getD (mx - d + i) ""), (stridesFromShape shape).getD i (.int 0)]]) off

/-- matmul_node.cpp:425-440 -/
def batchOffsetC (M : MatMul) (batch : List String) (m n : Expr) : Expr :=
  let da := M.shapeA.length - 2
  let db := M.shapeB.length - 2
  (List.range batch.length).foldl (fun acc i => .add [acc, .mul [.sym (batch.getD i ""),
    (List.range' (i + 1) (batch.length - (i + 1))).foldl (fun st j =>
      if j < da then .mul [st, M.shapeA.getD j (.int 0)] else if j - da < db then .mul [st, M.shapeB.getD (j - da) (.int 0)] else st) (.mul [m, n])]]) (.int 0)

/-- matmul_node.h: extents of the product -/
def MatMul.m (M : MatMul) : Expr := M.shapeA.getD (M.shapeA.length - 2) (.int 0)
def MatMul.n (M : MatMul) : Expr := M.shapeB.getD (M.shapeB.length - 1) (.int 0)
def MatMul.k (M : MatMul) : Expr := M.shapeA.getD (M.shapeA.length - 1) (.int 0)

/-- matmul_node.cpp:464-519: the GEMM node, over the references -/
def MatMul.gemm (M : MatMul) (V : MMVars) (na nb : String) : Gemm where
  layout := .rowMajor
  transA := false
  transB := false
  m := M.m
  n := M.n
  k := M.k
  a := ⟨na, some V.refA, (stridesFromShape M.shapeA).getD (M.shapeA.length - 2) (.int 0)⟩
  b := ⟨nb, some V.refB, (stridesFromShape M.shapeB).getD (M.shapeB.length - 2) (.int 0)⟩
  cin := ⟨M.y, some V.refC, M.n⟩
  cout := ⟨M.y, some V.refC, M.n⟩
  alpha := "1.0"
  beta := "0.0"

/-- matmul_node.cpp:294-547: copy the inputs that are views; one block that makes the references to the operands (a variable with the element offset
each, assigned on the transition); then the batch loops; in the innermost, the GEMM node, expanded as by `gemm`. -/
def matmul (p : Prim) (M : MatMul) (V : MMVars) : Option Seq :=
  let ca := copyIfView p M.a V.copyA V.ciA M.shapeA M.stridesA M.offA
  let cb := copyIfView p M.b V.copyB V.ciB M.shapeB M.stridesB M.offB
  let mx := max (M.shapeA.length - 2) (M.shapeB.length - 2)
  (gemm (M.gemm V ca.2 cb.2) V.g).map fun g => ca.1 ++ (cb.1 ++
    Seq.cons (.block []) [(V.refA, batchOffset V.batch mx M.shapeA M.offA), (V.refB, batchOffset V.batch mx M.shapeB M.offB),
      (V.refC, batchOffsetC M V.batch M.m M.n)]
    (nest g ((List.range mx).map fun i => (true, V.batch.getD i "", batchBound M i))))

/-! ### specification -/

/-- the inputs as tensors -/
def MatMul.opdA (p : Prim) (M : MatMul) : Opd := ⟨M.a, ⟨p, M.shapeA, M.stridesA, M.offA⟩⟩
def MatMul.opdB (p : Prim) (M : MatMul) : Opd := ⟨M.b, ⟨p, M.shapeB, M.stridesB, M.offB⟩⟩

/-- the containers of the expansion -/
def MMVars.all (V : MMVars) : List String := V.copyA :: V.copyB :: V.refA :: V.refB :: V.refC :: (V.ciA ++ V.ciB ++ V.g.all ++ V.batch)

/-- fresh containers, distinct operands, values for all extents, strides and offsets -/
structure MMOk (E : Env) (σ : St) (M : MatMul) (V : MMVars) : Prop where
  nodup : V.all.Nodup
  ciA : V.ciA.length = M.shapeA.length
  ciB : V.ciB.length = M.shapeB.length
  batch : V.batch.length = max (M.shapeA.length - 2) (M.shapeB.length - 2)
  names : ∀ x ∈ [M.a, M.b, M.y, "0.0", "1.0"], x ∉ V.all
  out : ∀ x ∈ [M.a, M.b, "0.0", "1.0"], x ≠ M.y
  exprs : ∀ e ∈ M.shapeA ++ M.shapeB ++ M.stridesA ++ M.stridesB ++ [M.offA, M.offB], σ.defd E e ∧ ∀ x ∈ e.atoms, x ∉ V.all ∧ x ≠ M.y

end Docc.Expand
