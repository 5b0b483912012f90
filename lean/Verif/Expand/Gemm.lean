import Verif.Expand.Tensor
/-
The expansions of GEMMNode and MatMulNode
(sdfg/src/data_flow/library_nodes/math/blas/gemm_node.cpp, math/tensor/matmul_node.cpp).
-/
namespace Docc.Expand
open Docc.Sym Docc.IR Docc.Types

/-- A matrix as GEMM sees it: container, leading dimension and start. A reference (a pointer into the container, made by a reference memlet) is
modelled by a variable that holds the element offset; `none` is the start of the container. -/
structure Mat where
  data : String
  base : Option String
  ld : Expr
  deriving Repr, DecidableEq

/-- gemm_node.cpp:222, 226, 235: the element of a row and a column, `ld * row + column` -/
def Mat.at (X : Mat) (r c : Expr) : String × List Expr :=
  (X.data, [match X.base with | none => .add [.mul [X.ld, r], c] | some p => .add [.sym p, .add [.mul [X.ld, r], c]]])

/-- the containers the expansion creates: loop variables, accumulator and two temporaries -/
structure GVars where
  i : String
  j : String
  k : String
  sum : String
  t1 : String
  t2 : String

def GVars.all (v : GVars) : List String := [v.i, v.j, v.k, v.sum, v.t1, v.t2]

/-- blas_node.h: element order of the matrices -/
inductive Layout
  | rowMajor
  | colMajor
  deriving DecidableEq

/-- the operation: extents, operands, factors -/
structure Gemm where
  layout : Layout
  transA : Bool
  transB : Bool
  m : Expr
  n : Expr
  k : Expr
  a : Mat
  b : Mat
  cin : Mat
  cout : Mat
  alpha : String
  beta : String

/-- gemm_node.cpp:204-233: clear the accumulator, `sum = fma(A, B, sum)` over k, then scale and store -/
def gemmBody (G : Gemm) (v : GVars) : Seq :=
  point "assign" [("0.0", [])] (v.sum, []) ++
  (nest (point "fp_fma" [G.a.at (.sym v.i) (.sym v.k), G.b.at (.sym v.k) (.sym v.j), (v.sum, [])] (v.sum, [])) [(false, v.k, G.k)] ++
  Seq.one (.block [.tasklet "fp_mul" [(v.sum, []), (G.alpha, [])] v.t1 [], .tasklet "fp_mul" [G.cin.at (.sym v.i) (.sym v.j), (G.beta, [])] v.t2 [],
    .tasklet "fp_add" [(v.t1, []), (v.t2, [])] (G.cout.at (.sym v.i) (.sym v.j)).1 (G.cout.at (.sym v.i) (.sym v.j)).2]))

/-- gemm_node.cpp:97-331: transposed operands are refused; the layout is not looked at -/
def gemm (G : Gemm) (v : GVars) : Option Seq :=
  if G.transA || G.transB then none else some (nest (gemmBody G v) [(true, v.i, G.m), (true, v.j, G.n)])

/-! ### specification -/

/-- the position of an element of a matrix, in the given order (BLAS) -/
def Mat.pos (E : Env) (σ : St) (L : Layout) (X : Mat) (r c : Int) : List Int :=
  let b := match X.base with | none => 0 | some p => σ p []
  match L with
  | .rowMajor => [b + (σ.ev E X.ld * r + c)]
  | .colMajor => [b + (σ.ev E X.ld * c + r)]

/-- its value -/
def Mat.elem (E : Env) (σ : St) (L : Layout) (X : Mat) (r c : Int) : Int := σ X.data (X.pos E σ L r c)

/-- the inner product of a row of A and a column of B, accumulated from the left -/
def inner (E : Env) (σ : St) (G : Gemm) (i j : Int) : Int :=
  (List.range (σ.ev E G.k).toNat).foldl (fun acc (k : Nat) => E.op "fp_fma" [G.a.elem E σ G.layout i k, G.b.elem E σ G.layout k j, acc]) (σ "0.0" [])

/-- an element of the result: `alpha * (A * B) + beta * C` -/
def gemmSpec (E : Env) (σ : St) (G : Gemm) (i j : Int) : Int :=
  E.op "fp_add" [E.op "fp_mul" [inner E σ G i j, σ G.alpha []], E.op "fp_mul" [G.cin.elem E σ G.layout i j, σ G.beta []]]

/-- the symbols of a matrix -/
def Mat.syms (X : Mat) : List String := X.base.toList ++ X.ld.atoms

/-- fresh variables and operands that are not overwritten -/
structure GOk (E : Env) (σ : St) (G : Gemm) (v : GVars) : Prop where
  nodup : v.all.Nodup
  names : ∀ x ∈ [G.a.data, G.b.data, G.cin.data, G.cout.data, G.alpha, G.beta, "0.0"], x ∉ v.all
  other : ∀ x ∈ [G.a.data, G.b.data, G.alpha, G.beta, "0.0"], x ≠ G.cout.data
  cin : G.cin.data ≠ G.cout.data ∨ G.cin = G.cout
  syms : ∀ x ∈ G.m.atoms ++ G.n.atoms ++ G.k.atoms ++ G.a.syms ++ G.b.syms ++ G.cin.syms ++ G.cout.syms, x ∉ v.all ∧ x ≠ G.cout.data
  lds : ∀ X ∈ [G.a, G.b, G.cin, G.cout], σ.defd E X.ld

end Docc.Expand
