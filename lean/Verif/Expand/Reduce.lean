import Verif.Expand.Tensor
/-
The expansions of reductions over axes: ReduceNode (Sum, Max, Min) and MeanNode
(sdfg/src/data_flow/library_nodes/math/tensor/reduce_node.cpp, reduce_ops/{sum,max,min,mean}_node.cpp).
-/
namespace Docc.Expand
open Docc.Sym Docc.IR Docc.Types

/-- reduce_node.cpp:150-161 (and :50-61 in validate, mean_node.cpp:45-56): negative axes count from the end; out of bounds throws (`none`) -/
def normAxis (rank : Nat) (a : Int) : Option Nat :=
  let b := if a < 0 then (rank : Int) + a else a
  if b < 0 ∨ b ≥ rank then none else some b.toNat

/-- all axes -/
def normAxes (rank : Nat) (axes : List Int) : Option (List Nat) := axes.mapM (normAxis rank)

/-- which dimensions are reduced (reduce_node.cpp:165-171, 239-245, 297-303) -/
def maskOf (rank : Nat) (ax : List Nat) : List Bool := (List.range rank).map fun i => ax.contains i

/-- the entries of the dimensions that are (not) reduced -/
def pick (b : Bool) {α : Type} : List Bool → List α → List α
  | m :: ms, a :: as => if m = b then a :: pick b ms as else pick b ms as
  | _, _ => []

/-- reduce_node.cpp:164-181: the output's shape, with `z` (one) in the reduced dimensions or without them -/
def outShape {α : Type} (keep : Bool) (z : α) : List Bool → List α → List α
  | m :: ms, e :: es => if m then (if keep then z :: outShape keep z ms es else outShape keep z ms es) else e :: outShape keep z ms es
  | _, _ => []

/-- reduce_node.cpp:293-295, the input's index: the loop variables of both groups in the order of the dimensions -/
def merge {α : Type} : List Bool → List α → List α → List α
  | false :: m, o :: os, ks => o :: merge m os ks
  | true :: m, os, k :: ks => k :: merge m os ks
  | _, _, _ => []

/-- reduce_node.cpp:296-313, the output's index: `z` (zero) in the reduced dimensions or without them -/
def outIx {α : Type} (keep : Bool) (z : α) : List Bool → List α → List α
  | false :: m, o :: os => o :: outIx keep z m os
  | true :: m, os => if keep then z :: outIx keep z m os else outIx keep z m os
  | _, _ => []

/-- The loop variables `find_new_name` returned: `_i_init`, `_i` and `_k`. -/
structure RVars where
  is : List String
  os : List String
  ks : List String

/-- all of them -/
def RVars.all (v : RVars) : List String := v.is ++ (v.os ++ v.ks)

/-- reduce_node.cpp:187-229: every element of the output is set to the identity, a constant of that text -/
def initNest (ident : String) (y : Opd) (keep : Bool) (mask : List Bool) (shape : List Expr) (is : List String) : Seq :=
  nest (point "assign" [(ident, [])] (y.ref (syms is))) (dims true is (outShape keep (.int 1) mask shape))

/-- reduce_node.cpp:231-326 with sum_node.cpp:20-49, max_node.cpp:23-61, min_node.cpp:24-62: Maps over the kept dimensions, in them Fors over the
reduced dimensions, inside `Y[o] = op(X[i], Y[o])` -/
def redNest (op : String) (x y : Opd) (keep : Bool) (mask : List Bool) (shape : List Expr) (os ks : List String) : Seq :=
  nest (point op [x.ref (merge mask (syms os) (syms ks)), y.ref (outIx keep (.int 0) mask (syms os))] (y.ref (outIx keep (.int 0) mask (syms os))))
    (dims true os (pick false mask shape) ++ dims false ks (pick true mask shape))

/-- reduce_node.cpp:120-340; out-of-bounds axes throw -/
def reduce (op ident : String) (x y : Opd) (keep : Bool) (shape : List Expr) (axes : List Int) (v : RVars) : Option Seq :=
  (normAxes shape.length axes).map fun ax =>
    initNest ident y keep (maskOf shape.length ax) shape v.is ++ redNest op x y keep (maskOf shape.length ax) shape v.os v.ks

/-- mean_node.cpp:100-107: the number of elements, the product of the extents along the *given* axes -/
def countExpr (shape : List Expr) (ax : List Nat) : Expr := ax.foldl (fun t a => .mul [t, shape.getD a (.int 0)]) (.int 1)

/-- mean_node.cpp:23-141 with the expansions of the SumNode and the DivNode it creates: sum into the output, count on a transition, division in place -/
def mean (add div ident : String) (x y : Opd) (keep : Bool) (shape : List Expr) (axes : List Int) (v : RVars) (count : String) (ds : List String) (trans : Trans) :
    Option Seq :=
  (normAxes shape.length axes).bind fun ax => (reduce add ident x y keep shape axes v).map fun e =>
    .cons (.seq e) [] (.cons (.block []) [(count, countExpr shape ax)] (.cons
      (.seq (elementwise div [y, ⟨count, .ofShape y.ty.elem []⟩] y (outShape keep (.int 1) (maskOf shape.length ax) shape) ds)) trans .nil))

/-- reduce_node.cpp:30-94, validation: the input has the node's shape, the output the reduced shape (`symbolic::eq` as syntactic equality) -/
def reduceValid (x y : Opd) (keep : Bool) (shape : List Expr) (axes : List Int) : Bool :=
  x.ty.shape = shape && (match normAxes shape.length axes with
    | none => false
    | some ax => y.ty.shape = outShape keep (.int 1) (maskOf shape.length ax) shape)

/-! ### specification -/

/-- the reduced dimensions, from the axes as given: `i` and `i - rank` name dimension `i` -/
def axisMask (rank : Nat) (axes : List Int) : List Bool := (List.range rank).map fun (i : Nat) => decide ((i : Int) ∈ axes ∨ (i : Int) - rank ∈ axes)

/-- the indices that are reduced to the element with the kept coordinates `o`, in lexicographic order -/
def fibre (mask : List Bool) (ns o : List Int) : List (List Int) := (box ns).filter fun i => pick false mask i = o

end Docc.Expand
