import Verif.Sym.Extreme
import Verif.Types.Primitive

/-
Tensor types (sdfg/src/types/tensor.cpp).
-/
namespace Docc.Types
open Docc.Sym

/-- tensor.h `Tensor`: element type, shape, strides and offset.  Storage type, alignment and initializer are
passed through unchanged by every operation and are omitted here. -/
structure Tensor where
  elem : Prim
  shape : List Expr
  strides : List Expr
  offset : Expr
  deriving Repr, DecidableEq

/-- tensor.cpp:8-18 `strides_from_shape`: `strides[n-1] = 1`, `strides[i-1] = strides[i] * shape[i]`.
Recursion over the shape: the stride of the first axis is the stride of the second times the second extent. -/
def stridesFromShape : List Expr → List Expr
  | [] => []
  | [_] => [.int 1]
  | _ :: n :: r =>
    match stridesFromShape (n :: r) with
    | s :: ss => .mul [s, n] :: s :: ss
    | [] => []

/-- tensor.cpp:20-22, the constructor from element type and shape. -/
def Tensor.ofShape (p : Prim) (shape : List Expr) : Tensor :=
  { elem := p, shape := shape, strides := stridesFromShape shape, offset := .int 0 }

/-- tensor.cpp:58-64 `total_elements` (and the loop of `reshape`, :253-257). -/
def totalElements (shape : List Expr) : Expr := shape.foldl (fun t d => .mul [t, d]) (.int 1)

/-- tensor.cpp:140-160 `newaxis` (= `unsqueeze`, :189); null stands for the thrown `out_of_range`. -/
def Tensor.newaxis (t : Tensor) (axis : Nat) : Res Tensor :=
  if t.shape.length < axis then .null
  else .ok { t with shape := t.shape.insertIdx axis (.int 1), strides := t.strides.insertIdx axis (.int 0) }

/-- tensor.cpp:162-187 `flip`.  `sub(a,1)` is written `a + (-1)`, `neg(a)` as `(-1)*a`. -/
def Tensor.flip (t : Tensor) (axis : Nat) : Res Tensor :=
  match t.shape[axis]? with
  | none => .null
  | some n =>
    match t.strides[axis]? with
    | none => .ub
    | some s =>
      .ok { t with strides := t.strides.set axis (.mul [.int (-1), s])
                   offset := .add [t.offset, .mul [s, .add [n, .int (-1)]]] }

/-- tensor.cpp:191-219 `squeeze(axis)`; null stands for the thrown exceptions. -/
def Tensor.squeeze (t : Tensor) (axis : Nat) : Res Tensor :=
  match t.shape[axis]? with
  | none => .null
  | some n =>
    if n = .int 1 then
      if axis < t.strides.length then
        .ok { t with shape := t.shape.eraseIdx axis, strides := t.strides.eraseIdx axis }
      else .ub
    else .null

/-- keep the axes whose extent is not the literal 1 (tensor.cpp:225-236) -/
def squeezeAxes : List Expr → List Expr → List Expr × List Expr
  | n :: ns, s :: ss =>
    let r := squeezeAxes ns ss
    if n = .int 1 then r else (n :: r.1, s :: r.2)
  | _, _ => ([], [])

/-- tensor.cpp:221-247 `squeeze()`; `strides_.at(i)` throws when strides are missing. -/
def Tensor.squeezeAll (t : Tensor) : Res Tensor :=
  if t.shape.length ≤ t.strides.length then
    .ok { t with shape := (squeezeAxes t.shape t.strides).1, strides := (squeezeAxes t.shape t.strides).2 }
  else .null

/-- tensor.cpp:249-276 `reshape`.  `eqv` is the equality test `symbolic::eq` on the two canonicalised products
(value preserving: see `reshape` theorems); null stands for the thrown `invalid_argument`. -/
def Tensor.reshape (eqv : Expr → Expr → Bool) (t : Tensor) (newShape : List Expr) : Res Tensor :=
  if eqv (totalElements t.shape) (totalElements newShape) then
    .ok { t with shape := newShape, strides := stridesFromShape newShape }
  else .null

end Docc.Types
