import Verif.Types.Tensor

/-
The type system (sdfg/src/types/*.cpp) and type inference (sdfg/src/types/utils.cpp).
-/
namespace Docc.Types
open Docc.Sym

/-- type.h:63-170 `StorageType` (null expressions are `none`; the allocation enum is a Bool: managed?). -/
structure Storage where
  value : String := "CPU_Stack"
  allocSize : Option Expr := none
  allocManaged : Bool := false
  deallocManaged : Bool := false
  arg1 : Option Expr := none
  deriving Repr, DecidableEq, Inhabited

/-- type.h:527-545, the attributes every `IType` carries. -/
structure Attr where
  storage : Storage := {}
  alignment : Nat := 0
  initializer : String := ""
  deriving Repr, DecidableEq, Inhabited

/-- The `IType` class hierarchy: scalar.h, array.h, structure.h, pointer.h (with and without pointee),
function.h, codegen `Reference`, tensor.h (whose element type is a `Scalar` with its own attributes). -/
inductive Ty where
  | scalar (a : Attr) (p : Prim)
  | array (a : Attr) (elem : Ty) (n : Expr)
  | structure (a : Attr) (name : String)
  | opaquePtr (a : Attr)
  | ptr (a : Attr) (pointee : Ty)
  | function (a : Attr) (ret : Ty) (params : List Ty) (varArg : Bool)
  | reference (a : Attr) (t : Ty)
  | tensor (a : Attr) (elemAttr : Attr) (t : Tensor)
  deriving Repr, Inhabited

/-- Structural induction with hypotheses for parameters. -/
theorem Ty.induct {P : Ty → Prop} (hs : ∀ a p, P (.scalar a p)) (ha : ∀ a e n, P e → P (.array a e n))
    (hst : ∀ a n, P (.structure a n)) (ho : ∀ a, P (.opaquePtr a)) (hp : ∀ a t, P t → P (.ptr a t))
    (hf : ∀ a r ps v, P r → (∀ t ∈ ps, P t) → P (.function a r ps v)) (hr : ∀ a t, P t → P (.reference a t))
    (ht : ∀ a ea t, P (.tensor a ea t)) (t : Ty) : P t :=
  Ty.rec (motive_1 := P) (motive_2 := fun l => ∀ t ∈ l, P t) hs ha hst ho hp hf hr ht (by simp)
    (by
      intro h r ih1 ih2 t ht
      rcases List.mem_cons.1 ht with rfl | ht
      · exact ih1
      · exact ih2 t ht) t

mutual
/-- `operator==`: scalar.cpp:18-24, array.cpp:26-33, structure.cpp:24-30, pointer.cpp:41-54,
function.cpp:32-60, tensor.cpp:70-102.  Storage type, alignment and initializer are not compared.
Reference equality (codegen/utils.cpp:68-74) compares the referenced types and the alignment. -/
def Ty.eq : Ty → Ty → Bool
  | .scalar _ p, .scalar _ q => p == q
  | .array _ e n, .array _ f m => n == m && Ty.eq e f
  | .structure _ n, .structure _ m => n == m
  | .opaquePtr _, .opaquePtr _ => true
  | .ptr _ t, .ptr _ u => Ty.eq t u
  | .function _ r ps v, .function _ r' ps' v' => v == v' && (Ty.eq r r' && Ty.eqL ps ps')
  | .reference a t, .reference b u => Ty.eq t u && a.alignment == b.alignment
  | .tensor _ _ t, .tensor _ _ u => t.elem == u.elem && t.offset == u.offset && t.shape == u.shape && t.strides == u.strides
  | _, _ => false
/-- parameter lists: same length, pointwise equal (function.cpp:48-57) -/
def Ty.eqL : List Ty → List Ty → Bool
  | [], [] => true
  | a :: r, b :: s => Ty.eq a b && Ty.eqL r s
  | _, _ => false
end

mutual
/-- `clone()`: scalar.cpp:34-36, array.cpp:35-38, structure.cpp:32-34, pointer.cpp:21-28, function.cpp:62-69,
tensor.cpp:104-114. -/
def Ty.clone : Ty → Ty
  | .scalar a p => .scalar a p
  | .array a e n => .array a e.clone n
  | .structure a n => .structure a n
  | .opaquePtr a => .opaquePtr a
  | .ptr a t => .ptr a t.clone
  | .function a r ps v => .function a r.clone (Ty.cloneL ps) v
  | .reference a t => .reference a t.clone
  | .tensor a ea t => .tensor a ea { elem := t.elem, shape := t.shape, strides := t.strides, offset := t.offset }
/-- the `add_param` loop -/
def Ty.cloneL : List Ty → List Ty
  | [] => []
  | t :: r => t.clone :: Ty.cloneL r
end

/-- structure.h `StructureDefinition`: packedness and member types. -/
structure StructDef where
  packed : Bool
  members : List Ty
  deriving Repr, Inhabited

/-- a primitive scalar type -/
def Ty.isScalar : Ty → Bool
  | .scalar _ _ => true
  | _ => false

/-- structure.cpp:66-80 `is_vector`: at least one member, the first a scalar, all others equal to it. -/
def StructDef.isVector (d : StructDef) : Bool :=
  match d.members with
  | [] => false
  | m :: r => m.isScalar && r.all (fun t => t.eq m)

/-- structure table of a function; `structure(name)` throws when missing -/
abbrev Structs := String → Option StructDef

/-- utils.cpp:17-69 `infer_type_internal`.  null = exception.  `rcp_dynamic_cast<Integer>` of a non-constant member
index throws, as does `members_.at` out of range.  A tensor of rank 0 with a subset reads `shape().begin()+1` of
an empty vector: undefined behaviour.  `as_uint` of a negative index throws. -/
def inferInternal (S : Structs) : Ty → List Expr → Res Ty
  | t, [] => .ok t.clone
  | .scalar _ _, _ :: _ => .null
  | .array _ e _, _ :: r => inferInternal S e r
  | .structure _ name, i :: r =>
    match S name with
    | none => .null
    | some d =>
      if d.isVector then
        match d.members with
        | m :: _ => inferInternal S m r
        | [] => .null
      else
        match i with
        | .int (.ofNat k) =>
          match d.members[k]? with
          | some m => inferInternal S m r
          | none => .null
        | _ => .null
  | .tensor a ea t, _ :: r =>
    if t.shape.length = 1 then inferInternal S (.scalar ea t.elem) r
    else if t.shape = [] ∨ t.strides = [] then .ub
    else inferInternal S (.tensor a ea { t with shape := t.shape.drop 1, strides := t.strides.drop 1 }) r
  | .opaquePtr _, _ :: _ => .null
  | .ptr _ _, _ :: _ => .null
  | .function _ _ _ _, _ :: _ => .null
  | .reference _ _, _ :: _ => .null
termination_by _ s => s.length

/-- utils.cpp:71-90 `infer_type`: an outermost pointer is dereferenced by the first index. -/
def infer (S : Structs) (t : Ty) (s : List Expr) : Res Ty :=
  match s with
  | [] => .ok t.clone
  | _ :: r =>
    match t with
    | .opaquePtr _ => .null
    | .ptr _ p => inferInternal S p r
    | t => inferInternal S t s

/-- utils.cpp:92-110 `recombine_array_type`; null = thrown exception. -/
def recombineArray : Ty → Nat → Ty → Res Ty
  | _, 0, inner => .ok inner.clone
  | .array a e n, d + 1, inner => (recombineArray e d inner).bind fun e' => .ok (.array a e'.clone n)
  | _, _ + 1, _ => .null

/-- utils.h:62 `PEEL_TO_INNERMOST_ELEMENT_FOLLOW_ONLY_OUTER_PTR` -/
def followOnlyOuter : Int := -100

/-- utils.cpp:112-144 `peel_to_innermost_element(type, follow_ptr)`: `follow_ptr` pointers are followed (negative: all),
the sentinel `-100` means only an outermost pointer. -/
def peel : Ty → Int → Ty
  | .array _ e _, f => peel e (if f = followOnlyOuter then 0 else f)
  | .reference _ t, f => peel t (if f = followOnlyOuter then 0 else f)
  | .tensor _ ea t, _ => .scalar ea t.elem
  | .ptr a t, f =>
    if f ≠ 0 then peel t (if f ≠ followOnlyOuter then f - 1 else 0) else .ptr a t
  | t, _ => t

/-- utils.cpp:201-219 `peel_to_next_element` (`none`: nullptr). -/
def peelNext : Ty → Option Ty
  | .array _ e _ => some e
  | .reference _ t => some t
  | .tensor _ ea t => some (.scalar ea t.elem)
  | .ptr _ t => some t
  | .opaquePtr _ => none
  | t => some t

/-- `type_id() == Pointer` -/
def Ty.isPtr : Ty → Bool
  | .ptr _ _ => true
  | .opaquePtr _ => true
  | _ => false

/-- `type_id() == Structure`, with the name -/
def Ty.structName? : Ty → Option String
  | .structure _ n => some n
  | _ => none

/-- utils.cpp:231-255, the work list over nested structures; fuel bounds the loop (the visited set makes it finite).
`none`: a structure without definition (exception). -/
def structsContiguous (S : Structs) : Nat → List String → List String → Option Bool
  | 0, _, _ => none
  | _ + 1, [], _ => some true
  | fuel + 1, n :: work, visited =>
    if n ∈ visited then some false
    else match S n with
      | none => none
      | some d =>
        if d.members.any Ty.isPtr then some false
        else structsContiguous S fuel (work ++ d.members.filterMap Ty.structName?) (n :: visited)

/-- utils.cpp:221-257 `is_contiguous_type`. -/
def isContiguousType (S : Structs) (fuel : Nat) (base : Ty) : Option Bool :=
  let t := peel base followOnlyOuter
  if t.isPtr then some false
  else if !(t.eq (peel base (-1))) then some false
  else match t.structName? with
    | none => some true
    | some n => structsContiguous S fuel [n] []

/-- utils.cpp:152-199 `get_type_size`; `none` = null expression.  Structure sizes are the opaque function `sizeof`
(symbolic.cpp:132-138), named by the structure. -/
def typeSize (evalStructs : Bool) : Ty → Option Expr
  | .opaquePtr _ => some (.int 8)
  | .ptr _ _ => some (.int 8)
  | .reference _ _ => some (.int 8)
  | .function _ _ _ _ => some (.int 8)
  | .structure _ n => if evalStructs then some (.fn ("sizeof " ++ n) []) else none
  | .array _ e n =>
    match typeSize evalStructs e with
    | some s => some (.mul [s, n])
    | none => none
  | .tensor _ _ t =>
    if t.elem.sizeOf ≠ 0 then some (.mul [.int t.elem.sizeOf, totalElements t.shape]) else none
  | .scalar _ p => if p.sizeOf ≠ 0 then some (.int p.sizeOf) else none

end Docc.Types
