import Verif.Types.RefProp

/-
TypeAnalysis: the type of what an opaque pointer points to, from its uses (sdfg/src/analysis/type_analysis.cpp).

The access nodes of the container in the scope are given by the users (analysis/users.cpp:89-135).  Not modelled: a second run on the same object, which keeps
the old entries of the map.
-/
namespace Docc.Types
open Docc.Sym

/-- structure.cpp:35 `is_pointer_like` -/
def pointerLike (name : String) : Bool := "std::shared_ptr".toList.isPrefixOf name.toList

/-- type_analysis.cpp:45-55 (94-104, 144-154, 195-204): pointers without pointee and structures say nothing -/
def sayingBase : Ty → Option Ty
  | .opaquePtr _ => none
  | .structure _ _ => none
  | t => some t

/-- type_analysis.cpp:57-73 (106-122, 156-172, 206-222): below a dereferenced pointer -/
def derefBase : Ty → Option Ty
  | .ptr _ (.opaquePtr _) => none
  | .ptr _ p => some p
  | t => some t

/-- type_analysis.cpp:43-73, 193-222: the type a memlet into the access node contributes -/
def typeIn (m : Mlt) : Option Ty := (sayingBase m.base).bind fun t => if m.kind = .derefSrc then derefBase t else some t

/-- type_analysis.cpp:92-122, 142-172: the type a memlet out of the access node contributes -/
def typeOut (m : Mlt) : Option Ty := (sayingBase m.base).bind fun t => if m.kind = .derefDst then derefBase t else some t

/-- users.cpp:92-101: a node with memlets into it is a move if one of them sets the pointer, else a write -/
def RNode.isMove (N : RNode) : Bool := N.ins.any fun m => m.kind == .ref || m.kind == .derefSrc

/-- users.cpp:114-123: a node with memlets out of it is a view if one of them makes an alias, else a read -/
def RNode.isView (N : RNode) : Bool := N.outs.any fun m => m.kind == .ref || m.kind == .derefDst

/-- type_analysis.cpp:36-240: what is tried to be inserted for the container `c`, in order: writes, reads, views, moves -/
def contributions (c : String) (ns : List RNode) : List Ty :=
  let l := ns.filter (·.data = c)
  (l.filter (!·.isMove)).flatMap (·.ins.filterMap typeIn) ++ (l.filter (!·.isView)).flatMap (·.outs.filterMap typeOut) ++
    (l.filter (·.isView)).flatMap (·.outs.filterMap typeOut) ++ (l.filter (·.isMove)).flatMap (·.ins.filterMap typeIn)

/-- type_analysis.cpp:75-90: only if no equal type is there -/
def insertTy (l : List Ty) (t : Ty) : List Ty := if l.any (·.eq t) then l else l ++ [t]

/-- type_analysis.cpp:255-278 `get_outer_type` of a container with declared type `d` after the analysis of a scope with the access nodes `ns` -/
def outerType (d : Ty) (c : String) (ns : List RNode) : Option Ty :=
  let found := match (contributions c ns).foldl insertTy [] with
    | [t] => some t
    | _ => none
  match d with
  | .opaquePtr _ => found
  | .structure _ n => if pointerLike n then found else some d
  | _ => some d

/-! Specification: the type of the container from the point of view of one memlet -/

/-- `c[…] = x` and `*c = x` use the container at their base type; `c = *p` makes it what `p` points to; `c = &p[…]` makes it a pointer to that element -/
def seenIn (S : Structs) (m : Mlt) : Option Ty :=
  match m.kind with
  | .comp => sayingBase m.base
  | .derefDst => sayingBase m.base
  | .derefSrc =>
    match m.base with
    | .ptr _ p => sayingBase p
    | _ => none
  | .ref =>
    match infer S m.base m.subset with
    | .ok t => some (.ptr default t)
    | _ => none

/-- `x = c[…]`, `x = *c` and `x = &c[…]` use the container at their base type; `*p = c` puts it where `p` points to -/
def seenOut (m : Mlt) : Option Ty :=
  match m.kind with
  | .comp => sayingBase m.base
  | .derefSrc => sayingBase m.base
  | .ref => sayingBase m.base
  | .derefDst =>
    match m.base with
    | .ptr _ p => sayingBase p
    | _ => none

/-- the container is used at type `t` -/
def UsedAt (S : Structs) (c : String) (ns : List RNode) (t : Ty) : Prop :=
  ∃ N ∈ ns, N.data = c ∧ ((∃ m ∈ N.ins, seenIn S m = some t) ∨ ∃ m ∈ N.outs, seenOut m = some t)

/-- dereferencing memlets have a typed pointer as base (memlet.cpp:199-206, 253-260), and it does not point to structures; references are to elements of pointers -/
def Mlt.plainIn (m : Mlt) : Prop :=
  match m.kind with
  | .derefSrc => ∃ a p, m.base = .ptr a p ∧ ∀ b n, p ≠ .structure b n
  | .ref => ∃ a p i, m.base = .ptr a p ∧ m.subset = [i]
  | _ => True

/-- for memlets out of the container -/
def Mlt.plainOut (m : Mlt) : Prop :=
  match m.kind with
  | .derefDst => ∃ a p, m.base = .ptr a p ∧ ∀ b n, p ≠ .structure b n
  | _ => True

end Docc.Types
