import Verif.IR.ArgsProps
import Verif.IR.Replace

/-
Offloading a map to a device (opt/src/transformations/offloading/offload_transform.cpp, cuda_transform.cpp).
-/
namespace Docc.IR
open Docc.Sym

/-- What the transformation asks the analyses about the map: arguments and locals, the context of the access ranges, the reported
assumptions at the map, and the types of the containers: `scalar`, `ptr` (pointers and arrays; a structure is neither,
arguments_analysis.cpp:49-68) and, for a pointer or array, the extents of the nested arrays.  (Types are inferred and contiguous,
offload_transform.cpp:30-51, with a known element size; all sizes of the model are in elements.) -/
structure OffCtx where
  args : ArgCtx
  rng : Ctx
  assm : Assums × Assums
  scalar : String → Bool
  ptr : String → Bool
  ext : String → List Expr
  pfx : String

/-- offload_transform.cpp:117-121, 157-160: the container on the device -/
def OffCtx.dev (O : OffCtx) (x : String) : String := O.pfx ++ x

/-- arguments_analysis.cpp:115-141: the upper bound of the first dimension of the accesses; none if the range is unknown and sizes may not
be dynamic. -/
def OffCtx.upper (O : OffCtx) (n : Node) (x : String) : Option Expr :=
  match n.range O.rng O.assm x with
  | .ok r => if r.undefined then none else match r.dims with
    | (_, some u) :: _ => some u
    | _ => none
  | _ => none

/-- arguments_analysis.cpp:139-170: the number of elements: the upper bound plus one, times the extents of the nested arrays. -/
def OffCtx.count (O : OffCtx) (E : Env) (σ : St) (x : String) (u : Expr) : Int :=
  ((O.ext x).map (σ.ev E)).foldl (· * ·) (σ.ev E u + 1)

/-- the offset of an element of nested arrays -/
def linOff : Int → List Int → List Int → Int
  | a, e :: es, j :: js => linOff (a * e + j) es js
  | a, _, _ => a

/-- cuda_transform.cpp:112-139, 170-197: the bytes from the start of the container up to the size are copied.  An index of the wrong rank does not occur in
a valid program.  (The model has no addresses; `x` without index stands for the pointer itself and counts as copied.) -/
def OffCtx.copied (O : OffCtx) (E : Env) (σ : St) (x : String) (u : Expr) : List Int → Bool
  | [] => true
  | i :: r => r.length == (O.ext x).length && decide (0 ≤ linOff i ((O.ext x).map (σ.ev E)) r) &&
      decide (linOff i ((O.ext x).map (σ.ev E)) r < O.count E σ x u)

/-- offload_transform.cpp:25-82 `can_be_applied`, without dynamic sizes -/
def OffCtx.canApply (O : OffCtx) : Node → Bool
  | .loop true i a c u s => a == .int 0 &&
    (Node.loop true i a c u s).users.all fun q => !O.args.isArg (.loop true i a c u s) q.2 ||
      ((!O.scalar q.2 || !((Node.loop true i a c u s).flags q.2).isOut) && (O.scalar q.2 || (O.upper (.loop true i a c u s) q.2).isSome))
  | _ => false

/-- offload_transform.cpp:154-164 `update_map_containers`: all pointer arguments `l` are renamed -/
def OffCtx.kernel (O : OffCtx) : Node → List String → Node
  | n, [] => n
  | n, x :: l => O.kernel (n.replace x (.sym (O.dev x))) l

/-- The memory of the device when the kernel starts (offload_transform.cpp:108-122; cuda_map_dispatcher.cpp passes the arguments that are no pointers by
value): the copies of the pointer arguments `l`, the values of the scalar arguments, and `junk` everywhere else. -/
def OffCtx.entry (O : OffCtx) (E : Env) (n : Node) (l : List String) (junk σ : St) : St := fun y =>
  match l.find? fun x => O.dev x == y with
  | some x => fun idx => match O.upper n x with
    | some u => if O.copied E σ x u idx then σ x idx else junk y idx
    | none => junk y idx
  | none => if O.args.isArg n y && O.scalar y then σ y else junk y

/-- The offloaded map (offload_transform.cpp:84-143 `apply`): the kernel runs on the memory of the device, then the containers flagged as outputs are copied
back. -/
def OffCtx.run (O : OffCtx) (E : Env) (n : Node) (l : List String) (junk : St) : Rel := fun σ c σ' =>
  ∃ κ, (O.kernel n l).den E (O.entry E n l junk σ) c κ ∧ σ' = fun x =>
    if l.contains x && (n.flags x).isOut then fun idx => match O.upper n x with
      | some u => if O.copied E σ x u idx then κ (O.dev x) idx else σ x idx
      | none => σ x idx
    else σ x

end Docc.IR
