import Verif.Types.Ty
import Verif.Sym.Extreme
import Verif.Util.AList

/-
The container table of a function (sdfg/src/builder/function_builder.cpp, sdfg/src/function.cpp) and the assumptions created for
its symbols (sdfg/src/symbolic/assumptions.cpp).
-/
namespace Docc.Builder
open Docc.Types Docc.Sym

/-- function.h:41 -/
inductive Linkage where
  | external
  | internal
  deriving Repr, DecidableEq, Inhabited

/-- the members of `Function` (function.h:52-70) the container calls touch -/
structure Fn where
  conts : AList String Ty := []
  args : List String := []
  exts : List String := []
  link : AList String Linkage := []
  assum : AList String Assum := []
  deriving Inhabited

/-- A call that returned (`ok`) or threw, and the function afterwards. -/
structure Out where
  ok : Bool
  fn : Fn
  deriving Inhabited

/-- function_builder.cpp:6-54 `check_name`: the characters that are rejected -/
def illegal : List Char :=
  ['.', ' ', '(', ')', '[', ']', '*', '&', '!', '~', '`', '"', '\'', ';', ':', ',', '=', '+', '-', '/', '%', '^', '|']

/-- function_builder.cpp:6-54 -/
def checkName (n : String) : Bool := n.toList.all fun c => !illegal.contains c

/-- symbolic.cpp:18-28: names for which `symbolic::symbol` throws -/
def reserved (n : String) : Bool := n == "null" || n == "NULL" || n == "nullptr"

/-- `is_symbol`: scalar.cpp:13, pointer.cpp:37, array.cpp:20, structure.cpp:15, function.cpp:16, tensor.cpp:48;
codegen `Reference` is not a symbol. -/
def _root_.Docc.Types.Ty.isSymbol : Ty → Bool
  | .scalar _ p => p.isInteger
  | .ptr _ _ | .opaquePtr _ => true
  | _ => false

/-- type_id() == Tensor -/
def _root_.Docc.Types.Ty.isTensor : Ty → Bool
  | .tensor .. => true
  | _ => false

/-- an `Assumption` with these two bounds in the sets and the deprecated fields -/
def range (lo hi : Expr) : Assum := { lower := lo, upper := hi, lowers := [lo], uppers := [hi] }

/-- assumptions.cpp:118-216 `Assumption::create`; `none` is the thrown `Unsupported type`. -/
def createAssum : Ty → Option Assum
  | .scalar _ p =>
    match p with
    | .bool => some (range (.int 0) (.int 1))
    | .uint8 => some (range (.int 0) (.int 255))
    | .uint16 => some (range (.int 0) (.int 65535))
    | .uint32 => some (range (.int 0) (.int 4294967295))
    | .uint64 => some (range (.int 0) (.inf true))
    | .uint128 => some (range (.int 0) (.inf true))
    | .int8 => some (range (.int (-128)) (.int 127))
    | .int16 => some (range (.int (-32768)) (.int 32767))
    | .int32 => some (range (.int (-2147483648)) (.int 2147483647))
    | .int64 => some (range (.int (-9223372036854775808)) (.int 9223372036854775807))
    | .int128 => some (range (.inf false) (.inf true))
    | _ => none
  | .ptr _ _ | .opaquePtr _ => some (range (.int 0) (.inf true))
  | _ => none

/-- function_builder.cpp:64-97 `add_container`.  The reserved names are only detected when the symbol is built for the assumption,
after the container has been inserted. -/
def addContainer (f : Fn) (n : String) (t : Ty) (isArg isExt : Bool) : Out :=
  if t.isTensor then ⟨false, f⟩
  else if isArg && isExt then ⟨false, f⟩
  else if !checkName n then ⟨false, f⟩
  else if (f.conts.get n).isSome then ⟨false, f⟩
  else
    let f1 := { f with conts := f.conts.set n t.clone }
    let f2 := if isArg then { f1 with args := f1.args ++ [n] } else f1
    let f3 := if isExt then { f2 with exts := f2.exts ++ [n], link := f2.link.set n .external } else f2
    if t.isSymbol then
      if reserved n then ⟨false, f3⟩
      else match createAssum t with
        | none => ⟨false, f3⟩
        | some a => ⟨true, { f3 with assum := f3.assum.emplace n a }⟩
    else ⟨true, f3⟩

/-- function_builder.cpp:99-112 `add_external` -/
def addExternal (f : Fn) (n : String) (t : Ty) (l : Linkage) : Out :=
  if !checkName n then ⟨false, f⟩
  else if (f.conts.get n).isSome then ⟨false, f⟩
  else ⟨true, { f with conts := f.conts.set n t.clone, exts := f.exts ++ [n], link := f.link.set n l }⟩

/-- function.cpp:100-110 `is_argument`, `is_external`, `is_transient` -/
def Fn.isTransient (f : Fn) (n : String) : Bool := !f.args.contains n && !f.exts.contains n

/-- function_builder.cpp:114-129 `remove_container`; the assumption is erased for integer scalars only. -/
def removeContainer (f : Fn) (n : String) : Out :=
  if !f.isTransient n then ⟨false, f⟩
  else match f.conts.get n with
    | none => ⟨false, f⟩
    | some t =>
      if t.isSymbol && t.isScalar then
        if reserved n then ⟨false, f⟩
        else ⟨true, { f with assum := f.assum.erase n, conts := f.conts.erase n }⟩
      else ⟨true, { f with conts := f.conts.erase n }⟩

/-- function_builder.cpp:139-143, 145-149: overwrite the first occurrence -/
def replaceFirst (l : List String) (old new : String) : List String :=
  match l with
  | [] => []
  | x :: r => if x = old then new :: r else x :: replaceFirst r old new

/-- function_builder.cpp:158-171: the new assumption has the bounds, constancy and map of the old one (the symbol is the key). -/
def copyAssum (a : Assum) : Assum :=
  { lower := a.lower, upper := a.upper, tightLower := a.tightLower, tightUpper := a.tightUpper, lowers := a.lowers, uppers := a.uppers
    constant := a.constant, map := a.map }

/-- function_builder.cpp:131-175 `rename_container`.  `std::move` into the same entry keeps it; the following `erase` removes it.
`assumptions_.insert` keeps an assumption that is already stored under the new name. -/
def renameContainer (f : Fn) (old new : String) : Out :=
  match f.conts.get old with
  | none => ⟨false, f⟩
  | some t =>
    let f1 := { f with conts := (f.conts.set new t).erase old }
    let f2 := if f1.args.contains old then { f1 with args := replaceFirst f1.args old new } else f1
    let f3 := if f2.exts.contains old then
        { f2 with exts := replaceFirst f2.exts old new, link := (f2.link.set new ((f2.link.get old).getD .external)).erase old }
      else f2
    if reserved old then ⟨false, f3⟩
    else match f3.assum.get old with
      | none => ⟨true, f3⟩
      | some a =>
        if reserved new then ⟨false, f3⟩
        else ⟨true, { f3 with assum := (f3.assum.erase old).emplace new (copyAssum a) }⟩

/-- function_builder.cpp:177-184 `change_type` -/
def changeType (f : Fn) (n : String) (t : Ty) : Out :=
  match f.conts.get n with
  | none => ⟨false, f⟩
  | some _ => ⟨true, { f with conts := f.conts.set n t.clone }⟩

/-- the container calls of the builder API -/
inductive COp where
  | add (n : String) (t : Ty) (isArg isExt : Bool)
  | addExternal (n : String) (t : Ty) (l : Linkage)
  | remove (n : String)
  | rename (old new : String)
  | change (n : String) (t : Ty)

/-- one call -/
def COp.run (f : Fn) : COp → Out
  | .add n t a e => addContainer f n t a e
  | .addExternal n t l => Docc.Builder.addExternal f n t l
  | .remove n => removeContainer f n
  | .rename o n => renameContainer f o n
  | .change n t => changeType f n t

/-- a history of calls; a caller may catch the exception of a failed call and go on -/
def runOps (f : Fn) : List COp → Fn
  | [] => f
  | o :: r => runOps (o.run f).fn r

/-- function.cpp:15-44: the CUDA built-in symbols of a kernel -/
def builtins : List String :=
  ["threadIdx.x", "threadIdx.y", "threadIdx.z", "blockIdx.x", "blockIdx.y", "blockIdx.z", "blockDim.x", "blockDim.y", "blockDim.z",
   "gridDim.x", "gridDim.y", "gridDim.z"]

/-- function.cpp:15-44, the constructor: assumptions for the built-ins of a kernel (`NV_GLOBAL`) -/
def Fn.new (kernel : Bool) : Fn :=
  { assum := if kernel then builtins.map fun b => (b, range (.int 0) (.int 4294967295)) else [] }

end Docc.Builder
