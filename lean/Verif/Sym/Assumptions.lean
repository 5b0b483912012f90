import Verif.Sym.Extreme
import Verif.Types.Primitive

/-
Symbol assumptions (sdfg/src/symbolic/assumptions.cpp).
-/
namespace Docc.Sym
open Docc.Types

/-- The type argument of `Assumption::create`: scalars and pointers are supported, everything else throws. -/
inductive SymType where
  | scalar (p : Prim)
  | pointer
  | other
  deriving Repr, DecidableEq

/-- both bound representations set to the same pair (assumptions.cpp:125-128 and the other cases) -/
def Assum.ofBounds (lo hi : Expr) : Assum := { lower := lo, upper := hi, lowers := [lo], uppers := [hi] }

/-- assumptions.cpp:118-217 `Assumption::create`; `none` is the thrown `Unsupported type`.
`std::numeric_limits` values are written out. -/
def Assum.create : SymType → Option Assum
  | .scalar .bool => some (.ofBounds (.int 0) (.int 1))
  | .scalar .uint8 => some (.ofBounds (.int 0) (.int 255))
  | .scalar .uint16 => some (.ofBounds (.int 0) (.int 65535))
  | .scalar .uint32 => some (.ofBounds (.int 0) (.int 4294967295))
  | .scalar .uint64 => some (.ofBounds (.int 0) (.inf true))
  | .scalar .uint128 => some (.ofBounds (.int 0) (.inf true))
  | .scalar .int8 => some (.ofBounds (.int (-128)) (.int 127))
  | .scalar .int16 => some (.ofBounds (.int (-32768)) (.int 32767))
  | .scalar .int32 => some (.ofBounds (.int (-2147483648)) (.int 2147483647))
  | .scalar .int64 => some (.ofBounds (.int (-9223372036854775808)) (.int 9223372036854775807))
  | .scalar .int128 => some (.ofBounds (.inf false) (.inf true))
  | .scalar _ => none
  | .pointer => some (.ofBounds (.int 0) (.inf true))
  | .other => none

/-- assumptions.cpp:55-60: `-oo` or the maximum of the recorded lower bounds. -/
def joinLower : List Expr → Expr
  | [] => .inf false
  | l => .max l
/-- assumptions.cpp:79-84: `oo` or the minimum of the recorded upper bounds. -/
def joinUpper : List Expr → Expr
  | [] => .inf true
  | l => .min l

/-- assumptions.cpp:54-68 `lower_bound()`: the maximum of all lower bounds. -/
def Assum.lowerBound (a : Assum) : Expr :=
  match a.tightLower with
  | none => joinLower a.lowers
  | some t => if joinLower a.lowers = .inf false then t else .max [t, joinLower a.lowers]

/-- assumptions.cpp:78-92 `upper_bound()`: the minimum of all upper bounds. -/
def Assum.upperBound (a : Assum) : Expr :=
  match a.tightUpper with
  | none => joinUpper a.uppers
  | some t => if joinUpper a.uppers = .inf true then t else .min [t, joinUpper a.uppers]

/-- assumptions.cpp:72 `add_lower_bound` (set insertion). -/
def Assum.addLowerBound (a : Assum) (b : Expr) : Assum :=
  if b ∈ a.lowers then a else { a with lowers := b :: a.lowers }
/-- assumptions.cpp:76 `remove_lower_bound`. -/
def Assum.removeLowerBound (a : Assum) (b : Expr) : Assum := { a with lowers := a.lowers.erase b }
/-- assumptions.cpp:96 `add_upper_bound`. -/
def Assum.addUpperBound (a : Assum) (b : Expr) : Assum :=
  if b ∈ a.uppers then a else { a with uppers := b :: a.uppers }
/-- assumptions.cpp:100 `remove_upper_bound`. -/
def Assum.removeUpperBound (a : Assum) (b : Expr) : Assum := { a with uppers := a.uppers.erase b }

end Docc.Sym
