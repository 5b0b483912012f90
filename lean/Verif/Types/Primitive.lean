/-
Primitive types (sdfg/include/sdfg/types/type.h).
-/
namespace Docc.Types

/-- type.h:35-55 `enum PrimitiveType`. -/
inductive Prim where
  | void
  | bool
  | int8
  | int16
  | int32
  | int64
  | int128
  | uint8
  | uint16
  | uint32
  | uint64
  | uint128
  | half
  | bfloat
  | float
  | double
  | x86_fp80
  | fp128
  | ppc_fp128
  deriving Repr, DecidableEq, Inhabited

namespace Prim

/-- type.h:233-275 `primitive_type_to_string`. -/
def toStr : Prim → String
  | .void => "Void"
  | .bool => "Bool"
  | .int8 => "Int8"
  | .int16 => "Int16"
  | .int32 => "Int32"
  | .int64 => "Int64"
  | .int128 => "Int128"
  | .uint8 => "UInt8"
  | .uint16 => "UInt16"
  | .uint32 => "UInt32"
  | .uint64 => "UInt64"
  | .uint128 => "UInt128"
  | .half => "Half"
  | .bfloat => "BFloat"
  | .float => "Float"
  | .double => "Double"
  | .x86_fp80 => "X86_FP80"
  | .fp128 => "FP128"
  | .ppc_fp128 => "PPC_FP128"

/-- type.h:283-324 `primitive_type_from_string`; `none` is the thrown `invalid_argument`. -/
def fromStr (e : String) : Option Prim :=
  if e = "Void" then some .void
  else if e = "Bool" then some .bool
  else if e = "Int8" then some .int8
  else if e = "Int16" then some .int16
  else if e = "Int32" then some .int32
  else if e = "Int64" then some .int64
  else if e = "Int128" then some .int128
  else if e = "UInt8" then some .uint8
  else if e = "UInt16" then some .uint16
  else if e = "UInt32" then some .uint32
  else if e = "UInt64" then some .uint64
  else if e = "UInt128" then some .uint128
  else if e = "Half" then some .half
  else if e = "BFloat" then some .bfloat
  else if e = "Float" then some .float
  else if e = "Double" then some .double
  else if e = "X86_FP80" then some .x86_fp80
  else if e = "FP128" then some .fp128
  else if e = "PPC_FP128" then some .ppc_fp128
  else none

/-- type.h:332-374 `bit_width`. -/
def bitWidth : Prim → Nat
  | .void => 0
  | .bool => 1
  | .int8 => 8
  | .int16 => 16
  | .int32 => 32
  | .int64 => 64
  | .int128 => 128
  | .uint8 => 8
  | .uint16 => 16
  | .uint32 => 32
  | .uint64 => 64
  | .uint128 => 128
  | .half => 16
  | .bfloat => 16
  | .float => 32
  | .double => 64
  | .x86_fp80 => 80
  | .fp128 => 128
  | .ppc_fp128 => 128

/-- type.h:381-394 `is_floating_point`. -/
def isFloatingPoint : Prim → Bool
  | .half | .bfloat | .float | .double | .x86_fp80 | .fp128 | .ppc_fp128 => true
  | _ => false

/-- type.h:401-418 `is_integer`. -/
def isInteger : Prim → Bool
  | .bool | .int8 | .int16 | .int32 | .int64 | .int128 | .uint8 | .uint16 | .uint32 | .uint64 | .uint128 => true
  | _ => false

/-- type.h:425-436 `is_signed`. -/
def isSigned : Prim → Bool
  | .int8 | .int16 | .int32 | .int64 | .int128 => true
  | _ => false

/-- type.h:443-454 `is_unsigned`. -/
def isUnsigned : Prim → Bool
  | .uint8 | .uint16 | .uint32 | .uint64 | .uint128 => true
  | _ => false

/-- type.h:461-476 `as_signed`. -/
def asSigned : Prim → Prim
  | .uint8 => .int8
  | .uint16 => .int16
  | .uint32 => .int32
  | .uint64 => .int64
  | .uint128 => .int128
  | e => e

/-- type.h:483-498 `as_unsigned`. -/
def asUnsigned : Prim → Prim
  | .int8 => .uint8
  | .int16 => .uint16
  | .int32 => .uint32
  | .int64 => .uint64
  | .int128 => .uint128
  | e => e

/-- symbolic.cpp:132-134 `size_of_type` of a scalar: `(bit_width + 7) / 8` bytes. -/
def sizeOf (e : Prim) : Nat := (e.bitWidth + 7) / 8

end Prim
end Docc.Types
