import Verif.Codegen.CExpr
/-
Code generation for tasklets: the C expression of each operation and the block of declarations around it
(sdfg/src/codegen/language_extensions/c_language_extension.cpp, cpp_language_extension.cpp, cuda_language_extension.cpp,
sdfg/src/codegen/dispatchers/block_dispatcher.cpp, sdfg/include/sdfg/data_flow/tasklet.h).
-/
namespace Docc.Codegen
open Docc.C Docc.Types

/-- tasklet.h:87-150 `TaskletCode` -/
inductive Code where
  | assign | fp_neg | fp_add | fp_sub | fp_mul | fp_div | fp_rem | fp_fma
  | fp_oeq | fp_one | fp_oge | fp_ogt | fp_ole | fp_olt | fp_ord | fp_ueq
  | fp_une | fp_ugt | fp_uge | fp_ult | fp_ule | fp_uno | int_add | int_sub
  | int_mul | int_sdiv | int_srem | int_udiv | int_urem | int_and | int_or | int_xor
  | int_shl | int_ashr | int_lshr | int_smin | int_smax | int_scmp | int_umin | int_umax
  | int_ucmp | int_eq | int_ne | int_sge | int_sgt | int_sle | int_slt | int_uge
  | int_ugt | int_ule | int_ult | int_abs
  deriving Repr, DecidableEq

/-- tasklet.h:235-251 `is_unsigned` -/
def Code.isUnsigned : Code → Bool
  | .int_udiv | .int_urem | .int_lshr | .int_umin | .int_umax | .int_ucmp | .int_uge | .int_ugt | .int_ule | .int_ult => true
  | _ => false

/-- c_language_extension.cpp:194-315 `CLanguageExtension::tasklet`; `a b c` are `inputs().at(0..2)`, `isn` is `isnan` (C) or `std::isnan`
(cpp_language_extension.cpp:188-309, cuda_language_extension.cpp:204-325 are the same otherwise) -/
def Code.text (isn a b c : String) : Code → String
  | .assign => a
  | .fp_neg => "-" ++ a
  | .fp_add => a ++ " + " ++ b
  | .fp_sub => a ++ " - " ++ b
  | .fp_mul => a ++ " * " ++ b
  | .fp_div => a ++ " / " ++ b
  | .fp_rem => "fmod(" ++ a ++ ", " ++ b ++ ")"
  | .fp_fma => a ++ " * " ++ b ++ " + " ++ c
  | .fp_oeq => a ++ " == " ++ b
  | .fp_one => a ++ " != " ++ b
  | .fp_ogt => a ++ " > " ++ b
  | .fp_oge => a ++ " >= " ++ b
  | .fp_olt => a ++ " < " ++ b
  | .fp_ole => a ++ " <= " ++ b
  | .fp_ord => isn ++ "(" ++ a ++ ") && " ++ isn ++ "(" ++ b ++ ")"
  | .fp_ueq => isn ++ "(" ++ a ++ ") || " ++ isn ++ "(" ++ b ++ ")" ++ " || " ++ a ++ " == " ++ b
  | .fp_une => isn ++ "(" ++ a ++ ") || " ++ isn ++ "(" ++ b ++ ")" ++ " || " ++ a ++ " != " ++ b
  | .fp_ugt => isn ++ "(" ++ a ++ ") || " ++ isn ++ "(" ++ b ++ ")" ++ " || " ++ a ++ " > " ++ b
  | .fp_uge => isn ++ "(" ++ a ++ ") || " ++ isn ++ "(" ++ b ++ ")" ++ " || " ++ a ++ " >= " ++ b
  | .fp_ult => isn ++ "(" ++ a ++ ") || " ++ isn ++ "(" ++ b ++ ")" ++ " || " ++ a ++ " < " ++ b
  | .fp_ule => isn ++ "(" ++ a ++ ") || " ++ isn ++ "(" ++ b ++ ")" ++ " || " ++ a ++ " <= " ++ b
  | .fp_uno => isn ++ "(" ++ a ++ ") || " ++ isn ++ "(" ++ b ++ ")"
  | .int_add => a ++ " + " ++ b
  | .int_sub => a ++ " - " ++ b
  | .int_mul => a ++ " * " ++ b
  | .int_sdiv => a ++ " / " ++ b
  | .int_srem => a ++ " % " ++ b
  | .int_udiv => a ++ " / " ++ b
  | .int_urem => a ++ " % " ++ b
  | .int_and => a ++ " & " ++ b
  | .int_or => a ++ " | " ++ b
  | .int_xor => a ++ " ^ " ++ b
  | .int_shl => a ++ " << " ++ b
  | .int_lshr => a ++ " >> " ++ b
  | .int_ashr => a ++ " >> " ++ b
  | .int_smin => a ++ " < " ++ b ++ " ? " ++ a ++ " : " ++ b
  | .int_smax => a ++ " > " ++ b ++ " ? " ++ a ++ " : " ++ b
  | .int_scmp => a ++ " < " ++ b ++ " ? -1 : (" ++ a ++ " > " ++ b ++ " ? 1 : 0)"
  | .int_umin => a ++ " < " ++ b ++ " ? " ++ a ++ " : " ++ b
  | .int_umax => a ++ " > " ++ b ++ " ? " ++ a ++ " : " ++ b
  | .int_ucmp => a ++ " < " ++ b ++ " ? -1 : (" ++ a ++ " > " ++ b ++ " ? 1 : 0)"
  | .int_abs => "(" ++ a ++ " < 0 ? -" ++ a ++ " : " ++ a ++ ")"
  | .int_eq => a ++ " == " ++ b
  | .int_ne => a ++ " != " ++ b
  | .int_sgt => a ++ " > " ++ b
  | .int_sge => a ++ " >= " ++ b
  | .int_slt => a ++ " < " ++ b
  | .int_sle => a ++ " <= " ++ b
  | .int_ugt => a ++ " > " ++ b
  | .int_uge => a ++ " >= " ++ b
  | .int_ult => a ++ " < " ++ b
  | .int_ule => a ++ " <= " ++ b

/-- the expression whose text `Code.text` is (`tasklet_text`) -/
def Code.ast : Code → CE
  | .assign => .v 0
  | .fp_neg => .neg (.v 0)
  | .fp_add => .bin .add (.v 0) (.v 1)
  | .fp_sub => .bin .sub (.v 0) (.v 1)
  | .fp_mul => .bin .mul (.v 0) (.v 1)
  | .fp_div => .bin .div (.v 0) (.v 1)
  | .fp_rem => .fmod (.v 0) (.v 1)
  | .fp_fma => .bin .add (.bin .mul (.v 0) (.v 1)) (.v 2)
  | .fp_oeq => .bin .eq (.v 0) (.v 1)
  | .fp_one => .bin .ne (.v 0) (.v 1)
  | .fp_oge => .bin .ge (.v 0) (.v 1)
  | .fp_ogt => .bin .gt (.v 0) (.v 1)
  | .fp_ole => .bin .le (.v 0) (.v 1)
  | .fp_olt => .bin .lt (.v 0) (.v 1)
  | .fp_ord => .bin .land (.isnan (.v 0)) (.isnan (.v 1))
  | .fp_ueq => .bin .lor (.bin .lor (.isnan (.v 0)) (.isnan (.v 1))) (.bin .eq (.v 0) (.v 1))
  | .fp_une => .bin .lor (.bin .lor (.isnan (.v 0)) (.isnan (.v 1))) (.bin .ne (.v 0) (.v 1))
  | .fp_ugt => .bin .lor (.bin .lor (.isnan (.v 0)) (.isnan (.v 1))) (.bin .gt (.v 0) (.v 1))
  | .fp_uge => .bin .lor (.bin .lor (.isnan (.v 0)) (.isnan (.v 1))) (.bin .ge (.v 0) (.v 1))
  | .fp_ult => .bin .lor (.bin .lor (.isnan (.v 0)) (.isnan (.v 1))) (.bin .lt (.v 0) (.v 1))
  | .fp_ule => .bin .lor (.bin .lor (.isnan (.v 0)) (.isnan (.v 1))) (.bin .le (.v 0) (.v 1))
  | .fp_uno => .bin .lor (.isnan (.v 0)) (.isnan (.v 1))
  | .int_add => .bin .add (.v 0) (.v 1)
  | .int_sub => .bin .sub (.v 0) (.v 1)
  | .int_mul => .bin .mul (.v 0) (.v 1)
  | .int_sdiv => .bin .div (.v 0) (.v 1)
  | .int_srem => .bin .rem (.v 0) (.v 1)
  | .int_udiv => .bin .div (.v 0) (.v 1)
  | .int_urem => .bin .rem (.v 0) (.v 1)
  | .int_and => .bin .band (.v 0) (.v 1)
  | .int_or => .bin .bor (.v 0) (.v 1)
  | .int_xor => .bin .bxor (.v 0) (.v 1)
  | .int_shl => .bin .shl (.v 0) (.v 1)
  | .int_ashr => .bin .shr (.v 0) (.v 1)
  | .int_lshr => .bin .shr (.v 0) (.v 1)
  | .int_smin => .cond (.bin .lt (.v 0) (.v 1)) (.v 0) (.v 1)
  | .int_smax => .cond (.bin .gt (.v 0) (.v 1)) (.v 0) (.v 1)
  | .int_scmp => .cond (.bin .lt (.v 0) (.v 1)) (.neg (.lit 1)) (.par (.cond (.bin .gt (.v 0) (.v 1)) (.lit 1) (.lit 0)))
  | .int_umin => .cond (.bin .lt (.v 0) (.v 1)) (.v 0) (.v 1)
  | .int_umax => .cond (.bin .gt (.v 0) (.v 1)) (.v 0) (.v 1)
  | .int_ucmp => .cond (.bin .lt (.v 0) (.v 1)) (.neg (.lit 1)) (.par (.cond (.bin .gt (.v 0) (.v 1)) (.lit 1) (.lit 0)))
  | .int_eq => .bin .eq (.v 0) (.v 1)
  | .int_ne => .bin .ne (.v 0) (.v 1)
  | .int_sge => .bin .ge (.v 0) (.v 1)
  | .int_sgt => .bin .gt (.v 0) (.v 1)
  | .int_sle => .bin .le (.v 0) (.v 1)
  | .int_slt => .bin .lt (.v 0) (.v 1)
  | .int_uge => .bin .ge (.v 0) (.v 1)
  | .int_ugt => .bin .gt (.v 0) (.v 1)
  | .int_ule => .bin .le (.v 0) (.v 1)
  | .int_ult => .bin .lt (.v 0) (.v 1)
  | .int_abs => .par (.cond (.bin .lt (.v 0) (.lit 0)) (.neg (.v 0)) (.v 0))

/-- the target languages -/
inductive Lang where
  | c | cpp | cuda
  deriving Repr, DecidableEq

/-- c_language_extension.cpp:14-56, cpp_language_extension.cpp:9-51, cuda_language_extension.cpp:11-53 `primitive_type`: C and CUDA spell
UInt8 as plain `char`, whose signedness `cs` is up to the target -/
def cty (l : Lang) (cs : Bool) : Prim → CTy
  | .bool => .bool
  | .int8 => .int 8 true
  | .int16 => .int 16 true
  | .int32 => .int 32 true
  | .int64 => .int 64 true
  | .int128 => .int 128 true
  | .uint8 => .int 8 (match l with | .cpp => false | _ => cs)
  | .uint16 => .int 16 false
  | .uint32 => .int 32 false
  | .uint64 => .int 64 false
  | .uint128 => .int 128 false
  | _ => .fp

/-- block_dispatcher.cpp:223-240, 252-263: the declared type of a connector -/
def declTy (code : Code) (p : Prim) : Prim := if code.isUnsigned then p.asUnsigned else p

/-- the value an object of the type has when its bits are `b` -/
def read (t : CTy) {w : Nat} (b : BitVec w) : Int :=
  match t with
  | .int _ s => val s b
  | _ => b.toNat

/-- block_dispatcher.cpp:219-291 `dispatch_tasklet` for integer operands of container type `p` with the given bits and a result of type
`q`: the operands are copied to connectors, the result is computed into a connector and copied to the destination.  Simplification: all
operands have the same type; the containers are scalars or elements of arrays, accessed as in the memory of `p`, `q`. -/
def runInt (K : Fmt) (l : Lang) (cs : Bool) (code : Code) (p q : Prim) {w : Nat} (args : List (BitVec w)) (w' : Nat) : Option (BitVec w') :=
  let din := cty l cs (declTy code p)
  let dout := cty l cs (declTy code q)
  (code.ast.eval K fun i => .i din (conv din (read (cty l cs p) (args.getD i 0)))).bind fun
    | .i _ n => some (BitVec.ofInt w' (conv (cty l cs q) (conv dout n)))
    | .f _ => none

/-- the same for floating point operands and result of one format -/
def runFp (K : Fmt) (code : Code) (args : Nat → K.F) : Option K.F :=
  (code.ast.eval K fun i => .f (args i)).bind fun
    | .f x => some x
    | .i _ _ => none

/-- the same for floating point operands and a result of integer type `q` (comparisons) -/
def runFpCmp (K : Fmt) (l : Lang) (cs : Bool) (code : Code) (q : Prim) (args : Nat → K.F) (w' : Nat) : Option (BitVec w') :=
  (code.ast.eval K fun i => .f (args i)).bind fun
    | .i _ n => some (BitVec.ofInt w' (conv (cty l cs q) (conv (cty l cs (declTy code q)) n)))
    | .f _ => none

end Docc.Codegen
