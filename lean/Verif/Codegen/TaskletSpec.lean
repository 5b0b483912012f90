import Verif.Codegen.Tasklet
/-
What a tasklet computes, after the comments of sdfg/include/sdfg/data_flow/tasklet.h:87-150 ("LLVM-like operation semantics"): integer
operations act on bit vectors whatever the declared signedness, signed and unsigned operations interpret the bits accordingly; ordered
comparisons are false on NaNs, unordered ones true.
-/
namespace Docc.Codegen
open Docc.C

/-- integer operations; `none`: undefined also for LLVM (division by zero, overflowing signed division, too large shift count), or no
integer operation -/
def specInt {w : Nat} (code : Code) (x y : BitVec w) : Option (BitVec w) :=
  match code with
  | .assign => some x
  | .int_add => some (x + y)
  | .int_sub => some (x - y)
  | .int_mul => some (x * y)
  | .int_sdiv => if y = 0 ∨ (x = BitVec.intMin w ∧ y = -1) then none else some (x.sdiv y)
  | .int_srem => if y = 0 ∨ (x = BitVec.intMin w ∧ y = -1) then none else some (x.srem y)
  | .int_udiv => if y = 0 then none else some (x / y)
  | .int_urem => if y = 0 then none else some (x % y)
  | .int_and => some (x &&& y)
  | .int_or => some (x ||| y)
  | .int_xor => some (x ^^^ y)
  | .int_shl => if w ≤ y.toNat then none else some (x <<< y.toNat)
  | .int_ashr => if w ≤ y.toNat then none else some (x.sshiftRight y.toNat)
  | .int_lshr => if w ≤ y.toNat then none else some (x >>> y.toNat)
  | .int_smin => some (if x.toInt ≤ y.toInt then x else y)
  | .int_smax => some (if x.toInt ≤ y.toInt then y else x)
  | .int_umin => some (if x.toNat ≤ y.toNat then x else y)
  | .int_umax => some (if x.toNat ≤ y.toNat then y else x)
  | .int_scmp => some (if x.toInt < y.toInt then -1 else if x = y then 0 else 1)
  | .int_ucmp => some (if x.toNat < y.toNat then -1 else if x = y then 0 else 1)
  | .int_abs => some (if x.toInt < 0 then -x else x)
  | _ => none

/-- integer comparisons -/
def specCmp {w : Nat} (code : Code) (x y : BitVec w) : Option Bool :=
  match code with
  | .int_eq => some (decide (x = y))
  | .int_ne => some (!decide (x = y))
  | .int_sge => some (decide (y.toInt ≤ x.toInt))
  | .int_sgt => some (decide (y.toInt < x.toInt))
  | .int_sle => some (decide (x.toInt ≤ y.toInt))
  | .int_slt => some (decide (x.toInt < y.toInt))
  | .int_uge => some (decide (y.toNat ≤ x.toNat))
  | .int_ugt => some (decide (y.toNat < x.toNat))
  | .int_ule => some (decide (x.toNat ≤ y.toNat))
  | .int_ult => some (decide (x.toNat < y.toNat))
  | _ => none

/-- floating point operations; `fp_fma` may be fused or not, the unfused value is meant here -/
def specFp (K : Fmt) (code : Code) (x y z : K.F) : Option K.F :=
  match code with
  | .assign => some x
  | .fp_neg => some (K.neg x)
  | .fp_add => some (K.add x y)
  | .fp_sub => some (K.sub x y)
  | .fp_mul => some (K.mul x y)
  | .fp_div => some (K.div x y)
  | .fp_rem => some (K.rem x y)
  | .fp_fma => some (K.add (K.mul x y) z)
  | _ => none

/-- floating point comparisons -/
def specFpCmp (K : Fmt) (code : Code) (x y : K.F) : Option Bool :=
  let un := K.nan x || K.nan y
  match code with
  | .fp_oeq => some (K.eq x y)
  | .fp_one => some (!un && !K.eq x y)
  | .fp_oge => some (K.le y x)
  | .fp_ogt => some (K.lt y x)
  | .fp_ole => some (K.le x y)
  | .fp_olt => some (K.lt x y)
  | .fp_ord => some !un
  | .fp_ueq => some (un || K.eq x y)
  | .fp_une => some (un || !K.eq x y)
  | .fp_uge => some (un || K.le y x)
  | .fp_ugt => some (un || K.lt y x)
  | .fp_ule => some (un || K.le x y)
  | .fp_ult => some (un || K.lt x y)
  | .fp_uno => some un
  | _ => none

/-- the operations that read their operands as signed -/
def Code.isSigned : Code → Bool
  | .int_sdiv | .int_srem | .int_ashr | .int_smin | .int_smax | .int_scmp | .int_sge | .int_sgt | .int_sle | .int_slt | .int_abs => true
  | _ => false

end Docc.Codegen
