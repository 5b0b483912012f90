import Verif.Types.RefProp

/-
Offsets in bytes: ByteReferenceElimination and TrivialReferenceConversion, the memlets
(sdfg/src/passes/dataflow/byte_reference_elimination.cpp, trivial_reference_conversion.cpp).
-/
namespace Docc.Types
open Docc.Sym

/-- conversion of a 64 bit integer to `int` -/
def wrap32 (n : Int) : Int := (n + 2147483648) % 4294967296 - 2147483648

/-- SymEngine folds products of integers: the value, if the expression is an integer then -/
def intOf : Expr → Option Int
  | .int k => some k
  | .mul [a, b] =>
    match intOf a, intOf b with
    | some x, some y => some (x * y)
    | _, _ => none
  | _ => none

/-- byte_reference_elimination.cpp:43-72: the only move of the pointer has a constant offset in bytes (the kind of the move is not looked at); the offset as an `int` -/
def byteOffset (move : Mlt) : Option Int :=
  match move.base, move.subset with
  | .ptr _ (.scalar _ q), [.int c] => if q = .int8 ∨ q = .uint8 then some (wrap32 c) else none
  | _, _ => none

/-- byte_reference_elimination.cpp:83-156: the only memlet of an access node of the pointer; `ok none`: left alone; `ub`: division by zero.  The container of the
node is exchanged for the source of the move.  Not modelled: dominance and the moves in between (the address the pointer holds is a hypothesis of the theorems), the
exception for offsets beyond 64 bits, the overflow of `INT_MIN / -1`. -/
def byteRef (move m : Mlt) : Res (Option Mlt) :=
  match byteOffset move with
  | none => .ok none
  | some b =>
    if m.kind = .derefDst ∨ m.kind = .derefSrc then .ok none
    else
      match m.base, m.subset with
      | .ptr _ t, i :: r =>
        match (typeSize false t).bind intOf with
        | none => .ok none
        | some z =>
          if wrap32 z = 0 then .ub
          else if b.tmod (wrap32 z) ≠ 0 then .ok none
          else .ok (some ⟨m.kind, m.base, sadd i (.int (b.tdiv (wrap32 z))) :: r⟩)
      | _, _ => .ok none

/-- trivial_reference_conversion.cpp:32-56: references `&x[0]` of pointers to pointers become references of bytes -/
def trivialRef (m : Mlt) : Mlt :=
  if m.kind = .ref ∧ m.subset = [.int 0] then
    match m.base with
    | .ptr _ (.ptr _ _) => { m with base := .ptr default (.scalar default .int8) }
    | .ptr _ (.opaquePtr _) => { m with base := .ptr default (.scalar default .int8) }
    | _ => m
  else m

end Docc.Types
