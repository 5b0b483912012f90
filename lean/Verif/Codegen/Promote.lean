import Verif.Codegen.Tasklet
import Verif.Sym.Simplify
import Verif.Sym.Cond
/-
SymbolPromotion: a block with one integer tasklet on scalars becomes a symbolic assignment on a transition
(sdfg/src/passes/symbolic/symbol_promotion.cpp).
-/
namespace Docc.Codegen
open Docc.C Docc.Types Docc.Sym

/-- types of containers and memlets: an element type under `dims` array or pointer levels (0: a scalar).  Simplification of `types::Ty`:
only the element type and the number of levels are kept. -/
structure MTy where
  prim : Prim
  dims : Nat
  deriving Repr, DecidableEq

/-- the source of an operand: a ConstantNode (its parsed value) or an access node of a container -/
inductive Opd where
  | cst (n : Int)
  | var (x : String)
  deriving Repr, DecidableEq

/-- a memlet into the tasklet: its operand, the type of the constant or container, the base type and subset of the memlet, the in-degree
of the source node; the list of them is ordered by connector -/
structure InE where
  opd : Opd
  own : MTy
  base : MTy
  sub : List Expr
  deg : Nat
  deriving Repr, DecidableEq

/-- the memlet out of the tasklet; `deg` is the out-degree of the destination node -/
structure OutE where
  dst : String
  own : MTy
  base : MTy
  sub : List Expr
  deg : Nat
  deriving Repr, DecidableEq

/-- a dataflow graph around one of its tasklets: whether all edges are computational, and the number of tasklets -/
structure PBlk where
  comp : Bool
  ntask : Nat
  code : Code
  ins : List InE
  out : OutE
  deriving Repr, DecidableEq

/-- tasklet.h:303-335 `is_floating_point` -/
def Code.isFp : Code → Bool
  | .fp_neg | .fp_add | .fp_sub | .fp_mul | .fp_div | .fp_rem | .fp_fma
  | .fp_oeq | .fp_one | .fp_oge | .fp_ogt | .fp_ole | .fp_olt | .fp_ord | .fp_ueq
  | .fp_une | .fp_ugt | .fp_uge | .fp_ult | .fp_ule | .fp_uno => true
  | _ => false

/-- tasklet.cpp:94-113 `is_zext`; the result type of a memlet has the element type of its base type -/
def isZext (code : Code) (i o : Prim) : Bool :=
  code == .assign && i.isUnsigned && o.isUnsigned && decide (i.bitWidth < o.bitWidth)

/-- tasklet.cpp:136-158 `is_trunc` -/
def isTrunc (code : Code) (i o : Prim) : Bool :=
  code == .assign && i.isInteger && o.isInteger && (i.isUnsigned == o.isUnsigned) && decide (o.bitWidth < i.bitWidth)

/-- symbol_promotion.cpp:213-267 `is_safe_constant_assign`.  Simplification: for a 128 bit type the shift of line 262 is undefined, here
it is rejected. -/
def safeConst (code : Code) (i : InE) (o : OutE) : Bool :=
  code == .assign && decide (i.base.dims = 0) && i.base.prim.isInteger && i.base.prim.isUnsigned &&
  (match i.opd with
   | .cst n =>
     decide (o.base.dims = 0) && o.base.prim.isInteger && o.base.prim.isUnsigned &&
     decide (o.own.dims = 0) && o.own.prim.isInteger && o.own.prim.isSigned &&
     decide (o.base.prim.bitWidth ≤ 64) && decide (n % 2 ^ 64 ≤ 2 ^ (o.base.prim.bitWidth - 1) - 1)
   | .var _ => false)

/-- symbol_promotion.cpp:88-116: the criteria on an input -/
def InE.ok (e : InE) : Bool :=
  decide (e.sub = []) && e.base.prim.isInteger && !e.base.prim.isUnsigned && decide (e.own = e.base) && decide (e.deg = 0)

/-- symbol_promotion.cpp:118-142: the criteria on the output -/
def OutE.ok (e : OutE) : Bool :=
  decide (e.sub = []) && e.base.prim.isInteger && !e.base.prim.isUnsigned && decide (e.own = e.base) && decide (e.deg = 0)

/-- the operand is a constant -/
def Opd.isCst : Opd → Bool
  | .cst _ => true
  | .var _ => false

/-- symbol_promotion.cpp:164-190: all inputs and the output are Bool -/
def PBlk.allBool (b : PBlk) : Bool := b.ins.all (fun e => decide (e.base.prim = .bool)) && decide (b.out.base.prim = .bool)

/-- symbol_promotion.cpp:147-210: the known operations -/
def PBlk.known (b : PBlk) : Bool :=
  match b.code with
  | .assign | .int_add | .int_sub | .int_mul | .int_sdiv | .int_srem | .int_smin | .int_smax | .int_abs => true
  | .int_ashr | .int_shl => match b.ins[1]? with | some e => e.opd.isCst | none => false
  | .int_and | .int_or => b.allBool
  | .int_xor => b.allBool || b.ins.any (fun e => decide (e.opd = .cst (-1)))
  | _ => false

/-- symbol_promotion.cpp:27-211 `can_be_applied` -/
def PBlk.canApply (b : PBlk) : Bool :=
  b.comp && decide (b.ntask = 1) && !b.code.isFp && !b.code.isUnsigned &&
  ((match b.ins with
    | i :: _ =>
      b.code == .assign &&
      (safeConst b.code i b.out ||
       (isTrunc b.code i.base.prim b.out.base.prim && decide (i.base.prim = .uint64) && decide (b.out.base.prim = .uint32)) ||
       (isZext b.code i.base.prim b.out.base.prim && decide (i.base.prim = .uint32) && decide (b.out.base.prim = .uint64)))
    | [] => false) ||
   (b.ins.all InE.ok && b.out.ok && b.known))

/-- symbol_promotion.cpp:11-24 `as_symbol` -/
def Opd.sym : Opd → Expr
  | .cst n => .int n
  | .var x => .sym x

/-- `symbolic::pow(2, k)`: SymEngine evaluates it for a natural number -/
def spow2 (k : Expr) : Expr :=
  match k with
  | .int (.ofNat n) => .int (2 ^ n)
  | _ => .pow (.int 2) k

/-- the right-hand side of the assignment: an expression, or a condition -/
inductive Rhs where
  | e (x : Expr)
  | c (x : Cond)
  deriving Repr

/-- `Eq(x, true)`: the comparison with 1 -/
def isTrueC (o : Opd) : Cond := .eq o.sym (.int 1)

/-- symbol_promotion.cpp:269-403 `apply`: the right-hand side; `none` is an exception or a null expression.  Lines 288-292 reinterpret
the operand as a symbol also if it is a constant: the constant is kept here. -/
def PBlk.rhs (b : PBlk) : Option Rhs :=
  match b.ins with
  | [] => none
  | i :: r =>
    let x := i.opd.sym
    let y := match r with | j :: _ => j.opd.sym | [] => .nan
    let res : Res Expr → Option Rhs := fun z => match z with | .ok q => some (.e q) | _ => none
    match b.code with
    | .assign =>
      if isZext b.code i.base.prim b.out.base.prim then some (.e (.fn "zext_i64" [x]))
      else if isTrunc b.code i.base.prim b.out.base.prim then some (.e (.fn "trunc_i32" [x]))
      else some (.e x)
    | .int_add => some (.e (.add [x, y]))
    | .int_sub => some (.e (ssub x y))
    | .int_mul => some (.e (.mul [x, y]))
    | .int_sdiv => res (sdiv x y)
    | .int_srem => res (smod x y)
    | .int_smin => some (.e (.min [x, y]))
    | .int_smax => some (.e (.max [x, y]))
    | .int_abs => some (.e (.fn "iabs" [x]))
    | .int_ashr => res (sdiv x (spow2 y))
    | .int_shl => some (.e (.mul [x, spow2 y]))
    | .int_and => match r with | j :: _ => some (.c (.and [isTrueC i.opd, isTrueC j.opd])) | [] => none
    | .int_or => match r with | j :: _ => some (.c (.or [isTrueC i.opd, isTrueC j.opd])) | [] => none
    | .int_xor =>
      if b.allBool then
        match r with
        | j :: _ => some (.c (.and [.or [isTrueC i.opd, isTrueC j.opd], .not (.and [isTrueC i.opd, isTrueC j.opd])]))
        | [] => none
      else
        match (i :: r).reverse.find? (fun e => !e.opd.isCst) with
        | some e => some (.e (.add [.mul [e.opd.sym, .int (-1)], .int (-1)]))
        | none => none
    | _ => none

/-! ### what the programs do -/

/-- memory: the value of a container at an index list (`[]`: a scalar, or the address of an array) -/
abbrev Mem := String → List Int → Int

/-- store one value -/
def Mem.set (m : Mem) (x : String) (ix : List Int) (n : Int) : Mem := fun y jx => if y = x ∧ jx = ix then n else m y jx

/-- the symbols of an expression are the scalars; `F` interprets the opaque functions -/
def Mem.val (m : Mem) (F : String → List Int → Int) : Val := ⟨fun x => m x [], F⟩

/-- the value of a finite expression -/
def fin? : V → Option Int
  | .fin n => some n
  | _ => none

/-- the values of a subset -/
def Mem.idx (m : Mem) (F : String → List Int → Int) : List Expr → Option (List Int)
  | [] => some []
  | e :: r => (fin? (e.eval (m.val F))).bind fun n => (m.idx F r).map (n :: ·)

/-- the value of an operand -/
def InE.get (e : InE) (F : String → List Int → Int) (m : Mem) : Option Int :=
  match e.opd with
  | .cst n => some n
  | .var x => (m.idx F e.sub).map (m x)

/-- the values of the operands -/
def getAll (F : String → List Int → Int) (m : Mem) : List InE → Option (List Int)
  | [] => some []
  | e :: r => (e.get F m).bind fun n => (getAll F m r).map (n :: ·)

/-- the connectors of the tasklet hold the operands, converted to their declared types (block_dispatcher.cpp:219-250) -/
def connEnv (K : Fmt) (l : Lang) (cs : Bool) (code : Code) (ins : List InE) (vs : List Int) : Nat → CV K.F := fun i =>
  match ins[i]?, vs[i]? with
  | some e, some n => .i (cty l cs (declTy code e.base.prim)) (conv (cty l cs (declTy code e.base.prim)) n)
  | _, _ => .i .bool 0

/-- block_dispatcher.cpp:219-291: the emitted code of the tasklet; `none`: undefined -/
def PBlk.exec (K : Fmt) (l : Lang) (cs : Bool) (F : String → List Int → Int) (b : PBlk) (m : Mem) : Option Mem :=
  (getAll F m b.ins).bind fun vs =>
  (b.code.ast.eval K (connEnv K l cs b.code b.ins vs)).bind fun
    | .i _ n => (m.idx F b.out.sub).map fun ix =>
        m.set b.out.dst ix (conv (cty l cs b.out.own.prim) (conv (cty l cs (declTy b.code b.out.base.prim)) n))
    | .f _ => none

/-- the value of a right-hand side -/
def Rhs.value (F : String → List Int → Int) (m : Mem) : Rhs → Option Int
  | .e x => fin? (x.eval (m.val F))
  | .c x => some (if x.eval ⟨fun e => (fin? (e.eval (m.val F))).getD 0, fun _ => false⟩ then 1 else 0)

/-- the transition `dst = rhs`: the value is converted to the type of the scalar `dst` -/
def PBlk.assign (l : Lang) (cs : Bool) (F : String → List Int → Int) (b : PBlk) (r : Rhs) (m : Mem) : Option Mem :=
  (r.value F m).map fun n => m.set b.out.dst [] (conv (cty l cs b.out.own.prim) n)

/-- the block before: the other nodes of the graph run before (`pre`) and after (`post`) the tasklet -/
def PBlk.before (K : Fmt) (l : Lang) (cs : Bool) (F : String → List Int → Int) (b : PBlk) (pre post : Mem → Option Mem) (m : Mem) : Option Mem :=
  (pre m).bind fun m1 => (b.exec K l cs F m1).bind post

/-- symbol_promotion.cpp:405-407: the new block with its transition, then the rest of the old block -/
def PBlk.after (l : Lang) (cs : Bool) (F : String → List Int → Int) (b : PBlk) (r : Rhs) (pre post : Mem → Option Mem) (m : Mem) : Option Mem :=
  (b.assign l cs F r m).bind fun m1 => (pre m1).bind post

end Docc.Codegen
