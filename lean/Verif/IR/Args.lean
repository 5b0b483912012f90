import Verif.IR.Ranges

/-
Arguments and locals of a region (sdfg/src/analysis/arguments_analysis.cpp).
-/
namespace Docc.IR
open Docc.Sym

mutual
/-- The region at a path (paths as in `Node.elem`), as far as the users analysis knows it: what follows a `Return` in a sequence has no
users (users.cpp:190-241), `UsersView` of such a node throws, and a `Return` itself is no region. -/
def Node.regionAt : Node → List Nat → Option Node
  | .seq s, p => s.regionAt p
  | .ifElse b, p => b.regionAt p
  | .ret _ _, [] => none
  | n, [] => some n
  | .whileL s, 0 :: p => s.regionAt p
  | .loop _ _ _ _ _ s, 0 :: p => s.regionAt p
  | _, _ => none
/-- the region at a path of a sequence -/
def Seq.regionAt : Seq → List Nat → Option Node
  | s, [] => some (.seq s)
  | .nil, _ :: _ => none
  | .cons n _ _, 0 :: p => n.regionAt p
  | .cons n _ r, (k + 1) :: p => if n.isRet then none else r.regionAt (k :: p)
/-- the region at a path of the branches -/
def Brs.regionAt : Brs → List Nat → Option Node
  | b, [] => some (.ifElse b)
  | .nil, _ :: _ => none
  | .cons _ s _, 0 :: p => s.regionAt p
  | .cons _ _ r, (k + 1) :: p => r.regionAt (k :: p)
end

/-- arguments_analysis.h:13-45 `DataRwFlags` -/
structure Flags where
  explicitIn : Bool := false
  isIn : Bool := false
  isOut : Bool := false
  deriving Repr, DecidableEq

/-- arguments_analysis.h:40-44 `merge` -/
def Flags.merge (a b : Flags) : Flags := ⟨a.explicitIn || b.explicitIn, a.isIn || b.isIn, a.isOut || b.isOut⟩

/-- arguments_analysis.cpp:26-38 and arguments_analysis.h:24-32: the flags of one use.  (Pointer moves and views are not in the model.) -/
def Use.flags : Use → Flags
  | .read => ⟨true, true, false⟩
  | .write => ⟨false, true, true⟩

/-- arguments_analysis.cpp:20-43: the flags of container `x`, merged over its uses in the region -/
def Node.flags (n : Node) (x : String) : Flags := ((n.users.filter (·.2 == x)).map fun u => u.1.flags).foldl Flags.merge {}

/-- What `ArgumentsAnalysis` asks the SDFG: whether a container is declared as an argument or external, and the uses of the whole
program. -/
structure ArgCtx where
  declared : String → Bool
  uses : List User

/-- the containers used in the region -/
def Node.used (n : Node) (x : String) : Bool := n.users.any (·.2 == x)

/-- arguments_analysis.cpp:70-81: declared arguments and externals, and containers with fewer uses in the region than in the program,
are arguments of the region -/
def ArgCtx.isArg (C : ArgCtx) (n : Node) (x : String) : Bool :=
  n.used x && (C.declared x || decide ((n.users.filter (·.2 == x)).length < (C.uses.filter (·.2 == x)).length))
/-- arguments_analysis.cpp:82-84: the other containers of the region are its locals -/
def ArgCtx.isLocal (C : ArgCtx) (n : Node) (x : String) : Bool :=
  n.used x && !(C.declared x || decide ((n.users.filter (·.2 == x)).length < (C.uses.filter (·.2 == x)).length))

/-- the context of a program -/
def Seq.argCtx (declared : String → Bool) (s : Seq) : ArgCtx := ⟨declared, s.users⟩

end Docc.IR
