import Verif.IR.AssumAn

/-
The access ranges of a container in a region (sdfg/src/analysis/mem_access_range_analysis.cpp).
-/
namespace Docc.IR
open Docc.Sym

/-- the path of a later element of a sequence or of the branches -/
def shiftPath : List Nat → List Nat
  | [] => []
  | k :: p => (k + 1) :: p

mutual
/-- The blocks of a node with their paths (paths as in `Node.assums`).  What follows a `Return` in a sequence has no users
(users.cpp:190-241). -/
def Node.blocksAt : Node → List (List Nat × List Stmt)
  | .block l => [([], l)]
  | .seq s => s.blocksAt
  | .ifElse b => b.blocksAt
  | .whileL s => s.blocksAt.map fun q => (0 :: q.1, q.2)
  | .loop _ _ _ _ _ s => s.blocksAt.map fun q => (0 :: q.1, q.2)
  | .brk => []
  | .cont => []
  | .ret _ _ => []
def Seq.blocksAt : Seq → List (List Nat × List Stmt)
  | .nil => []
  | .cons n _ r => if n.isRet then [] else (n.blocksAt.map fun q => (0 :: q.1, q.2)) ++ r.blocksAt.map fun q => (shiftPath q.1, q.2)
def Brs.blocksAt : Brs → List (List Nat × List Stmt)
  | .nil => []
  | .cons _ s r => (s.blocksAt.map fun q => (0 :: q.1, q.2)) ++ r.blocksAt.map fun q => (shiftPath q.1, q.2)
end

/-- users.cpp:35-60 `subsets` of the READ users of `x` in a computation: the subsets of the memlets that leave the access node.  The
memlets of a library node have an empty subset (simplification: always, as the frontends and the passes create them). -/
def Stmt.readSubs (x : String) : Stmt → List (List Expr)
  | .tasklet _ ins _ _ => (ins.filter fun r => r.1 == x).map (·.2)
  | .lib _ reads _ => (reads.filter (· == x)).map fun _ => []
/-- the same for the WRITE users -/
def Stmt.writeSubs (x : String) : Stmt → List (List Expr)
  | .tasklet _ _ out sub => if out == x then [sub] else []
  | .lib _ _ writes => (writes.filter (· == x)).map fun _ => []

/-- mem_access_range_analysis.cpp:186-201: the integer scalars of the region that are not written in it.  (`__nullptr__` is no container of
the model.) -/
def Ctx.params (C : Ctx) (n : Node) : List String := (n.users.map (·.2)).filter fun x => C.isSym x && !decide (writes n.users x)

mutual
/-- symbolic.cpp `has<SymEngine::Infty>` -/
def Expr.hasInf : Expr → Bool
  | .inf _ => true
  | .int _ => false
  | .sym _ => false
  | .nan => false
  | .add l => Expr.hasInfL l
  | .mul l => Expr.hasInfL l
  | .max l => Expr.hasInfL l
  | .min l => Expr.hasInfL l
  | .pow a b => Expr.hasInf a || Expr.hasInf b
  | .fn _ l => Expr.hasInfL l
def Expr.hasInfL : List Expr → Bool
  | [] => false
  | e :: r => Expr.hasInf e || Expr.hasInfL r
end

/-- mem_access_range_analysis_internal.h `WorkItem::dims`, one entry: the lower bounds, whether one is unknown, and the same for the upper
bounds -/
structure DimAcc where
  lows : List Expr := []
  loUndef : Bool := false
  ups : List Expr := []
  upUndef : Bool := false
  deriving Repr

/-- mem_access_range_analysis.cpp:223-227: a lower bound, or that there is none. -/
def DimAcc.addLow (d : DimAcc) : Res Expr → DimAcc
  | .ok lo => if Expr.hasInf lo then { d with loUndef := true } else { d with lows := d.lows ++ [lo] }
  | _ => { d with loUndef := true }
/-- mem_access_range_analysis.cpp:228-232: an upper bound, or that there is none. -/
def DimAcc.addUp (d : DimAcc) : Res Expr → DimAcc
  | .ok hi => if Expr.hasInf hi then { d with upUndef := true } else { d with ups := d.ups ++ [hi] }
  | _ => { d with upUndef := true }

/-- mem_access_range_analysis.cpp:219-233: one dimension of a subset.  `minimum_new` and `maximum_new` are called with tight bounds. -/
def DimAcc.add (P : List String) (A : Assums) (d : DimAcc) (e : Expr) : Res DimAcc :=
  match symMinimumNew true P A e, symMaximumNew true P A e with
  | .ub, _ => .ub
  | _, .ub => .ub
  | lb, ub => .ok ((d.addLow lb).addUp ub)

/-- mem_access_range_analysis.cpp:206-236: one subset: the list is extended to its rank, then every dimension is added. -/
def addSubset (P : List String) (A : Assums) : List DimAcc → List Expr → Res (List DimAcc)
  | ds, [] => .ok ds
  | [], e :: r => (DimAcc.add P A {} e).bind fun d => (addSubset P A [] r).bind fun ds => .ok (d :: ds)
  | d :: ds, e :: r => (DimAcc.add P A d e).bind fun d => (addSubset P A ds r).bind fun ds => .ok (d :: ds)

/-- mem_access_range_analysis.cpp:173-238 `process_direct_users`: all subsets, each with the assumptions of its block. -/
def addSubsets (P : List String) : List (Assums × List Expr) → List DimAcc → Res (List DimAcc)
  | [], ds => .ok ds
  | (A, sub) :: r, ds => (addSubset P A ds sub).bind (addSubsets P r)

/-- mem_access_range_analysis.h `MemAccessRange` -/
structure Range where
  sawRead : Bool
  sawWrite : Bool
  undefined : Bool
  dims : List (Option Expr × Option Expr)
  deriving Repr

/-- mem_access_range_analysis.cpp:136-160: the bounds of one dimension.  (The minimum and the maximum of terms without an infinity is no
infinity, so the tests of lines 149-156 never fire.) -/
def DimAcc.final (d : DimAcc) : Option Expr × Option Expr :=
  (if d.lows ≠ [] ∧ d.loUndef = false then some (.min d.lows) else none,
   if d.ups ≠ [] ∧ d.upUndef = false then some (.max d.ups) else none)

/-- The subsets with which `x` is accessed, each with the assumptions (without the trivial ones) of its block: `f` selects reads or writes.
A block without an entry does not occur. -/
def Node.subsetsOf (C : Ctx) (A : Assums × Assums) (n : Node) (f : Stmt → List (List Expr)) : List (Assums × List Expr) :=
  n.blocksAt.flatMap fun q => match n.assums C A q.1 with
    | some B => q.2.flatMap fun s => (f s).map fun sub => (B.1, sub)
    | none => []

/-- mem_access_range_analysis.cpp:81-101 `get(x, node, ...)` and 118-171 `process_workItem`: the range of `x` in the region `n`, at whose
entry the assumptions `A` are reported; `null` if no access has an index.  `x` must be among the containers looked for, as it is in
arguments_analysis.cpp:102-112.  (There are no views and moves in the model.) -/
def Node.range (C : Ctx) (A : Assums × Assums) (n : Node) (x : String) : Res Range :=
  (addSubsets (C.params n) (n.subsetsOf C A (Stmt.readSubs x) ++ n.subsetsOf C A (Stmt.writeSubs x)) []).bind fun ds =>
    if ds.isEmpty then .null
    else .ok { sawRead := decide (reads n.users x), sawWrite := decide (writes n.users x),
               undefined := (ds.map DimAcc.final).any fun b => b.1.isNone || b.2.isNone
               dims := ds.map DimAcc.final }

end Docc.IR
