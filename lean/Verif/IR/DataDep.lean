import Verif.IR.Users
import Verif.IR.Sem

/-
DataDependencyAnalysis (sdfg/src/analysis/data_dependency_analysis.cpp) in detailed mode, and the users of For2Map.
-/
namespace Docc.IR
open Docc.Sym

/-- A user with its position, container, subset and kind (users.h `User`).  `art`: an artificial "undefined" user
(data_dependency_analysis.cpp:528-537).  `whole`: the memlet of a library node, which covers the container.  Simplification: each memlet
has an access node of its own, so a user has exactly one subset. -/
structure Usr where
  pos : List Nat
  cont : String
  sub : List Expr
  whole : Bool := false
  art : Bool := false
  deriving DecidableEq, Inhabited

/-- What the analysis asks others: the type of a container, sets.cpp `is_disjoint(current, previous)` and `is_subset(previous, current)`
under the assumptions of the users' scopes, maps.cpp `intersects` with respect to a loop variable, the dominance analysis,
`LoopAnalysis::is_monotonic`, `IfElse::is_complete`, and the iteration order of an `unordered_map`. -/
structure DepOracle where
  scalar : String → Bool
  disjoint : Usr → Usr → Bool
  subset : Usr → Usr → Bool
  meets : String → Usr → Usr → Bool
  postdom : Usr → Usr → Bool
  dom : Usr → Usr → Bool
  mono : String → Expr → Bool
  complete : Brs → Bool
  order : List Usr → List Usr

/-- data_dependency_analysis.cpp:891-929 `depends`. -/
def depends (O : DepOracle) (p c : Usr) : Bool := decide (p.cont = c.cont) && (O.scalar p.cont || p.art || !O.disjoint c p)
/-- data_dependency_analysis.cpp:834-889 `closes`. -/
def closes (O : DepOracle) (reqDom : Bool) (p c : Usr) : Bool :=
  decide (p.cont = c.cont) && !p.art && !c.art && (!reqDom || O.postdom c p) && (O.scalar p.cont || O.subset p c)
/-- data_dependency_analysis.cpp:793-832 `intersects`. -/
def meetsNow (O : DepOracle) (p c : Usr) : Bool := decide (p.cont = c.cont) && (O.scalar p.cont || p.art || c.art || !O.disjoint c p)
/-- data_dependency_analysis.cpp:753-791 `supersedes_restrictive`. -/
def supersedes (O : DepOracle) (p c : Usr) : Bool :=
  decide (p.cont = c.cont) && (O.scalar p.cont || (!p.art && !c.art && O.subset p c))
/-- data_dependency_analysis.cpp:689-751 `loop_depends`. -/
def loopDepends (O : DepOracle) (i : String) (p c : Usr) : Bool :=
  decide (p.cont = c.cont) && (O.scalar p.cont || (!p.art && !c.art && O.meets i p c))

/-- `undefined`, and the keys of `open_definitions` and `closed_definitions` (the reads collected for each definition are not
modelled). -/
structure DepSt where
  undef : List Usr := []
  opn : List Usr := []
  cls : List Usr := []
  deriving Inhabited

/-- `found_undefined_user` after the loop over the matching definitions: decided by the last one in iteration order
(data_dependency_analysis.cpp:121-127) -/
def lastArt (O : DepOracle) (hits : List Usr) : Bool := match (O.order hits).getLast? with | some p => p.art | none => false

/-- data_dependency_analysis.cpp:115-134 and the same lines elsewhere: a read is matched with the open definitions it depends on; it is
undefined if there is none, or if the last one looked at is artificial. -/
def readUsr (O : DepOracle) (st : DepSt) (r : Usr) : DepSt :=
  let hits := st.opn.filter (depends O · r)
  if hits.isEmpty || lastArt O hits then { st with undef := r :: st.undef } else st

/-- data_dependency_analysis.cpp:649-668, 602-614: transition (and return) reads are matched by container name only. -/
def readName (st : DepSt) (r : Usr) : DepSt :=
  if st.opn.any (fun p => decide (p.cont = r.cont)) then st else { st with undef := r :: st.undef }

/-- data_dependency_analysis.cpp:86-105 and the same lines elsewhere: a write closes definitions and opens one. -/
def writeUsr (O : DepOracle) (reqDom : Bool) (st : DepSt) (w : Usr) : DepSt :=
  { st with opn := st.opn.filter (fun p => !closes O reqDom p w) ++ [w], cls := st.cls ++ st.opn.filter (fun p => closes O reqDom p w) }

/-- users for the symbols of expressions -/
def symUsrs (pos : List Nat) (l : List String) : List Usr := l.map fun x => ⟨pos, x, [], false, false⟩

/-- The reads of a computation in visiting order: inputs, each followed by the symbols of its memlet, and the symbols of the output
memlet (data_dependency_analysis.cpp:66-178). -/
def Stmt.readUsrs (pos : List Nat) : Stmt → List Usr
  | .tasklet _ ins _ sub =>
    (ins.flatMap fun r => ⟨pos, r.1, r.2, false, false⟩ :: symUsrs pos (Expr.atomsL r.2)) ++ symUsrs pos (Expr.atomsL sub)
  | .lib _ reads _ => reads.map fun x => ⟨pos, x, [], true, false⟩
/-- the writes of a computation -/
def Stmt.writeUsrs (pos : List Nat) : Stmt → List Usr
  | .tasklet _ _ out sub => [⟨pos, out, sub, false, false⟩]
  | .lib _ _ writes => writes.map fun x => ⟨pos, x, [], true, false⟩

/-- data_dependency_analysis.cpp:53-180 `visit_block`: writes close without a dominance test. -/
def visitBlock (O : DepOracle) (pos : List Nat) : Nat → List Stmt → DepSt → DepSt
  | _, [], st => st
  | k, s :: l, st =>
    visitBlock O pos (k + 1) l ((s.writeUsrs (pos ++ [k])).foldl (writeUsr O false) ((s.readUsrs (pos ++ [k])).foldl (readUsr O) st))

/-- data_dependency_analysis.cpp:649-685: the reads of all assignments, then the writes. -/
def visitTrans (O : DepOracle) (pos : List Nat) (t : Trans) (st : DepSt) : DepSt :=
  (t.map fun a => (⟨pos, a.1, [], false, false⟩ : Usr)).foldl (writeUsr O true)
    ((symUsrs pos (t.flatMap fun a => a.2.atoms)).foldl readName st)

/-- data_dependency_analysis.cpp:293-327: an undefined read of a loop body is matched with the definitions before the loop; it stays
undefined if there is none, if the last one is artificial, or if no dominating one covers it. -/
def forwardRead (O : DepOracle) (st : DepSt) (r : Usr) : DepSt :=
  let hits := st.opn.filter (meetsNow O · r)
  if hits.isEmpty || lastArt O hits then { st with undef := r :: st.undef }
  else if hits.any (fun p => O.dom p r && supersedes O r p) then st
  else { st with undef := r :: st.undef }

/-- data_dependency_analysis.cpp:478-515: for a complete if-else, the containers defined in the first branch (open or closed) and opened
in every other branch. -/
def ifCandidates : List DepSt → List String
  | [] => []
  | b :: r => ((b.opn ++ b.cls).map (·.cont)).filter fun x => r.all fun b' => b'.opn.any fun w => decide (w.cont = x)

/-- data_dependency_analysis.cpp:407-546 `visit_if_else` after the branches `bs` have been visited. -/
def mergeIf (O : DepOracle) (pos : List Nat) (b : Brs) (bs : List DepSt) (st : DepSt) : DepSt :=
  let st := (symUsrs pos b.condAtoms).foldl (readUsr O) st
  let st := (bs.flatMap DepSt.undef).foldl (readUsr O) st
  let cls := st.cls ++ bs.flatMap DepSt.cls
  let opn := bs.flatMap DepSt.opn
  if O.complete b then
    { st with opn := st.opn.filter (fun p : Usr => !decide (p.cont ∈ ifCandidates bs)) ++ opn,
              cls := cls ++ st.opn.filter (fun p : Usr => decide (p.cont ∈ ifCandidates bs)) }
  else { st with opn := st.opn ++ opn.map (fun w : Usr => ⟨w.pos, w.cont, [], false, true⟩) ++ opn, cls := cls }

/-- data_dependency_analysis.cpp:548-591 `visit_while` after the body `b` has been visited. -/
def mergeWhile (b st : DepSt) : DepSt :=
  let st := b.undef.foldl readName { st with cls := st.cls ++ b.cls }
  { st with opn := st.opn ++ b.opn }

/-- data_dependency_analysis.cpp:182-256: the header of a loop: reads of the initial value, write of the loop variable, which closes
definitions, its write in the update, reads of the condition. -/
def visitHeader (O : DepOracle) (pos : List Nat) (i : String) (init : Expr) (cond : Cond) (st : DepSt) : DepSt :=
  let st := (symUsrs (pos ++ [0]) init.atoms).foldl (readUsr O) st
  let st := writeUsr O true st ⟨pos ++ [0], i, [], false, false⟩
  let st := { st with opn := st.opn ++ [⟨pos ++ [2], i, [], false, false⟩] }
  (symUsrs (pos ++ [1]) cond.atoms).foldl (readUsr O) st

/-- data_dependency_analysis.cpp:285-342, 401-404: merge a visited loop body into the surroundings. -/
def mergeFor (O : DepOracle) (b st : DepSt) : DepSt :=
  let st := b.undef.foldl (forwardRead O) { st with cls := st.cls ++ b.cls }
  { st with opn := st.opn.filter (fun p => !b.opn.any (fun w => closes O true p w)) ++ b.opn,
            cls := st.cls ++ st.opn.filter (fun p => b.opn.any (fun w => closes O true p w)) }

/-- data_dependency_analysis.cpp:593-622 `visit_return`: everything is closed. -/
def visitReturn (pos : List Nat) (d : String) (q : Bool) (st : DepSt) : DepSt :=
  let st := if q || d == "" then st else readName st ⟨pos, d, [], false, false⟩
  { st with opn := [], cls := st.cls ++ st.opn }

mutual
/-- the dispatch of `visit_sequence` (data_dependency_analysis.cpp:633-647); break and continue are ignored -/
def Node.visit (O : DepOracle) (pos : List Nat) : Node → DepSt → DepSt
  | .block l, st => visitBlock O pos 0 l st
  | .seq s, st => s.visit O pos 0 st
  | .ifElse b, st => mergeIf O pos b (b.visits O pos 0) st
  | .whileL s, st => mergeWhile (s.visit O pos 0 {}) st
  | .loop _ i init cond upd s, st =>
    mergeFor O ((symUsrs (pos ++ [2]) upd.atoms).foldl (readUsr O) (s.visit O pos 0 {})) (visitHeader O pos i init cond st)
  | .brk, st => st
  | .cont, st => st
  | .ret d q, st => visitReturn pos d q st
/-- data_dependency_analysis.cpp:624-687 `visit_sequence`. -/
def Seq.visit (O : DepOracle) (pos : List Nat) (k : Nat) : Seq → DepSt → DepSt
  | .nil, st => st
  | .cons n t r, st => r.visit O pos (k + 1) (visitTrans O (pos ++ [k]) t (n.visit O (pos ++ [k]) st))
/-- the branches, each visited on its own (data_dependency_analysis.cpp:438-451) -/
def Brs.visits (O : DepOracle) (pos : List Nat) (k : Nat) : Brs → List DepSt
  | .nil => []
  | .cons _ s r => s.visit O (pos ++ [k]) 0 {} :: r.visits O pos (k + 1)
end

/-- kinds of loop-carried dependencies (data_dependency_analysis.h) -/
inductive Dep where
  | readWrite
  | writeWrite
  deriving DecidableEq, Repr, Inhabited

/-- the state after the body and the update of a loop (data_dependency_analysis.cpp:258-283) -/
def loopBody (O : DepOracle) (pos : List Nat) (upd : Expr) (s : Seq) : DepSt :=
  (symUsrs (pos ++ [2]) upd.atoms).foldl (readUsr O) (s.visit O pos 0 {})

/-- data_dependency_analysis.cpp:344-399, the result of `dependencies(loop)`. -/
def loopDeps (O : DepOracle) (pos : List Nat) (i : String) (upd : Expr) (s : Seq) : List (String × Dep) :=
  let b := loopBody O pos upd s
  let test : Usr → Usr → Bool := if O.mono i upd then loopDepends O i else depends O
  let rw := (b.undef.filter fun r => b.opn.any fun w => test w r).map (·.cont)
  let ww := (b.opn.filter fun w => !decide (w.cont ∈ rw) && (!O.mono i upd || b.opn.any fun w2 => loopDepends O i w w2)).map (·.cont)
  rw.map (·, .readWrite) ++ ww.map (·, .writeWrite)

end Docc.IR
