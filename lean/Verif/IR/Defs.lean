import Verif.IR.DataDep

/-
`DataDependencyAnalysis::definitions` (sdfg/src/analysis/data_dependency_analysis.cpp): for every write, the reads that may see it; and
DeadDataElimination (sdfg/src/passes/dataflow/dead_data_elimination.cpp), which erases the writes without such reads.

Positions: child `k` of a sequence is at `pos ++ [2k]` and its transition at `pos ++ [2k+1]`; the body of a loop is at `pos ++ [0]`, the
initial write of its variable at `pos ++ [1]`, the one of the update at `pos ++ [2]`, its condition at `pos ++ [3]`.
-/
namespace Docc.IR
open Docc.Sym

/-- What the analysis asks others (`DepOracle`), and its mode (data_dependency_analysis.h:63: not detailed unless requested). -/
structure DefOracle extends DepOracle where
  detailed : Bool := false

/-- data_dependency_analysis.cpp:891-929 `depends`. -/
def DefOracle.depends (O : DefOracle) (p c : Usr) : Bool :=
  decide (p.cont = c.cont) && (O.scalar p.cont || p.art || !O.detailed || !O.disjoint c p)
/-- data_dependency_analysis.cpp:834-889 `closes`. -/
def DefOracle.closes (O : DefOracle) (reqDom : Bool) (p c : Usr) : Bool :=
  decide (p.cont = c.cont) && !p.art && !c.art && (!reqDom || O.postdom c p) && (O.scalar p.cont || (O.detailed && O.subset p c))
/-- data_dependency_analysis.cpp:793-832 `intersects`. -/
def DefOracle.meetsNow (O : DefOracle) (p c : Usr) : Bool :=
  decide (p.cont = c.cont) && (O.scalar p.cont || p.art || c.art || !O.detailed || !O.disjoint c p)
/-- the test for loop-carried reads (data_dependency_analysis.cpp:344-399): `loop_depends` in detailed mode for a monotonic loop, `depends`
otherwise -/
def DefOracle.carried (O : DefOracle) (i : String) (upd : Expr) (p c : Usr) : Bool :=
  if O.detailed && O.mono i upd then loopDepends O.toDepOracle i p c else O.depends p c

/-- a write and the reads recorded for it -/
abbrev Def := Usr × List Usr

/-- `undefined`, `open_definitions`, `closed_definitions` (data_dependency_analysis.cpp:33-35). -/
structure DefSt where
  undef : List Usr := []
  opn : List Def := []
  cls : List Def := []
  deriving Inhabited

/-- `user.second.insert(read)` for the definitions that match -/
def mark (f : Usr → Bool) (r : Usr) (l : List Def) : List Def := l.map fun e => if f e.1 then (e.1, r :: e.2) else e

/-- data_dependency_analysis.cpp:115-134 and the same lines elsewhere: a read is recorded for the open definitions it depends on; it is
undefined if there is none, or if the last one looked at is artificial. -/
def DefSt.read (O : DefOracle) (st : DefSt) (r : Usr) : DefSt :=
  let hits := (st.opn.map (·.1)).filter (O.depends · r)
  { st with opn := mark (O.depends · r) r st.opn,
            undef := if hits.isEmpty || lastArt O.toDepOracle hits then r :: st.undef else st.undef }

/-- data_dependency_analysis.cpp:649-668, 602-614, 570-585: reads of transitions and returns, and undefined reads of a while loop, are
matched by container name only. -/
def DefSt.readName (st : DefSt) (r : Usr) : DefSt :=
  { st with opn := mark (fun p => decide (p.cont = r.cont)) r st.opn,
            undef := if st.opn.any (fun p => decide (p.1.cont = r.cont)) then st.undef else r :: st.undef }

/-- data_dependency_analysis.cpp:86-105 and the same lines elsewhere: a write closes definitions and opens one. -/
def DefSt.write (O : DefOracle) (reqDom : Bool) (st : DefSt) (w : Usr) : DefSt :=
  { st with opn := st.opn.filter (fun p => !O.closes reqDom p.1 w) ++ [(w, [])],
            cls := st.cls ++ st.opn.filter (fun p => O.closes reqDom p.1 w) }

/-- data_dependency_analysis.cpp:53-180 `visit_block`. -/
def defsBlock (O : DefOracle) (pos : List Nat) : Nat → List Stmt → DefSt → DefSt
  | _, [], st => st
  | k, s :: l, st =>
    defsBlock O pos (k + 1) l ((s.writeUsrs (pos ++ [k])).foldl (DefSt.write O false) ((s.readUsrs (pos ++ [k])).foldl (DefSt.read O) st))

/-- data_dependency_analysis.cpp:649-685: the reads of all assignments, then the writes. -/
def defsTrans (O : DefOracle) (pos : List Nat) (t : Trans) (st : DefSt) : DefSt :=
  (t.map fun a => (⟨pos, a.1, [], false, false⟩ : Usr)).foldl (DefSt.write O true)
    ((symUsrs pos (t.flatMap fun a => a.2.atoms)).foldl DefSt.readName st)

/-- data_dependency_analysis.cpp:293-327: an undefined read of a loop body is recorded for the definitions before the loop; it stays
undefined if there is none, if the last one is artificial, or if no dominating one covers it. -/
def DefSt.forward (O : DefOracle) (st : DefSt) (r : Usr) : DefSt :=
  let hits := (st.opn.map (·.1)).filter (O.meetsNow · r)
  { st with opn := mark (O.meetsNow · r) r st.opn,
            undef := if hits.isEmpty || lastArt O.toDepOracle hits || !hits.any (fun p => O.dom p r && supersedes O.toDepOracle r p)
              then r :: st.undef else st.undef }

/-- data_dependency_analysis.cpp:478-505: for a complete if-else, the containers defined in the first branch (open or closed) and opened
in every other branch. -/
def ifCands : List DefSt → List String
  | [] => []
  | b :: r => ((b.opn ++ b.cls).map (·.1.cont)).filter fun x => r.all fun b' => b'.opn.any fun w => decide (w.1.cont = x)

/-- data_dependency_analysis.cpp:407-546 `visit_if_else` after the branches `bs` have been visited. -/
def defsIf (O : DefOracle) (pos : List Nat) (b : Brs) (bs : List DefSt) (st : DefSt) : DefSt :=
  let st := (symUsrs pos b.condAtoms).foldl (DefSt.read O) st
  let st := (bs.flatMap DefSt.undef).foldl (DefSt.read O) st
  let cls := st.cls ++ bs.flatMap DefSt.cls
  let opn := bs.flatMap DefSt.opn
  if O.complete b then
    { st with opn := st.opn.filter (fun p => !decide (p.1.cont ∈ ifCands bs)) ++ opn,
              cls := cls ++ st.opn.filter (fun p => decide (p.1.cont ∈ ifCands bs)) }
  else { st with opn := st.opn ++ opn.map (fun w => (⟨w.1.pos, w.1.cont, [], false, true⟩, [])) ++ opn, cls := cls }

/-- data_dependency_analysis.cpp:548-591 `visit_while` after the body `b` has been visited. -/
def defsWhile (b st : DefSt) : DefSt :=
  let st := b.undef.foldl DefSt.readName { st with cls := st.cls ++ b.cls }
  { st with opn := st.opn ++ b.opn.map fun w => (w.1, w.2 ++ b.undef.filter fun r => decide (w.1.cont = r.cont)) }

/-- data_dependency_analysis.cpp:182-256: the header of a loop: reads of the initial value, write of the loop variable, which closes
definitions, its write in the update, reads of the condition. -/
def defsHeader (O : DefOracle) (pos : List Nat) (i : String) (init : Expr) (cond : Cond) (st : DefSt) : DefSt :=
  let st := (symUsrs (pos ++ [1]) init.atoms).foldl (DefSt.read O) st
  let st := DefSt.write O true st ⟨pos ++ [1], i, [], false, false⟩
  let st := { st with opn := st.opn ++ [(⟨pos ++ [2], i, [], false, false⟩, [])] }
  (symUsrs (pos ++ [3]) cond.atoms).foldl (DefSt.read O) st

/-- data_dependency_analysis.cpp:285-404: merge a visited loop body `b` (including the reads of the update) into the surroundings. -/
def defsFor (O : DefOracle) (i : String) (upd : Expr) (b st : DefSt) : DefSt :=
  let st := b.undef.foldl (DefSt.forward O) { st with cls := st.cls ++ b.cls }
  { st with opn := st.opn.filter (fun p => !b.opn.any (fun w => O.closes true p.1 w.1)) ++
                     b.opn.map (fun w => (w.1, w.2 ++ b.undef.filter fun r => O.carried i upd w.1 r)),
            cls := st.cls ++ st.opn.filter (fun p => b.opn.any (fun w => O.closes true p.1 w.1)) }

/-- data_dependency_analysis.cpp:593-622 `visit_return`: everything is closed. -/
def defsReturn (pos : List Nat) (d : String) (q : Bool) (st : DefSt) : DefSt :=
  let st := if q || d == "" then st else st.readName ⟨pos, d, [], false, false⟩
  { st with opn := [], cls := st.cls ++ st.opn }

mutual
/-- the dispatch of `visit_sequence` (data_dependency_analysis.cpp:633-647); break and continue are ignored -/
def Node.defs (O : DefOracle) (pos : List Nat) : Node → DefSt → DefSt
  | .block l, st => defsBlock O pos 0 l st
  | .seq s, st => s.defs O pos 0 st
  | .ifElse b, st => defsIf O pos b (b.defs O pos 0) st
  | .whileL s, st => defsWhile (s.defs O (pos ++ [0]) 0 {}) st
  | .loop _ i init cond upd s, st =>
    defsFor O i upd ((symUsrs (pos ++ [2]) upd.atoms).foldl (DefSt.read O) (s.defs O (pos ++ [0]) 0 {})) (defsHeader O pos i init cond st)
  | .brk, st => st
  | .cont, st => st
  | .ret d q, st => defsReturn pos d q st
/-- data_dependency_analysis.cpp:624-687 `visit_sequence`. -/
def Seq.defs (O : DefOracle) (pos : List Nat) (k : Nat) : Seq → DefSt → DefSt
  | .nil, st => st
  | .cons n t r, st => r.defs O pos (k + 1) (defsTrans O (pos ++ [2 * k + 1]) t (n.defs O (pos ++ [2 * k]) st))
/-- the branches, each visited on its own (data_dependency_analysis.cpp:438-451) -/
def Brs.defs (O : DefOracle) (pos : List Nat) (k : Nat) : Brs → List DefSt
  | .nil => []
  | .cons _ s r => s.defs O (pos ++ [k]) 0 {} :: r.defs O pos (k + 1)
end

/-- The result of the analysis (data_dependency_analysis.cpp:29-49): all definitions with the reads recorded for them. -/
def definitions (O : DefOracle) (p : Seq) : List Def := (p.defs O [] 0 {}).cls ++ (p.defs O [] 0 {}).opn

/-- dead_data_elimination.cpp:50-58: a definition of `x` at `pos`, not artificial, for which no reads are recorded -/
def noReads (ds : List Def) (pos : List Nat) (x : String) : Bool :=
  ds.any (fun e => decide (e.1.pos = pos) && decide (e.1.cont = x) && !e.1.art) &&
  ds.all (fun e => !(decide (e.1.pos = pos) && decide (e.1.cont = x) && !e.1.art) || e.2.isEmpty)

/-- dead_data_elimination.cpp:66-82: the tasklet that writes a dead definition is cleared, a library node if it has no side effect (`pure`);
all outputs of a library node go with it (structured_sdfg_builder.cpp:1517-1558 `clear_node`). -/
def Stmt.keep (pure : String → Bool) (P : List Nat → String → Bool) (pos : List Nat) : Stmt → Bool
  | .tasklet _ _ out _ => !P pos out
  | .lib op _ ws => !(pure op && ws.any (P pos))

/-- the computations of a block that stay -/
def eraseBlock (pure : String → Bool) (P : List Nat → String → Bool) (pos : List Nat) : Nat → List Stmt → List Stmt
  | _, [] => []
  | k, s :: l => if s.keep pure P (pos ++ [k]) then s :: eraseBlock pure P pos (k + 1) l else eraseBlock pure P pos (k + 1) l

mutual
/-- dead_data_elimination.cpp:59-82: erase the definitions `P` from blocks and transitions. -/
def Node.eraseDefs (pure : String → Bool) (P : List Nat → String → Bool) (pos : List Nat) : Node → Node
  | .block l => .block (eraseBlock pure P pos 0 l)
  | .seq s => .seq (s.eraseDefs pure P pos 0)
  | .ifElse b => .ifElse (b.eraseDefs pure P pos 0)
  | .whileL s => .whileL (s.eraseDefs pure P (pos ++ [0]) 0)
  | .loop m i init cond upd s => .loop m i init cond upd (s.eraseDefs pure P (pos ++ [0]) 0)
  | .brk => .brk
  | .cont => .cont
  | .ret d q => .ret d q
/-- the children of a sequence -/
def Seq.eraseDefs (pure : String → Bool) (P : List Nat → String → Bool) (pos : List Nat) (k : Nat) : Seq → Seq
  | .nil => .nil
  | .cons n t r =>
    .cons (n.eraseDefs pure P (pos ++ [2 * k])) (t.filter fun a => !P (pos ++ [2 * k + 1]) a.1) (r.eraseDefs pure P pos (k + 1))
/-- the branches of an if-else -/
def Brs.eraseDefs (pure : String → Bool) (P : List Nat → String → Bool) (pos : List Nat) (k : Nat) : Brs → Brs
  | .nil => .nil
  | .cons c s r => .cons c (s.eraseDefs pure P (pos ++ [k]) 0) (r.eraseDefs pure P pos (k + 1))
end

/-- DeadDataElimination::run_pass (dead_data_elimination.cpp:16-99) on the transient containers `xs` that are not pointers and have no views
or moves; the definitions are computed once. -/
def deadData (O : DefOracle) (pure : String → Bool) (xs : List String) (p : Seq) : Seq :=
  p.eraseDefs pure (fun pos x => decide (x ∈ xs) && noReads (definitions O p) pos x) [] 0

end Docc.IR
