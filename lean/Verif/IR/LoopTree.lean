/-
LoopAnalysis: the loop tree and the loop nest summaries (sdfg/src/analysis/loop_analysis.cpp:15-210, 345-463,
sdfg/include/sdfg/analysis/loop_analysis.h:11-47).
-/
namespace Docc.IR.LoopTree

/-- the loop classes: `While`, `For`, `Map` (`For` and `Map` are `StructuredLoop`s) -/
inductive LKind where
  | whil
  | for_
  | map
  deriving Repr, DecidableEq

/-- Control flow nodes as the analysis sees them.  A block keeps whether one of its library nodes has a side effect; a loop keeps its
identity (the address of the node), its class and whether `series::is_contiguous` accepts its update (false for a while loop). -/
inductive Nd where
  | block (eff : Bool)
  | seq (l : List Nd)
  | ite (branches : List Nd)
  | loop (k : LKind) (i : Nat) (contig : Bool) (body : List Nd)
  | brk
  | cont
  | ret

/-- a pointer to a loop with what can be read through it -/
structure Lp where
  k : LKind
  i : Nat
  contig : Bool
  body : List Nd

mutual
/-- size, for termination of the work lists -/
def Nd.w : Nd → Nat
  | .seq l => 1 + wL l
  | .ite l => 1 + wL l
  | .loop _ _ _ b => 2 + wL b
  | _ => 1
@[inherit_doc Nd.w] def wL : List Nd → Nat
  | [] => 0
  | n :: r => n.w + wL r
end

theorem wL_append (a b : List Nd) : wL (a ++ b) = wL a + wL b := by
  induction a with
  | nil => simp [wL]
  | cons n r ih => simp only [List.cons_append, wL, ih]; omega

theorem Nd.w_pos (n : Nd) : 0 < n.w := by cases n <;> simp [Nd.w] <;> omega

/-- loop_analysis.cpp:17-57 `run(scope, parent_loop)` with the work list `q`: the entries appended to `loops_` and inserted into
`loop_tree_`, in this order.  The map is ordered by the position in `loops_` (loop_analysis.h:11-23), which for distinct loops is
the order of insertion, so the list of entries is the map. -/
def runQ (p : Option Lp) : List Nd → List (Lp × Option Lp)
  | [] => []
  | .block _ :: q => runQ p q
  | .seq l :: q => runQ p (q ++ l)
  | .ite l :: q => runQ p (q ++ l)
  | .loop k i c b :: q => (⟨k, i, c, b⟩, p) :: (runQ (some ⟨k, i, c, b⟩) [.seq b] ++ runQ p q)
  | .brk :: q => runQ p q
  | .cont :: q => runQ p q
  | .ret :: q => runQ p q
termination_by q => wL q
decreasing_by all_goals (simp only [wL, Nd.w, wL_append]; omega)

/-- loop_analysis.cpp:59-63: `loop_tree()` after the analysis of a function body -/
def loopTree (root : List Nd) : List (Lp × Option Lp) := runQ none [.seq root]

/-- `loops()` -/
def loops (root : List Nd) : List Lp := (loopTree root).map (·.1)

/-- loop_analysis.cpp:402-416 `children` -/
def children (t : List (Lp × Option Lp)) (l : Lp) : List Lp :=
  (t.filter fun e => match e.2 with | some p => p.i == l.i | none => false).map (·.1)

/-- loop_analysis.cpp:355-363 `outermost_loops` -/
def outermost (t : List (Lp × Option Lp)) : List Lp := (t.filter fun e => e.2.isNone).map (·.1)

/-- `loop_tree_.at(l)`; the inner option is the null pointer -/
def parentOf (t : List (Lp × Option Lp)) (l : Lp) : Option (Option Lp) := (t.find? fun e => e.1.i == l.i).map (·.2)

/-- loop_analysis.cpp:366-371 `is_outermost_loop` -/
def isOutermost (t : List (Lp × Option Lp)) (l : Lp) : Bool :=
  match parentOf t l with
  | some none => true
  | _ => false

/-- loop_analysis.cpp:377-387: walk up; true when the null pointer is reached before a Map.  The fuel bounds the walk. -/
def noMapAbove (t : List (Lp × Option Lp)) : Nat → Option Lp → Bool
  | _, none => true
  | 0, _ => false
  | f + 1, some a => if a.k = .map then false else match parentOf t a with
    | some p => noMapAbove t f p
    | none => false

/-- loop_analysis.cpp:373-392 `outermost_maps` -/
def outermostMaps (t : List (Lp × Option Lp)) : List Lp :=
  (t.filter fun e => decide (e.1.k = .map) && noMapAbove t (t.length + 1) e.2).map (·.1)

/-- loop_analysis.cpp:424-445 `loop_tree_paths`; the fuel bounds the recursion -/
def pathsF (t : List (Lp × Option Lp)) : Nat → Lp → List (List Lp)
  | 0, _ => []
  | f + 1, l => match children t l with
    | [] => [[l]]
    | c => c.flatMap fun x => (pathsF t f x).map (l :: ·)

/-- loop_analysis.cpp:418-422 -/
def loopTreePaths (t : List (Lp × Option Lp)) (l : Lp) : List (List Lp) := pathsF t (t.length + 1) l

/-- loop_analysis.cpp:450-459: the loop over the children -/
def insertNew : List Lp → List Lp → List Lp → List Lp × List Lp
  | d, q, [] => (d, q)
  | d, q, c :: r => if d.any (fun x => x.i == c.i) then insertNew d q r else insertNew (d ++ [c]) (q ++ [c]) r

/-- loop_analysis.cpp:447-463: the work list of `descendants`; the fuel bounds the loop -/
def descF (t : List (Lp × Option Lp)) : Nat → List Lp → List Lp → List Lp
  | 0, _, d => d
  | _, [], d => d
  | f + 1, c :: q, d => let r := insertNew d q (children t c); descF t f r.2 r.1

/-- loop_analysis.cpp:447-463 `descendants` -/
def descendants (t : List (Lp × Option Lp)) (l : Lp) : List Lp := descF t (t.length + 1) [l] []

/-- loop_analysis.cpp:89-118: the walk down; `true`: perfectly nested.  The fuel bounds the walk. -/
def perfectF (t : List (Lp × Option Lp)) : Nat → Lp → Bool
  | 0, _ => true
  | f + 1, l => match children t l with
    | [] => true
    | [c] => match l.body with
      | [.loop _ i _ _] => if i = c.i then perfectF t f c else false
      | _ => false
    | _ => false

/-- loop_analysis.cpp:160-203: the work list of the side effect search -/
def effQ : List Nd → Bool
  | [] => false
  | .block e :: q => e || effQ q
  | .seq l :: q => effQ (q ++ l)
  | .ite l :: q => effQ (q ++ l)
  | .loop .map _ _ _ :: q => effQ q
  | .loop .whil _ _ b :: q => effQ (q ++ [.seq b])
  | .loop .for_ _ _ b :: q => effQ (q ++ [.seq b])
  | .brk :: q => effQ q
  | .cont :: q => effQ q
  | .ret :: _ => true
termination_by q => wL q
decreasing_by all_goals (simp only [wL, Nd.w, wL_append]; omega)

/-- loop_analysis.h:25-43 `LoopInfo` without the element id -/
structure Info where
  index : Nat
  numLoops : Nat
  numMaps : Nat
  numFors : Nat
  numWhiles : Nat
  maxDepth : Nat
  perfectlyNested : Bool
  perfectlyParallel : Bool
  elementwise : Bool
  sideEffects : Bool
  deriving Repr, DecidableEq

/-- loop_analysis.cpp:71-207: the summary of one outermost loop.  `descendants.insert(loop)` adds the loop itself. -/
def infoOf (t : List (Lp × Option Lp)) (idx : Nat) (l : Lp) : Info :=
  let d := (insertNew (descendants t l) [] [l]).1
  let perfect := perfectF t (t.length + 1) l
  let maps := (d.filter fun x => decide (x.k = .map)).length
  let par := d.length == maps
  { index := idx
    numLoops := d.length
    numMaps := maps
    numFors := (d.filter fun x => decide (x.k = .for_)).length
    numWhiles := (d.filter fun x => decide (x.k = .whil)).length
    maxDepth := (loopTreePaths t l).foldl (fun m p => max m p.length) 0
    perfectlyNested := perfect
    perfectlyParallel := par
    elementwise := perfect && par && d.all fun x => decide (x.k ≠ .whil) && x.contig
    sideEffects := if l.k = .map then false else effQ [.seq l.body] }

/-- loop_analysis.cpp:65-207: the summaries, numbered in order -/
def infosFrom (t : List (Lp × Option Lp)) : Nat → List Lp → List (Lp × Info)
  | _, [] => []
  | n, l :: r => (l, infoOf t n l) :: infosFrom t (n + 1) r

/-- `loop_infos_` -/
def infos (root : List Nd) : List (Lp × Info) := infosFrom (loopTree root) 0 (outermost (loopTree root))

end Docc.IR.LoopTree
