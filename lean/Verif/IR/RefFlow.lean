import Verif.IR.SymPropMain
import Verif.IR.UGraphViol

/-
ReferencePropagation, the flow (sdfg/src/passes/dataflow/reference_propagation.cpp:67-137) and the analysis it relies on
(sdfg/src/analysis/reference_analysis.cpp).

Encoding: addresses are numbers.  A pointer container `p` holds an address, the reference memlet `p = &A[i]` (the `MOVE` of `p`) is the assignment
`p := A + i` of a transition, and a memlet `p[j]` is the access `M[p + j]` to the memory `M`; its use of `p` is a read of the symbol `p`.  The rewriting of
the memlet to `A[i + j]` is then the replacement of `p` by `A + i` in it, `Seq.prop` (that the memlets access the same memory is `reference_node_partial`).
-/
namespace Docc.IR
open Docc.Sym

/-! ### reference_analysis.cpp, for one pointer `x` -/

/-- reference_analysis.cpp:27-29: uses without definition, and the moves with their uses -/
structure RefSt where
  und : List V
  opn : List (V × List V)
  cls : List (V × List V)
  deriving Repr, DecidableEq

/-- nothing seen -/
def RefSt.empty : RefSt := ⟨[], [], []⟩

/-- the use is added to all definitions -/
def refAdd (u : V) (l : List (V × List V)) : List (V × List V) := l.map fun d => (d.1, d.2 ++ [u])

/-- reference_analysis.cpp:98-129 and 150-159: a use belongs to every open definition, or is undefined -/
def RefSt.use (q : RefSt) (u : V) : RefSt := if q.opn.isEmpty then { q with und := q.und ++ [u] } else { q with opn := refAdd u q.opn }

/-- reference_analysis.cpp:63-82: a move closes all definitions and opens its own -/
def RefSt.move (q : RefSt) (u : V) : RefSt := ⟨q.und, [(u, [])], q.cls ++ q.opn⟩

/-- reference_analysis.cpp:46-130: the uses of a block in order -/
def RefSt.evs (x : String) : List V → RefSt → RefSt
  | [], q => q
  | v :: r, q => RefSt.evs x r (if v.wr x then q.move v else match v with | .ev _ (.read, y) => if y = x then q.use v else q | _ => q)

/-- reference_analysis.cpp:174-195: the branch `b` has been visited on its own -/
def RefSt.branch (q b : RefSt) : RefSt :=
  b.und.foldl RefSt.use { q with cls := q.cls ++ b.cls }

/-- reference_analysis.cpp:204-246, 248-290: the body `b` has been visited on its own.  Undefined uses of the body belong to the open
definitions of the body (next iteration); they are added to *copies* of the open definitions before the loop (`for (auto entry : open_definitions)`), so
never to these, and stay undefined. -/
def RefSt.body (q b : RefSt) : RefSt :=
  ⟨q.und ++ b.und, q.opn ++ b.opn.map fun d => (d.1, d.2 ++ b.und), q.cls ++ b.cls⟩

/-- reference_analysis.cpp:292-303 -/
def RefSt.ret (q : RefSt) : RefSt := ⟨q.und, [], q.cls ++ q.opn⟩

mutual
/-- reference_analysis.cpp:305-331: dispatch.  (Pointers in loop headers are not looked at.) -/
def Node.refs (x : String) : Node → Nat → RefSt → RefSt
  | .block l, k, q => RefSt.evs x (Docc.IR.evs (k + 2) (l.flatMap Stmt.users)) q
  | .seq s, k, q => s.refs x (k + 2) q
  | .ifElse b, k, q =>
    let q1 := RefSt.evs x (Docc.IR.evs (k + 2) (readsOnce b.condAtoms)) q
    b.refs x (k + 2 + (readsOnce b.condAtoms).length) q1 []
  | .whileL s, k, q => q.body (s.refs x (k + 4) .empty)
  | .loop _ i init cond _ s, k, q => q.body (s.refs x (k + 2 + (initUses i init).length + (condUses cond).length + 2) .empty)
  | .brk, _, q => q
  | .cont, _, q => q
  | .ret _ _, _, q => q.ret
/-- the children; the transition holds the moves (see the encoding) -/
def Seq.refs (x : String) : Seq → Nat → RefSt → RefSt
  | .nil, _, q => q
  | .cons n t r, k, q =>
    r.refs x (k + n.vn + (transUses t).length) (RefSt.evs x (Docc.IR.evs (k + n.vn) (transUses t)) (n.refs x k q))
/-- reference_analysis.cpp:162-195: the branches start without definitions; their open definitions are added at the end -/
def Brs.refs (x : String) : Brs → Nat → RefSt → List (V × List V) → RefSt
  | .nil, _, q, o => { q with opn := q.opn ++ o }
  | .cons _ s r, k, q, o =>
    let b := s.refs x (k + 2) .empty
    r.refs x (k + 2 + s.kn) (q.branch b) (o ++ b.opn)
end

/-- reference_analysis.cpp:23-40, 369-383 `defined_by(container)`: the moves of a use -/
def Seq.definedBy (s : Seq) (x : String) (u : V) : List V :=
  let q := s.refs x 2 .empty
  ((q.cls ++ q.opn).filter fun d => u ∈ d.2).map (·.1)

/-! ### reference_propagation.cpp:67-137 -/

/-- reference_propagation.cpp:88-150: the use `r` is rewritten with the move `w`: the only definition, which dominates the use, and between them the viewed container `A` is not
moved.  (`all_uses_between` does not list the move itself.) -/
def RefAccepted (G : List (V × V)) (s : Seq) (A x : String) (w r : V) : Prop :=
  s.definedBy x r = [w] ∧ Dominates G (.nop 0) w r ∧ ∀ u z, (u, z) ∈ G → u.wr A = true → ¬ UsedBetween G w r u

/-- the address `&A[i]` -/
def addrOf (A : String) (i : Expr) : Expr := .add [.sym A, i]

end Docc.IR
