import Verif.IR.AgreeS

/-
DeadReferenceElimination (sdfg/src/passes/dataflow/dead_reference_elimination.cpp) and the users analysis with pointer memlets
(sdfg/src/analysis/users.cpp:81-172).
-/
namespace Docc.IR
open Docc.Sym

/-- A statement that assigns a pointer: a reference `p = &x[e..]` (`"&"`, memlet type Reference) or a dereference `p = *q` (`"*"`, memlet type
Dereference_Src).  Both store one value in the container itself, so the written subset is empty.  Simplification: the address is an operation of
the operands of the statement; since `clear_node` (C89) removes the whole access node, what the address is does not matter. -/
def Stmt.isMove : Stmt → Bool
  | .tasklet op _ _ [] => op == "&" || op == "*"
  | _ => false

/-- the container a move assigns -/
def Stmt.target : Stmt → String
  | .tasklet _ _ out _ => out
  | .lib _ _ _ => ""

/-- users.cpp:91-112: the `WRITE` users of a statement; the access node a reference or dereference memlet enters is a `MOVE` user instead. -/
def Stmt.stores (s : Stmt) : List String :=
  if s.isMove then [] else
    match s with
    | .tasklet _ _ out _ => [out]
    | .lib _ _ ws => ws

mutual
/-- users.cpp:174-438: the containers with `WRITE` users (loop variables and assigned symbols among them). -/
def Node.stores : Node → List String
  | .block l => l.flatMap Stmt.stores
  | .seq s => s.stores
  | .ifElse b => b.stores
  | .whileL s => s.stores
  | .loop _ i _ _ _ s => i :: s.stores
  | .brk => []
  | .cont => []
  | .ret _ _ => []
/-- users.cpp:198-249: as in `Seq.users` the traversal ends at a `Return`. -/
def Seq.stores : Seq → List String
  | .nil => []
  | .cons n t r => if n.isRet then n.stores else n.stores ++ t.map (·.1) ++ r.stores
def Brs.stores : Brs → List String
  | .nil => []
  | .cons _ s r => s.stores ++ r.stores
end

mutual
/-- users.cpp:95-104: the containers with `MOVE` users. -/
def Node.moves : Node → List String
  | .block l => (l.filter Stmt.isMove).map Stmt.target
  | .seq s => s.moves
  | .ifElse b => b.moves
  | .whileL s => s.moves
  | .loop _ _ _ _ _ s => s.moves
  | .brk => []
  | .cont => []
  | .ret _ _ => []
def Seq.moves : Seq → List String
  | .nil => []
  | .cons n _ r => if n.isRet then n.moves else n.moves ++ r.moves
def Brs.moves : Brs → List String
  | .nil => []
  | .cons _ s r => s.moves ++ r.moves
end

/-- A container as far as the pass looks at it: transient or not, a pointer or not, with managed storage or not
(dead_reference_elimination.cpp:24-34). -/
structure PtrInfo where
  transient : Bool
  pointer : Bool
  managed : Bool

/-- A function: its containers and its body. -/
structure RefProg where
  containers : List (String × PtrInfo)
  body : Seq

/-- dead_reference_elimination.cpp:24-42: the containers the pass deletes.  `READ` and `VIEW` users are both among the reads of `Seq.users`. -/
def RefProg.dead (P : RefProg) (x : String) : Bool :=
  P.containers.any fun c => c.1 == x && c.2.transient && c.2.pointer && !c.2.managed &&
    !decide (reads P.body.users x) && !P.body.stores.contains x

mutual
/-- dead_reference_elimination.cpp:44-51: clears the access nodes of the moves of the dead containers; the block stays even if it is empty.  The
moves the users analysis does not see, behind a `Return`, stay. -/
def Node.dropMoves (d : String → Bool) : Node → Node
  | .block l => .block (l.filter fun s => !(s.isMove && d s.target))
  | .seq s => .seq (s.dropMoves d)
  | .ifElse b => .ifElse (b.dropMoves d)
  | .whileL s => .whileL (s.dropMoves d)
  | .loop m i a k u s => .loop m i a k u (s.dropMoves d)
  | .brk => .brk
  | .cont => .cont
  | .ret x q => .ret x q
def Seq.dropMoves (d : String → Bool) : Seq → Seq
  | .nil => .nil
  | .cons n t r => if n.isRet then .cons n t r else .cons (n.dropMoves d) t (r.dropMoves d)
def Brs.dropMoves (d : String → Bool) : Brs → Brs
  | .nil => .nil
  | .cons c s r => .cons c (s.dropMoves d) (r.dropMoves d)
end

/-- dead_reference_elimination.cpp:16-60 `run_pass`: the new function and the returned flag, which is set where a move is cleared. -/
def RefProg.deadReferences (P : RefProg) : RefProg × Bool :=
  (⟨P.containers.filter fun c => !P.dead c.1, P.body.dropMoves P.dead⟩, P.body.moves.any P.dead)

end Docc.IR
