import Verif.IR.XferProps
import Verif.IR.Jump

/-
Pointer iterators become subscripts (sdfg/src/passes/structured_control_flow/pointer_evolution.cpp).

A container `p` that is a pointer is seen through its elements: `p[j]` is the element `j` behind the address the pointer holds, so that advancing the pointer by
one element moves this window (`Advances`).  The memory behind `p` is reached through `p` only.
-/
namespace Docc.IR
open Docc.Sym

/-- What a library-like statement is: `none` if it moves no pointer, `some true` for a reference memlet `p = &p[c]` whose constant byte offset `c > 0` is the width of
the elements, `some false` for other moves of pointers. -/
abbrev Moves := String → Option Bool

/-- a statement that moves a pointer (`UsersView::moves()`) -/
def Stmt.movesPtr (K : Moves) : Stmt → Bool
  | .lib op _ _ => (K op).isSome
  | .tasklet _ _ _ _ => false

mutual
/-- pointer_evolution.cpp:24-29: the moves in a node -/
def Node.ptrMoves (K : Moves) : Node → List Stmt
  | .block l => l.filter (·.movesPtr K)
  | .seq s => s.ptrMoves K
  | .ifElse b => b.ptrMoves K
  | .whileL s => s.ptrMoves K
  | .loop _ _ _ _ _ s => s.ptrMoves K
  | _ => []
/-- in a sequence; what stands behind a `Return` has no users -/
def Seq.ptrMoves (K : Moves) : Seq → List Stmt
  | .nil => []
  | .cons n _ r => if n.isRet then [] else n.ptrMoves K ++ r.ptrMoves K
/-- in the cases of an if-else -/
def Brs.ptrMoves (K : Moves) : Brs → List Stmt
  | .nil => []
  | .cons _ s r => s.ptrMoves K ++ r.ptrMoves K
end

/-- pointer_evolution.cpp:22-65: the only move in the body advances a pointer by one element; the iterator is this pointer. -/
def Seq.iterator (K : Moves) (s : Seq) : Option String :=
  match s.ptrMoves K with
  | [.lib op [x] [y]] => if x = y ∧ K op = some true then some x else none
  | _ => none

/-- an access of the iterator has the subset `[0]` (if the iterator may be accessed, `z`), and no subset depends on it -/
def accOk (p : String) (z : Bool) (a : String × List Expr) : Bool :=
  (decide (a.1 ≠ p) || (z && decide (a.2 = [.int 0]))) && decide (p ∉ Expr.atomsL a.2)

/-- pointer_evolution.cpp:67-145, one statement -/
def Stmt.evoOk (K : Moves) (p : String) (z : Bool) : Stmt → Bool
  | .tasklet _ ins out sub => ins.all (accOk p z) && accOk p z (out, sub)
  | .lib op rs ws => (K op).isSome || (decide (p ∉ rs) && decide (p ∉ ws))

/-- no assignment uses the iterator -/
def transOk (p : String) (t : Trans) : Bool := t.all fun a => decide (a.1 ≠ p) && decide (p ∉ a.2.atoms)

mutual
/-- pointer_evolution.cpp:67-145: all uses of the iterator are accesses of its first element in dataflow graphs (the test for the order of uses and move is separate). -/
def Node.evoOk (K : Moves) (p : String) (z : Bool) : Node → Bool
  | .block l => l.all (·.evoOk K p z)
  | .seq s => s.evoOk K p z
  | .ifElse b => b.evoOk K p z
  | .whileL s => s.evoOk K p z
  | .loop _ i a c u s => decide (i ≠ p) && decide (p ∉ a.atoms) && decide (p ∉ c.atoms) && decide (p ∉ u.atoms) && s.evoOk K p z
  | .ret d q => q || decide (d ≠ p)
  | _ => true
/-- the children and transitions of a sequence -/
def Seq.evoOk (K : Moves) (p : String) (z : Bool) : Seq → Bool
  | .nil => true
  | .cons n t r => n.evoOk K p z && (n.isRet || (transOk p t && r.evoOk K p z))
/-- the cases of an if-else -/
def Brs.evoOk (K : Moves) (p : String) (z : Bool) : Brs → Bool
  | .nil => true
  | .cons c s r => decide (p ∉ c.atoms) && s.evoOk K p z && r.evoOk K p z
end

/-- pointer_evolution.cpp:147-151: the new subset of an access of the iterator -/
def evoAcc (p : String) (e : Expr) (a : String × List Expr) : String × List Expr := if a.1 = p then (p, [e]) else a

/-- in one statement -/
def Stmt.evo (p : String) (e : Expr) : Stmt → Stmt
  | .tasklet op ins out sub => .tasklet op (ins.map (evoAcc p e)) out (evoAcc p e (out, sub)).2
  | .lib op rs ws => .lib op rs ws

mutual
/-- pointer_evolution.cpp:147-157: new subsets, and the move is removed. -/
def Node.evo (K : Moves) (p : String) (e : Expr) : Node → Node
  | .block l => .block ((l.filter fun s => !s.movesPtr K).map (·.evo p e))
  | .seq s => .seq (s.evo K p e)
  | .ifElse b => .ifElse (b.evo K p e)
  | .whileL s => .whileL (s.evo K p e)
  | .loop m i a c u s => .loop m i a c u (s.evo K p e)
  | n => n
/-- in a sequence -/
def Seq.evo (K : Moves) (p : String) (e : Expr) : Seq → Seq
  | .nil => .nil
  | .cons n t r => .cons (n.evo K p e) t (r.evo K p e)
/-- in the cases of an if-else -/
def Brs.evo (K : Moves) (p : String) (e : Expr) : Brs → Brs
  | .nil => .nil
  | .cons c s r => .cons c (s.evo K p e) (r.evo K p e)
end

/-- `indvar - init` (pointer_evolution.cpp:148) -/
def evoIdx (i : String) (init : Expr) : Expr := .add [.sym i, .mul [.int (-1), init]]

/-- pointer_evolution.cpp:18-160 `accept`; `post s p` is the test that the move post-dominates every other use of `p` in the body `s` (line 83). -/
def evolvePtr (K : Moves) (post : Seq → String → Bool) : Node → Option Node
  | .loop false i init c u s =>
    match s.iterator K with
    | some p => if s.evoOk K p true && post s p then some (.loop false i init c u (s.evo K p (evoIdx i init))) else none
    | none => none
  | _ => none

/-! ### specification -/

/-- the statement that moves the pointer makes the next element the first one -/
def Env.Advances (E : Env) (op : String) : Prop := ∀ (s : List Int → Int) (a : Int) (r : List Int), E.lib op 0 [s] (a :: r) = s ((a + 1) :: r)

mutual
/-- no `continue` of this loop (those of nested loops are allowed) -/
def Node.noCont : Node → Bool
  | .seq s => s.noCont
  | .ifElse b => b.noCont
  | .cont => false
  | _ => true
/-- of a sequence -/
def Seq.noCont : Seq → Bool
  | .nil => true
  | .cons n _ r => n.noCont && r.noCont
/-- of the cases of an if-else -/
def Brs.noCont : Brs → Bool
  | .nil => true
  | .cons _ s r => s.noCont && r.noCont
end

end Docc.IR
