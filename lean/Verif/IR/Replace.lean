import Verif.IR.Syntax
import Verif.Sym.CondOps

/-
`replace(old, new)` on control flow and data flow nodes, for a symbol `old`
(sdfg/src/structured_control_flow/*.cpp, sdfg/src/data_flow/*.cpp).
-/
namespace Docc.IR
open Docc.Sym

/-- access_node.cpp:55-63: an access node is renamed only when the new expression is a symbol. -/
def renameTo (x : String) (r : Expr) (n : String) : String :=
  if n = x then (match r with | .sym y => y | _ => n) else n

/-- data_flow_graph.cpp:98-106: all nodes (access nodes are renamed, tasklets have nothing to replace), then the
subsets of all memlets (memlet.cpp:328-334).  Simplification: symbols stored inside library nodes are not modelled. -/
def Stmt.replace (x : String) (r : Expr) : Stmt → Stmt
  | .tasklet op ins out sub =>
    .tasklet op (ins.map fun a => (renameTo x r a.1, a.2.map (Expr.subs · (.sym x) r))) (renameTo x r out)
      (sub.map (Expr.subs · (.sym x) r))
  | .lib op reads writes => .lib op (reads.map (renameTo x r)) (writes.map (renameTo x r))

/-- sequence.cpp:95-103: when both are symbols the entry of the old symbol overwrites an entry of the new one. -/
def transOverwrite (x : String) (r : Expr) (t : Trans) : Trans :=
  match r with
  | .sym y => if t.any (fun a => a.1 == x) = true ∧ y ≠ x then t.filter (fun a => a.1 != y) else t
  | _ => t

/-- sequence.cpp:94-108: the left-hand side, then all right-hand sides. -/
def transReplace (x : String) (r : Expr) (t : Trans) : Trans :=
  (transOverwrite x r t).map fun a => (renameTo x r a.1, a.2.subs (.sym x) r)

/-- the text of an expression (only symbols and integers are printed faithfully here) -/
def Expr.text : Expr → String
  | .sym y => y
  | .int n => toString n
  | _ => "<expression>"

mutual
/-- block.cpp:23, sequence.cpp:159-167, if_else.cpp:59-64, while.cpp:16, structured_loop.cpp:48-57, return.cpp:46-50. -/
def Node.replace (x : String) (r : Expr) : Node → Node
  | .block l => .block (l.map (Stmt.replace x r))
  | .seq s => .seq (s.replace x r)
  | .ifElse b => .ifElse (b.replace x r)
  | .whileL s => .whileL (s.replace x r)
  | .loop m i init cond upd s =>
    .loop m (renameTo x r i) (init.subs (.sym x) r) (cond.subs (.sym x) r) (upd.subs (.sym x) r) (s.replace x r)
  | .brk => .brk
  | .cont => .cont
  | .ret d q => if !q && d == x then .ret (Expr.text r) q else .ret d q
/-- sequence.cpp:159-167 -/
def Seq.replace (x : String) (r : Expr) : Seq → Seq
  | .nil => .nil
  | .cons n t s => .cons (n.replace x r) (transReplace x r t) (s.replace x r)
/-- if_else.cpp:59-64 -/
def Brs.replace (x : String) (r : Expr) : Brs → Brs
  | .nil => .nil
  | .cons c s b => .cons (c.subs (.sym x) r) (s.replace x r) (b.replace x r)
end

/-- the containers a computation accesses through access nodes -/
def Stmt.accessed : Stmt → List String
  | .tasklet _ ins out _ => ins.map (·.1) ++ [out]
  | .lib _ reads writes => reads ++ writes

mutual
/-- the containers accessed through access nodes or returned -/
def Node.accessed : Node → List String
  | .block l => l.flatMap Stmt.accessed
  | .seq s => s.accessed
  | .ifElse b => b.accessed
  | .whileL s => s.accessed
  | .loop _ _ _ _ _ s => s.accessed
  | .brk => []
  | .cont => []
  | .ret d q => if q then [] else [d]
/-- the containers accessed through access nodes or returned -/
def Seq.accessed : Seq → List String
  | .nil => []
  | .cons n _ r => n.accessed ++ r.accessed
/-- the containers accessed through access nodes or returned -/
def Brs.accessed : Brs → List String
  | .nil => []
  | .cons _ s r => s.accessed ++ r.accessed
end

mutual
/-- the symbols assigned by transitions and loop headers, and the containers written by dataflow -/
def Node.written : Node → List String
  | .block l => l.flatMap fun s => match s with | .tasklet _ _ o _ => [o] | .lib _ _ w => w
  | .seq s => s.written
  | .ifElse b => b.written
  | .whileL s => s.written
  | .loop _ i _ _ _ s => i :: s.written
  | .brk => []
  | .cont => []
  | .ret _ _ => []
/-- the same for a sequence -/
def Seq.written : Seq → List String
  | .nil => []
  | .cons n t r => n.written ++ t.map (·.1) ++ r.written
/-- the same for cases -/
def Brs.written : Brs → List String
  | .nil => []
  | .cons _ s r => s.written ++ r.written
end

mutual
/-- boolean symbols (conditions that are a plain symbol) tested in the node -/
def Node.boolSyms : Node → List String
  | .block _ => []
  | .seq s => s.boolSyms
  | .ifElse b => b.boolSyms
  | .whileL s => s.boolSyms
  | .loop _ _ _ c _ s => c.boolSyms ++ s.boolSyms
  | .brk => []
  | .cont => []
  | .ret _ _ => []
/-- the same for a sequence -/
def Seq.boolSyms : Seq → List String
  | .nil => []
  | .cons n _ r => n.boolSyms ++ r.boolSyms
/-- the same for cases -/
def Brs.boolSyms : Brs → List String
  | .nil => []
  | .cons c s r => c.boolSyms ++ s.boolSyms ++ r.boolSyms
end

/-- every container or symbol a computation mentions -/
def Stmt.names : Stmt → List String
  | .tasklet _ ins out sub => ins.map (·.1) ++ ins.flatMap (fun a => Expr.atomsL a.2) ++ [out] ++ Expr.atomsL sub
  | .lib _ reads writes => reads ++ writes

mutual
/-- every container or symbol a node mentions -/
def Node.names : Node → List String
  | .block l => l.flatMap Stmt.names
  | .seq s => s.names
  | .ifElse b => b.names
  | .whileL s => s.names
  | .loop _ i a c u s => i :: (a.atoms ++ c.atoms ++ u.atoms ++ s.names)
  | .brk => []
  | .cont => []
  | .ret d _ => [d]
/-- the same for a sequence -/
def Seq.names : Seq → List String
  | .nil => []
  | .cons n t r => n.names ++ t.map (·.1) ++ t.flatMap (fun a => a.2.atoms) ++ r.names
/-- the same for cases -/
def Brs.names : Brs → List String
  | .nil => []
  | .cons c s r => c.atoms ++ s.names ++ r.names
end

mutual
/-- the containers a node may return -/
def Node.rets : Node → List String
  | .block _ => []
  | .seq s => s.rets
  | .ifElse b => b.rets
  | .whileL s => s.rets
  | .loop _ _ _ _ _ s => s.rets
  | .brk => []
  | .cont => []
  | .ret d q => if q then [] else [d]
/-- the same for a sequence -/
def Seq.rets : Seq → List String
  | .nil => []
  | .cons n _ r => n.rets ++ r.rets
/-- the same for cases -/
def Brs.rets : Brs → List String
  | .nil => []
  | .cons _ s r => s.rets ++ r.rets
end

end Docc.IR
