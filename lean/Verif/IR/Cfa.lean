import Verif.IR.UGraphDomProps
import Verif.IR.DeadCFG

/-
The control flow graph (sdfg/src/analysis/control_flow_analysis.cpp): `exits`, `dominates`; as specification the order in which an execution
visits the nodes.
-/
namespace Docc.IR
open Docc.Sym

mutual
/-- number of nodes of a program, for numbering them in the order of the traversal -/
def Node.cn : Node → Nat
  | .block _ => 1
  | .seq s => 1 + s.cn
  | .ifElse b => 1 + b.cn
  | .whileL s => 1 + s.cn
  | .loop _ _ _ _ _ s => 1 + s.cn
  | .brk => 1
  | .cont => 1
  | .ret _ _ => 1
/-- of the children of a sequence -/
def Seq.cn : Seq → Nat
  | .nil => 0
  | .cons n _ r => n.cn + r.cn
/-- of the cases -/
def Brs.cn : Brs → Nat
  | .nil => 0
  | .cons _ s r => s.cn + r.cn
end

/-- the vertex of the node with number `k`.  (The vertices of IR/UGraph are used again; `V.nop k` is the vertex behind the if-else `k`.) -/
def cv (k : Nat) : V := .ev k (.read, "")

/-- what `traverse` returns and the edges it adds; `none` is the null vertex -/
structure Cf where
  start : Option V
  fin : Option V
  verts : List V
  edges : List (V × V)

/-- an edge between two vertices that exist -/
def edgeIf : Option V → Option V → List (V × V)
  | some a, some b => [(a, b)]
  | _, _ => []

mutual
/-- control_flow_analysis.cpp:28-140 `traverse`; `L` is `last_loop_`, `C` is `IfElse::is_complete`. -/
def Node.cfg (C : Brs → Bool) (L : V) : Node → Nat → Cf
  | .block _, k => ⟨some (cv k), some (cv k), [cv k], []⟩
  | .ret _ _, k => ⟨some (cv k), none, [cv k], []⟩
  | .cont, k => ⟨some (cv k), none, [cv k], [(cv k, L)]⟩
  | .brk, k => ⟨some (cv k), none, [cv k], [(cv k, L)]⟩
  | .ifElse b, k =>
    let x := b.cfg C L (cv k) (.nop k) (k + 1)
    let joined := x.fin.isSome || !C b
    ⟨some (cv k), if joined then some (.nop k) else none, cv k :: x.verts ++ (if joined then [.nop k] else []),
      x.edges ++ if C b then [] else [(cv k, .nop k)]⟩
  | .whileL s, k =>
    let x := s.cfg C (cv k) none none (k + 1)
    ⟨some (cv k), some (cv k), cv k :: x.verts, edgeIf (some (cv k)) x.start ++ x.edges ++ edgeIf x.fin (some (cv k))⟩
  | .loop _ _ _ _ _ s, k =>
    let x := s.cfg C (cv k) none none (k + 1)
    ⟨some (cv k), some (cv k), cv k :: x.verts, edgeIf (some (cv k)) x.start ++ x.edges ++ edgeIf x.fin (some (cv k))⟩
  | .seq s, k => s.cfg C L none none (k + 1)
/-- control_flow_analysis.cpp:111-134: the children of a sequence, with `seq_start` and `seq_end` so far; a child that does not continue ends the traversal. -/
def Seq.cfg (C : Brs → Bool) (L : V) : Seq → Option V → Option V → Nat → Cf
  | .nil, st, cur, _ => ⟨st, cur, [], []⟩
  | .cons n _ r, st, cur, k =>
    let x := n.cfg C L k
    match x.fin with
    | none => ⟨st.or x.start, none, x.verts, x.edges ++ edgeIf cur x.start⟩
    | some e =>
      let y := r.cfg C L (st.or x.start) (some e) (k + n.cn)
      ⟨y.start, y.fin, x.verts ++ y.verts, x.edges ++ edgeIf cur x.start ++ y.edges⟩
/-- control_flow_analysis.cpp:51-64: the cases of an if-else with vertices `h` and (once a case continues) `j`. -/
def Brs.cfg (C : Brs → Bool) (L h j : V) : Brs → Nat → Cf
  | .nil, _ => ⟨none, none, [], []⟩
  | .cons _ s r, k =>
    let x := s.cfg C L none none k
    let y := r.cfg C L h j (k + s.cn)
    ⟨none, if x.fin.isSome then some j else y.fin, x.verts ++ y.verts, edgeIf (some h) x.start ++ x.edges ++ edgeIf x.fin (some j) ++ y.edges⟩
end

/-- control_flow_analysis.cpp:142-149: the graph of a function.  Outside loops `last_loop_` is not set; the root is not a vertex. -/
def Seq.flow (C : Brs → Bool) (s : Seq) : Cf := s.cfg C (.nop 0) none none 1

/-- control_flow_analysis.cpp:149-155: the entry is the vertex without predecessors; if there is none, the null vertex is used. -/
def Cf.entries (F : Cf) : List V := F.verts.filter fun v => F.edges.all fun e => e.2 != v

/-- the node of a vertex; `none` is the null pointer stored for the vertex behind an if-else (control_flow_analysis.cpp:61 and 72) -/
def V.ptr : V → Option Nat
  | .nop _ => none
  | .ev k _ => some k

/-- control_flow_analysis.cpp:173-184 `exits`: vertices without successors. -/
def Cf.exits (F : Cf) : List (Option Nat) := (F.verts.filter fun v => F.edges.all fun e => e.1 != v).map V.ptr

/-- control_flow_analysis.cpp:157-162: `dom_tree_` holds an entry of the tree of vertices for every node pointer; where several vertices have
the same pointer (null), the entry depends on the iteration order of a hash map, so `D` is one of them. -/
structure PtrTree (T : V → Option V) (verts : List V) (D : Option Nat → Option (Option Nat)) : Prop where
  from_tree : ∀ p q, D p = some q → ∃ v ∈ verts, ∃ w, v.ptr = p ∧ T v = some w ∧ w.ptr = q
  total : ∀ v ∈ verts, ∀ w, T v = some w → ∃ q, D v.ptr = some q

/-- control_flow_analysis.cpp:196-206 `dominates(a, b)`: the tree is followed from `b`; with at most `f` steps, `none` if this does not settle it. -/
def walk (D : Option Nat → Option (Option Nat)) (a : Option Nat) : Nat → Option Nat → Option Bool
  | 0, _ => none
  | f + 1, b => match D b with
    | none => some false
    | some q => if q = a then some true else walk D a f q

/-- the answer of `dominates(a, b)`, if there is one -/
def CfaDominates (D : Option Nat → Option (Option Nat)) (a b : Nat) : Prop := ∃ f, walk D (some a) f (some b) = some true

/-- what the tree of Lengauer and Tarjan holds: a strict dominator of the vertex (here the only thing used), for every vertex that can be reached -/
def IdomTree (G : List (V × V)) (src : V) (T : V → Option V) : Prop := ∀ v w, T v = some w → Dominates G src w v

/-! ### specification -/

mutual
/-- Execution of a node together with the nodes it visits: blocks, jumps, if-elses when a case is chosen, loops whenever an iteration
may begin. -/
def Node.cvis (E : Env) : Node → Nat → TR
  | .block l, k => TR.emit [cv k] (runBlock E l)
  | .seq s, k => s.cvis E (k + 1)
  | .ifElse b, k => TR.seq (TR.emit [cv k] id) (b.cvis E (k + 1))
  | .whileL s, k => TR.forever (TR.seq (TR.emit [cv k] id) (s.cvis E (k + 1)))
  | .loop _ i init cond upd s, k => TR.seq (TR.emit [] fun σ => σ.setS i (σ.ev E init))
      (TR.iter (fun σ => σ.cond E cond) (fun σ => σ.setS i (σ.ev E upd)) [cv k] [] (s.cvis E (k + 1)))
  | .brk, k => TR.jump [cv k] .brk
  | .cont, k => TR.jump [cv k] .cont
  | .ret d q, k => TR.jump [cv k] (.ret d q)
/-- of the children of a sequence -/
def Seq.cvis (E : Env) : Seq → Nat → TR
  | .nil, _ => TR.emit [] id
  | .cons n t r, k => TR.seq (n.cvis E k) (TR.seq (TR.emit [] (runTrans E t)) (r.cvis E (k + n.cn)))
/-- of the cases of an if-else -/
def Brs.cvis (E : Env) : Brs → Nat → TR
  | .nil, _ => TR.emit [] id
  | .cons c s r, k => TR.ite (fun σ => σ.cond E c) (s.cvis E k) (r.cvis E (k + s.cn))
end

/-- an execution of a function that visits the nodes `l` -/
def Seq.Visits (E : Env) (s : Seq) (σ : St) (l : List V) (o : Option (Ctl × St)) : Prop := s.cvis E 1 σ l o

mutual
/-- nested sequences and the cases of complete if-elses are not empty -/
def Node.filled (C : Brs → Bool) : Node → Bool
  | .seq s => !s.isNil && s.filled C
  | .ifElse b => b.filled C (C b)
  | .whileL s => s.filled C
  | .loop _ _ _ _ _ s => s.filled C
  | _ => true
/-- of the children of a sequence -/
def Seq.filled (C : Brs → Bool) : Seq → Bool
  | .nil => true
  | .cons n _ r => n.filled C && r.filled C
/-- of the cases of an if-else, complete or not -/
def Brs.filled (C : Brs → Bool) : Brs → Bool → Bool
  | .nil, _ => true
  | .cons _ s r, c => (!c || !s.isNil) && s.filled C && r.filled C c
end

end Docc.IR
