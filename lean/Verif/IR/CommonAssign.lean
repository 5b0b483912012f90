import Verif.IR.Sem

/-
CommonAssignmentElimination (sdfg/src/passes/structured_control_flow/common_assignment_elimination.cpp).
-/
namespace Docc.IR
open Docc.Sym

/-- transition behind the last child of a sequence; `none` for an empty sequence -/
def Seq.lastT : Seq → Option Trans
  | .nil => none
  | .cons _ t .nil => some t
  | .cons _ _ r => r.lastT

/-- the branches of an if-else -/
def Brs.branches : Brs → List Seq
  | .nil => []
  | .cons _ s r => s :: r.branches

/-- Parameters: `symbolic::eq` and how `unordered_map::insert` places an entry among the others in iteration order. -/
structure CAE where
  eqE : Expr → Expr → Bool
  insert : Trans → String × Expr → Trans

/-- contract of `symbolic::eq`: same value; of `insert`: the entry is added, the iteration order may change. -/
def CAE.Sound (C : CAE) : Prop :=
  (∀ a b, C.eqE a b = true → ∀ ρ, a.eval ρ = b.eval ρ) ∧ ∀ t a, (C.insert t a).Perm (a :: t)

/-- common_assignment_elimination.cpp:49-66: every other branch ends with an equal assignment. -/
def CAE.allSame (C : CAE) (a : String × Expr) (bs : List Seq) : Bool :=
  bs.all fun s => match s.lastT with
    | none => false
    | some t => match t.find? (fun b => b.1 == a.1) with
      | none => false
      | some b => C.eqE a.2 b.2

/-- common_assignment_elimination.cpp:29-75: the assignments of the first branch's last transition that are added behind
the if-else (`t`: the if-else's own transition).  Fewer than two cases, an empty first branch or an empty last transition:
nothing.  (Symbols of one transition are distinct, so testing against the growing `t` is the same.) -/
def CAE.hoists (C : CAE) (b : Brs) (t : Trans) : Trans :=
  match b.branches with
  | s :: s' :: bs => match s.lastT with
    | none => []
    | some l => l.filter fun a => !(t.any fun e => e.1 == a.1) && C.allSame a (s' :: bs)
  | _ => []

/-- the transition after the insertions; note that the branches keep their own copies -/
def CAE.addAll (C : CAE) (t : Trans) (h : Trans) : Trans := h.foldl C.insert t

/-- the transition of a child -/
def CAE.trans (C : CAE) (n : Node) (t : Trans) : Trans :=
  match n with
  | .ifElse b => C.addAll t (C.hoists b t)
  | _ => t

mutual
/-- common_assignment_elimination.cpp:17-94 `run_pass`: all sequences, outer ones first. -/
def CAE.node (C : CAE) : Node → Node
  | .block l => .block l
  | .seq s => .seq (C.seq s)
  | .ifElse b => .ifElse (C.cases b)
  | .whileL s => .whileL (C.seq s)
  | .loop m i a k u s => .loop m i a k u (C.seq s)
  | .brk => .brk
  | .cont => .cont
  | .ret d q => .ret d q
/-- the children of a sequence; the transition is computed from the child before its own branches are visited -/
def CAE.seq (C : CAE) : Seq → Seq
  | .nil => .nil
  | .cons n t r => .cons (C.node n) (C.trans n t) (C.seq r)
/-- the branches of an if-else -/
def CAE.cases (C : CAE) : Brs → Brs
  | .nil => .nil
  | .cons c s r => .cons c (C.seq s) (C.cases r)
end

end Docc.IR
