import Verif.IR.Syntax

/-
The tree of control flow nodes with the identities (addresses) of the nodes, and the analysis of its scopes
(sdfg/src/analysis/scope_analysis.cpp, sdfg/include/sdfg/analysis/scope_analysis.h).
-/
namespace Docc.IR.Scope
open Docc.Sym

/-- The classes of control flow nodes with what they hold besides their children (structured_control_flow/*.h).  `other` is a class that the analyses do not know. -/
inductive Kd where
  | block (l : List Stmt)
  | seq
  | ifElse
  | whileL
  | loop (isMap : Bool) (i : String) (init : Expr) (cond : Cond) (upd : Expr)
  | brk
  | cont
  | ret (data : String) (isConst : Bool)
  | other

/-- what a sequence keeps beside a child (the assignments of the transition) or an if-else beside a case (its condition); `none` beside the body of a loop -/
inductive Lab where
  | none
  | trans (t : Trans)
  | cond (c : Cond)

mutual
/-- a node: its address, its class, its children -/
inductive Cn where
  | mk (id : Nat) (k : Kd) (kids : Cs)
/-- the children in order -/
inductive Cs where
  | nil
  | cons (n : Cn) (e : Lab) (r : Cs)
end

/-- the address -/
def Cn.id : Cn → Nat
  | .mk i _ _ => i

/-- the class -/
def Cn.kind : Cn → Kd
  | .mk _ k _ => k

/-- the children -/
def Cn.kids : Cn → Cs
  | .mk _ _ l => l

/-- the children as a list -/
def Cs.list : Cs → List Cn
  | .nil => []
  | .cons n _ r => n :: r.list

/-- classes without children -/
def Kd.leaf : Kd → Bool
  | .block _ | .brk | .cont | .ret _ _ => true
  | _ => false

mutual
/-- scope_analysis.cpp:10-40 `run(current, parent_scope)`: the assignments `scope_tree_[node] = parent` in the order in which they are made; `none` if the
exception for unknown classes is thrown. -/
def Cn.run : Cn → Option Nat → Option (List (Nat × Option Nat))
  | .mk i k l, p =>
    match k with
    | .block _ | .brk | .cont | .ret _ _ => some [(i, p)]
    | .seq | .ifElse | .whileL | .loop .. => (l.run (some i)).map ((i, p) :: ·)
    | .other => none
/-- the children of a node, from the first to the last -/
def Cs.run : Cs → Option Nat → Option (List (Nat × Option Nat))
  | .nil, _ => some []
  | .cons n _ r, p => do
    let a ← n.run p
    let b ← r.run p
    some (a ++ b)
end

/-- scope_analysis.cpp:42-45: the map after the analysis of a function with root `t`; the last assignment to a key counts -/
def Cn.scopeTree (t : Cn) : Option (List (Nat × Option Nat)) := (t.run none).map List.reverse

/-- scope_analysis.cpp:52-58 `parent_scope`: `none` is the null pointer -/
def parentScope (m : List (Nat × Option Nat)) (n : Nat) : Option Nat := (m.lookup n).join

/-- scope_analysis.cpp:65-68: the loop of `ancestor_scopes`, stopped after `fuel` steps (`none`: it is still running then) -/
def ancLoop (m : List (Nat × Option Nat)) : Nat → Option Nat → Option (List Nat)
  | _, none => some []
  | 0, some _ => none
  | fuel + 1, some a => (ancLoop m fuel (parentScope m a)).map (a :: ·)

/-- scope_analysis.cpp:60-71 `ancestor_scopes`, as far as it is done after `fuel` steps of the loop -/
def ancestorScopes (m : List (Nat × Option Nat)) (fuel : Nat) (n : Nat) : Option (List Nat) := ancLoop m fuel (parentScope m n)

/-! Specification -/

/-- `u` is the node `t` or stands somewhere in it -/
inductive Sub : Cn → Cn → Prop where
  | refl (t : Cn) : Sub t t
  | kid {u c t : Cn} : c ∈ t.kids.list → Sub u c → Sub u t

/-- the function has a node with this address -/
def Cn.Has (t : Cn) (n : Nat) : Prop := ∃ u, Sub u t ∧ u.id = n

/-- the node `p` has the node `n` as a child -/
def Cn.Parent (t : Cn) (p n : Nat) : Prop := ∃ u, Sub u t ∧ u.id = p ∧ ∃ c ∈ u.kids.list, c.id = n

/-- the node `n` stands in a child of the node `a` -/
def Cn.Encloses (t : Cn) (a n : Nat) : Prop := ∃ u, Sub u t ∧ u.id = a ∧ ∃ c ∈ u.kids.list, c.Has n

/-- nodes of the classes without children have none -/
def Cn.Leafy (t : Cn) : Prop := ∀ u, Sub u t → u.kind.leaf = true → u.kids.list = []

mutual
/-- the addresses of all nodes -/
def Cn.ids : Cn → List Nat
  | .mk i _ l => i :: l.ids
/-- of a list of nodes -/
def Cs.ids : Cs → List Nat
  | .nil => []
  | .cons n _ r => n.ids ++ r.ids
end

end Docc.IR.Scope
