import Verif.Sym.Cond
import Verif.Sym.Extreme

/-
Structured SDFGs (sdfg/include/sdfg/structured_control_flow/*.h, sdfg/include/sdfg/data_flow/*.h).
-/
namespace Docc.IR
open Docc.Sym

/-- One computation of a dataflow block.
`tasklet`: reads scalars or elements (container, subset) and constants-as-names, applies the operation `op`, and writes one
element (tasklet.h, memlet.h; in topological order, block_dispatcher.cpp:60-120).
`lib`: a library node: an opaque operation that reads whole containers and overwrites whole containers.
Not modelled: pointers/references (`Reference`/`Dereference` memlets), floating point rounding (operations are opaque). -/
inductive Stmt where
  | tasklet (op : String) (ins : List (String × List Expr)) (out : String) (sub : List Expr)
  | lib (op : String) (reads writes : List String)
  deriving Repr, DecidableEq, Inhabited

/-- control_flow/interstate_edge.h `Assignments` of a transition: symbol, right-hand side; listed in the iteration order of
the `unordered_map`. -/
abbrev Trans := List (String × Expr)

mutual
/-- Control flow nodes: block.h, sequence.h, if_else.h, while.h, for.h/map.h (`isMap`), Break, Continue, Return. -/
inductive Node where
  | block (l : List Stmt)
  | seq (s : Seq)
  | ifElse (b : Brs)
  | whileL (s : Seq)
  | loop (isMap : Bool) (i : String) (init : Expr) (cond : Cond) (upd : Expr) (s : Seq)
  | brk
  | cont
  | ret (data : String) (isConst : Bool)
/-- sequence.h `Sequence`: children, each paired with the transition executed after it. -/
inductive Seq where
  | nil
  | cons (n : Node) (t : Trans) (r : Seq)
/-- if_else.h: cases with their conditions, tested in order. -/
inductive Brs where
  | nil
  | cons (c : Cond) (s : Seq) (r : Brs)
end

instance : Inhabited Node := ⟨.brk⟩
instance : Inhabited Seq := ⟨.nil⟩
instance : Inhabited Brs := ⟨.nil⟩

/-- concatenation of sequences -/
def Seq.append : Seq → Seq → Seq
  | .nil, s => s
  | .cons n t r, s => .cons n t (r.append s)

instance : Append Seq := ⟨Seq.append⟩

/-- number of children -/
def Seq.size : Seq → Nat
  | .nil => 0
  | .cons _ _ r => r.size + 1

/-- one child with an empty transition -/
def Seq.one (n : Node) : Seq := .cons n [] .nil

@[simp] theorem Seq.nil_append (s : Seq) : Seq.nil ++ s = s := rfl
@[simp] theorem Seq.cons_append (n : Node) (t : Trans) (r s : Seq) : Seq.cons n t r ++ s = .cons n t (r ++ s) := rfl
@[simp] theorem Seq.append_nil (s : Seq) : s ++ Seq.nil = s := by
  match s with
  | .nil => rfl
  | .cons n t r => simp [Seq.append_nil r]
theorem Seq.append_assoc (a b c : Seq) : a ++ b ++ c = a ++ (b ++ c) := by
  match a with
  | .nil => rfl
  | .cons n t r => simp [Seq.append_assoc r]

end Docc.IR
