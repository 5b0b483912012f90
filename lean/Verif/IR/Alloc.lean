import Verif.IR.Leads

/-
AllocationManagement (sdfg/src/passes/memory/allocation_management.cpp) and the code the generators emit for managed containers
(sdfg/src/codegen/code_generators/c_code_generator.cpp:160-226, sdfg/src/codegen/dispatchers/while_dispatcher.cpp:94-113): an allocation at the
root of the function moves to the entry of the function, a deallocation to all its exits.
-/
namespace Docc.IR
open Docc.Sym

/-- allocation_management.cpp:60-63, 151-154: the place of a library node in a block at the root of the function: the children before the
block, the statements of the block before and after the node, the transition of the block and the children after it. -/
structure Site where
  pre : Seq
  l1 : List Stmt
  m : Stmt
  l2 : List Stmt
  t : Trans
  post : Seq

/-- the function -/
def Site.whole (z : Site) : Seq := z.pre ++ .cons (.block (z.l1 ++ z.m :: z.l2)) z.t z.post

/-- allocation_management.cpp:121-122, 200-201 `clear_node`: the function without the node -/
def Site.cleared (z : Site) : Seq := z.pre ++ .cons (.block (z.l1 ++ z.l2)) z.t z.post

/-- allocation_management.cpp:75, 165 `get_user(container, &dst, WRITE)`: the vertex of the use by which the node writes container `A`; it is the
last of the uses of the node (`n` of them). -/
def Site.vertex (z : Site) (A : String) : V :=
  .ev (2 + z.pre.kn + 2 + (z.l1.flatMap Stmt.users).length + (z.m.users.length - 1)) (.write, A)

/-- users.cpp:500-560 `uses(container)`: the uses of a function that the analysis knows -/
def Seq.allUses (s : Seq) : List V := s.useV 2 ++ s.retV 2

/-- allocation_management.cpp:16-84 `can_be_applied_allocation`.  The node reads the symbols of the size, and nothing else (line 56), and writes the
pointer.  (Simplifications: `op` stands for the kind of the node, `malloc` or `alloca`, and for the expression of the size; the tests of lines 44-55, a
pointer type and an access node without other edges, hold by the form of the statement.) -/
structure AllocAccepted (C : Brs → Bool) (args : List String) (z : Site) (op : String) (size : List String) (A : String) : Prop where
  node : z.m = .lib op size [A]
  params : ∀ x ∈ size, x ∈ args
  dom : ∀ v ∈ z.whole.allUses, v.of A = true → v ≠ z.vertex A → Dominates (z.whole.graph C) (.nop 0) (z.vertex A) v

/-- allocation_management.cpp:125-177 `can_be_applied_deallocation`: `free` reads and writes the pointer. -/
structure DeallocAccepted (C : Brs → Bool) (z : Site) (op : String) (A : String) : Prop where
  node : z.m = .lib op [A] [A]
  post : ∀ v ∈ z.whole.allUses, v.of A = true → v ≠ z.vertex A → PostDominates (z.whole.graph C) (z.vertex A) v

/-- What the generators make of a function with managed containers: `entry` is run first (c_code_generator.cpp:163-200), then the body, and `exit` is run
when the body ends (c_code_generator.cpp:208-226) and before every return (while_dispatcher.cpp:96-111). -/
structure MProg where
  entry : List Stmt
  body : Seq
  exit : List Stmt

/-- its executions -/
def MProg.den (E : Env) (p : MProg) (σ : St) (c : Ctl) (σ' : St) : Prop :=
  ∃ τ, p.body.den E (runBlock E p.entry σ) c τ ∧ σ' = runBlock E p.exit τ

/-- allocation_management.cpp:86-123 `apply_allocation`: the container becomes managed, the node is removed. -/
def MProg.alloc (p : MProg) (z : Site) : MProg := ⟨p.entry ++ [z.m], z.cleared, p.exit⟩

/-- allocation_management.cpp:179-202 `apply_deallocation` -/
def MProg.dealloc (p : MProg) (z : Site) : MProg := ⟨p.entry, z.cleared, z.m :: p.exit⟩

end Docc.IR
