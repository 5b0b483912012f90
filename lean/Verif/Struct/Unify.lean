import Verif.Struct.Mach
import Verif.IR.UsersProps

/-
sdfg/src/passes/structured_control_flow/unify_loop_exits.cpp: a loop of an unstructured SDFG that is left to several states
gets a single exit state that dispatches on a new symbol.
-/
namespace Docc.Struct
open Docc.Sym Docc.IR

/-! ### the pass -/

/-- unify_loop_exits.cpp:43-58: the states outside the loop to which an edge of the loop leads, each once. -/
def exitStates (M : Mach) (loop : List Nat) : List Nat := ((leaving M loop).map (·.2.dst)).eraseDups

/-- unify_loop_exits.cpp:71-73: an exit edge is replaced by an edge to the new state `n` with the same condition that also
assigns the number of the exit state to the new symbol. -/
def redirect (n : Nat) (x : String) (ord : List Nat) (e : MEdge) : MEdge :=
  { dst := n, cond := e.cond, asg := e.asg ++ [(x, .int (ord.idxOf e.dst))] }

/-- unify_loop_exits.cpp:69-83: the edges of a state of the loop: the edges inside the loop stay, the exit edges are
removed and their replacements appended, exit state by exit state. -/
def MState.unify (loop : List Nat) (n : Nat) (x : String) (ord : List Nat) (s : MState) : MState :=
  { s with out := s.out.filter (fun e => loop.contains e.dst) ++
      ord.flatMap fun d => (s.out.filter fun e => !loop.contains e.dst && e.dst == d).map (redirect n x ord) }

/-- unify_loop_exits.cpp:61, 76: the new state: an edge to exit state number `i` if the new symbol is `i`. -/
def mergedState (x : String) (ord : List Nat) : MState :=
  { out := ord.zipIdx.map fun p => ⟨p.1, .eq (.sym x) (.int p.2), []⟩ }

/-- unify_loop_exits.cpp:60-88: merge the exit states of a loop; `ord` lists them in the iteration order of the
`unordered_set`.  The new state gets the number `n`. -/
def mergeExits (M : Mach) (loop : List Nat) (x : String) (ord : List Nat) : Mach :=
  { states := M.states.mapIdx (fun k s => if loop.contains k then s.unify loop M.states.length x ord else s) ++
      [mergedState x ord]
    start := M.start }

/-- the target of an edge -/
def Mach.dstOf (M : Mach) (b : EdgeId) : Nat := (((M.at b.1).out[b.2]?).map (·.dst)).getD 0

/-- unify_loop_exits.cpp:6-33 `determine_loop_nodes` of the loop closed by the back edge `b` (the same search as in
structured_sdfg_builder.cpp, `natural`). -/
def loopOf (M : Mach) (b : EdgeId) : List Nat := natural M b.1 (M.dstOf b)

/-- unify_loop_exits.cpp:37-93 `run_pass`: the first back edge whose loop has more than one exit state; the result is the new
machine and whether anything was applied.  `ord`: the iteration order of the set of exit states; `x`: the name from
`find_new_name("daisy_jump_")`. -/
def unifyExits (M : Mach) (back : List EdgeId) (ord : List Nat → List Nat) (x : String) : Mach × Bool :=
  match back.find? fun b => decide (1 < (exitStates M (loopOf M b)).length) with
  | none => (M, false)
  | some b => (mergeExits M (loopOf M b) x (ord (exitStates M (loopOf M b))), true)

/-! ### specification -/

/-- the container `x` occurs nowhere in the machine -/
def Mach.Unused (M : Mach) (x : String) : Prop :=
  ∀ s ∈ M.states, (∀ st ∈ s.stmts, ∀ u ∈ st.users, u.2 ≠ x) ∧ (∀ e ∈ s.out, x ∉ e.cond.atoms ∧ ∀ u ∈ transUsers e.asg, u.2 ≠ x) ∧
    ∀ d q, s.ret = some (d, q) → d ≠ x

/-- the start state and the targets of all edges are states of the machine -/
structure Mach.Closed (M : Mach) : Prop where
  start : M.start < M.states.length
  dst : ∀ k, ∀ e ∈ (M.at k).out, e.dst < M.states.length

/-- The two machines return the same data, with the same memory but for the container `x`, and one returns exactly if the
other does. -/
def SameButFor (E : Env) (x : String) (M M' : Mach) : Prop :=
  ∀ σ d q, (∀ τ, M.Returns E σ d q τ → ∃ τ', M'.Returns E σ d q τ' ∧ ∀ y, y ≠ x → τ' y = τ y) ∧
    (∀ τ', M'.Returns E σ d q τ' → ∃ τ, M.Returns E σ d q τ ∧ ∀ y, y ≠ x → τ' y = τ y)

/-- state `b` can be reached from state `a` -/
inductive Mach.Leads (M : Mach) (a : Nat) : Nat → Prop
  | refl : Leads M a a
  | step {b : Nat} {e : MEdge} : Leads M a b → e ∈ (M.at b).out → Leads M a e.dst

end Docc.Struct
