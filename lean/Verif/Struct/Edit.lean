import Verif.Struct.Mach

/-
Editing the state machine of an unstructured SDFG: sdfg/src/builder/sdfg_builder.cpp:39-175 and 292-331.
-/
namespace Docc.Struct
open Docc.Sym Docc.IR

/-- change the state with number `k` -/
def Mach.modify (M : Mach) (k : Nat) (f : MState → MState) : Mach := { M with states := M.states.modify k f }

/-- sdfg_builder.cpp:39-56 `add_state`, 99-110 `add_return_state` (`s`: the new state); it gets the number `n`. -/
def addState (M : Mach) (s : MState) (isStart : Bool) : Mach :=
  { states := M.states ++ [s], start := if isStart then M.states.length else M.start }

/-- sdfg_builder.cpp:172-283 `add_edge`; `none`: the exception "Cannot add edge from ReturnState".  (Simplification: the checks of
the types of the symbols are left out.) -/
def addEdge (M : Mach) (j : Nat) (e : MEdge) : Option Mach :=
  if (M.at j).ret.isSome then none else some (M.modify j fun s => { s with out := s.out ++ [e] })

/-- sdfg_builder.cpp:63-73: the edges of a state after those to `k` have been redirected to the new state `n`: the
replacement has the condition of the old edge (line 68: `add_edge(edge->src(), new_state, edge->condition())`). -/
def redirectTo (k n : Nat) (out : List MEdge) : List MEdge :=
  out.filter (fun e => e.dst != k) ++ (out.filter fun e => e.dst == k).map fun e => ⟨n, e.cond, []⟩

/-- sdfg_builder.cpp:58-82 `add_state_before`. -/
def addStateBefore (M : Mach) (k : Nat) (isStart : Bool) : Mach :=
  { states := M.states.map (fun s => { s with out := redirectTo k M.states.length s.out }) ++ [{ out := [⟨k, .tt, []⟩] }]
    start := if isStart then M.states.length else M.start }

/-- sdfg_builder.cpp:91-96: the redirected edges (line 92: `add_edge(new_state, edge->dst(), edge->condition())`). -/
def moved (out : List MEdge) : List MEdge := out.map fun e => ⟨e.dst, e.cond, []⟩

/-- sdfg_builder.cpp:84-104 `add_state_after`. -/
def addStateAfter (M : Mach) (k : Nat) (connect : Bool) : Option Mach :=
  let M1 : Mach := (addState M { out := moved (M.at k).out } false).modify k fun s => { s with out := [] }
  if connect then addEdge M1 k ⟨M.states.length, .tt, []⟩ else some M1

/-- sdfg_builder.cpp:119-138 `add_return_state_after` and 155-175 `add_constant_return_state_after`: the outgoing edges are
to be moved to the new return state, which `add_edge` refuses. -/
def addReturnAfter (M : Mach) (k : Nat) (d : String) (isConst : Bool) : Option Mach :=
  if (M.at k).out = [] then addEdge (addState M { ret := some (d, isConst) } false) k ⟨M.states.length, .tt, []⟩ else none

/-- sdfg_builder.cpp:292-331 `add_loop`: the new machine with the states init = n, final = n + 1, early exit = n + 2, header = n + 3,
body = n + 4, update = n + 5. -/
def addLoop (M : Mach) (k : Nat) (i : String) (init : Expr) (c : Cond) (u : Expr) : Option Mach := do
  let n := M.states.length
  let M ← addStateAfter M k true
  -- lines 302-304: the assignment on the edge into the init state
  let M := M.modify k fun s => { s with out := s.out.map fun e => { e with asg := e.asg ++ [(i, init)] } }
  let M ← addStateAfter M n false
  let M := addState M {} false
  let M ← addEdge M n ⟨n + 2, c.neg, []⟩
  let M ← addEdge M (n + 2) ⟨n + 1, .tt, []⟩
  let M := addState M {} false
  let M ← addEdge M n ⟨n + 3, c, []⟩
  let M := addState M {} false
  let M ← addEdge M (n + 3) ⟨n + 4, .tt, []⟩
  let M := addState M {} false
  let M ← addEdge M (n + 4) ⟨n + 5, .tt, [(i, u)]⟩
  let M ← addEdge M (n + 5) ⟨n + 3, c, []⟩
  addEdge M (n + 5) ⟨n + 1, c.neg, []⟩

/-! ### specification -/

/-- the two machines return the same data with the same memory -/
def SameReturns (E : Env) (M M' : Mach) : Prop := ∀ σ d q τ, M.Returns E σ d q τ ↔ M'.Returns E σ d q τ

/-- Started in state `k` with memory `σ`, the machine comes to state `f` for the first time with memory `τ`. -/
inductive Mach.Until (M : Mach) (E : Env) (f : Nat) (τ : St) : Nat → St → Prop
  | here : Until M E f τ f τ
  | step {k k' : Nat} {σ σ' : St} : k ≠ f → M.Step E k σ k' σ' → Until M E f τ k' σ' → Until M E f τ k σ

end Docc.Struct
