/-
The structured SDFG builder as a state machine (sdfg/src/builder/structured_sdfg_builder.cpp).

Objects live in a heap of sequences; the address of a sequence is its position in the heap, which is never reused.  A
removed sequence stays in the heap as garbage (the C++ object is destroyed), so statements about the whole heap also cover
the program reachable from the root.  Conditions, assignments and loop headers are opaque labels.
-/
namespace Docc.Builder

/-- address of a sequence object -/
scoped notation "Addr" => Nat

/-- kinds of loops: while.h, for.h, map.h -/
inductive LoopKind where
  | while
  | for
  | map
  deriving Repr, DecidableEq, Inhabited

/-- A child of a sequence.  A nested Sequence is its own heap object; `dfg` are the element ids of the nodes and memlets of a
block; an if-else has two vectors `cases_`, `conditions_` (if_else.h); a loop owns its root sequence. -/
inductive Child where
  | seq (a : Addr)
  | block (id : Nat) (dfg : List Nat)
  | ifElse (id : Nat) (cases : List Addr) (conds : List String)
  | loop (id : Nat) (k : LoopKind) (header : String) (root : Addr)
  | leaf (id : Nat) (what : String)
  deriving Repr, DecidableEq, Inhabited

/-- sequence.h `Transition`: id, parent pointer, assignments -/
structure Tr where
  id : Nat
  parent : Addr
  assign : String
  deriving Repr, DecidableEq, Inhabited

/-- sequence.h `Sequence`: two vectors -/
structure SeqObj where
  id : Nat
  children : List Child
  trans : List Tr
  deriving Repr, DecidableEq, Inhabited

/-- The builder: the element counter of the function (function.h:48), the heap, the root. -/
structure Bld where
  counter : Nat
  heap : List SeqObj
  root : Addr
  deriving Repr, DecidableEq

/-- outcome of a call: state, C++ exception, undefined behaviour -/
inductive Res where
  | ok (b : Bld)
  | exc
  | ub
  deriving Repr, DecidableEq

/-- structured_sdfg.cpp:13-17: a new SDFG: counter 0, the root sequence has id 0. -/
def Bld.init : Bld := ⟨0, [⟨0, [], []⟩], 0⟩

/-- what is added -/
inductive New where
  | seq
  | block (dataflow : Nat)
  | ifElse
  | loop (k : LoopKind) (header : String)
  | leaf (what : String)
  deriving Repr, DecidableEq

/-- where: `add_*` (end), `add_*_before(child)`, `add_*_after(child)`; a child is given by its index, a child that is not in
the sequence by an index past the end. -/
inductive Pos where
  | last
  | before (i : Nat)
  | after (i : Nat)
  deriving Repr, DecidableEq

/-- structured_sdfg_builder.cpp:511-514 and the like: insertion index; `none`: "Child not found". -/
def Pos.index (p : Pos) (size : Nat) : Option Nat :=
  match p with
  | .last => some size
  | .before i => if i < size then some i else none
  | .after i => if i < size then some (i + 1) else none

/-- The new child with the heap objects it brings and the number of ids used.  Ids are `++counter` (function_builder.cpp:56).
A loop's root takes the next id (while.cpp:7, structured_loop.cpp:15) and the builder skips it (structured_sdfg_builder.cpp:
967-968).  `next` is the address of a new object. -/
def New.make (n : New) (c next : Nat) : Child × List SeqObj × Nat :=
  match n with
  | .seq => (.seq next, [⟨c + 1, [], []⟩], 1)
  | .block _ => (.block (c + 1) [], [], 1)
  | .ifElse => (.ifElse (c + 1) [] [], [], 1)
  | .loop k h => (.loop (c + 1) k h next, [⟨c + 2, [], []⟩], 2)
  | .leaf w => (.leaf (c + 1) w, [], 1)

/-- ids `c+1 .. c+n` -/
def freshIds (c n : Nat) : List Nat := (List.range n).map (c + 1 + ·)

/-- structured_sdfg_builder.cpp:1597-1620 `add_dataflow`: every node and edge of the copied graph gets a new id -/
def Child.fillDataflow (c : Child) (ids : List Nat) : Child :=
  match c with
  | .block i d => .block i (d ++ ids)
  | c => c

/-- number of elements copied into a new block -/
def New.flow : New → Nat
  | .block n => n
  | _ => 0

/-- structured_sdfg_builder.cpp:494-950, 963-1202 `add_sequence`, `add_block`, `add_if_else`, `add_while`, `add_for`, `add_map`,
`add_continue`, `add_break`, `add_return` and their `_before`/`_after` variants: the child gets the next id, then its transition,
then (for a block with a dataflow graph) the copied nodes. -/
def Bld.add (b : Bld) (p : Addr) (pos : Pos) (n : New) (assign : String) : Res :=
  match b.heap[p]? with
  | none => .ub
  | some s => match pos.index s.children.length with
    | none => .exc
    | some i =>
      let m := n.make b.counter b.heap.length
      let c1 := b.counter + m.2.2
      let child := m.1.fillDataflow (freshIds (c1 + 1) n.flow)
      let s' : SeqObj := ⟨s.id, s.children.insertIdx i child, s.trans.insertIdx i ⟨c1 + 1, p, assign⟩⟩
      .ok ⟨c1 + 1 + n.flow, b.heap.set p s' ++ m.2.1, b.root⟩

/-- structured_sdfg_builder.cpp:951-956 `add_case` on the if-else at position `i` of sequence `p`. -/
def Bld.addCase (b : Bld) (p : Addr) (i : Nat) (cond : String) : Res :=
  match b.heap[p]? with
  | none => .ub
  | some s => match s.children[i]? with
    | some (.ifElse id cs ks) =>
      .ok ⟨b.counter + 1,
        b.heap.set p ⟨s.id, s.children.set i (.ifElse id (cs ++ [b.heap.length]) (ks ++ [cond])), s.trans⟩ ++ [⟨b.counter + 1, [], []⟩],
        b.root⟩
    | _ => .ub

/-- structured_sdfg_builder.cpp:958-961 `remove_case`; an index past the end is undefined behaviour. -/
def Bld.removeCase (b : Bld) (p : Addr) (i k : Nat) : Res :=
  match b.heap[p]? with
  | none => .ub
  | some s => match s.children[i]? with
    | some (.ifElse id cs ks) =>
      if k < cs.length then .ok ⟨b.counter, b.heap.set p ⟨s.id, s.children.set i (.ifElse id (cs.eraseIdx k) (ks.eraseIdx k)), s.trans⟩, b.root⟩
      else .ub
    | _ => .ub

/-- structured_sdfg_builder.cpp:574-577 `remove_child`. -/
def Bld.removeChild (b : Bld) (p : Addr) (i : Nat) : Res :=
  match b.heap[p]? with
  | none => .ub
  | some s => if i < s.children.length then .ok ⟨b.counter, b.heap.set p ⟨s.id, s.children.eraseIdx i, s.trans.eraseIdx i⟩, b.root⟩ else .ub

/-- structured_sdfg_builder.cpp:579-582 `remove_children`. -/
def Bld.removeChildren (b : Bld) (p : Addr) : Res :=
  match b.heap[p]? with
  | none => .ub
  | some s => .ok ⟨b.counter, b.heap.set p ⟨s.id, [], []⟩, b.root⟩

/-- structured_sdfg_builder.cpp:592-601 `move_child` with a target index (which counts after the child was taken out);
`at(source_index)` throws, inserting past the end is undefined. -/
def Bld.moveChild (b : Bld) (src : Addr) (i : Nat) (dst : Addr) (j : Nat) : Res :=
  match b.heap[src]? with
  | none => .ub
  | some s => match s.children[i]?, s.trans[i]? with
    | some c, some t =>
      let h1 := b.heap.set src ⟨s.id, s.children.eraseIdx i, s.trans.eraseIdx i⟩
      match h1[dst]? with
      | none => .ub
      | some d => if j ≤ d.children.length then
          .ok ⟨b.counter, h1.set dst ⟨d.id, d.children.insertIdx j c, d.trans.insertIdx j { t with parent := dst }⟩, b.root⟩
        else .ub
    | _, _ => .exc

/-- structured_sdfg_builder.cpp:584-590 `move_child` to the end: within one sequence the index is one less (size 0: the
subtraction wraps around, but `at` throws first). -/
def Bld.moveChildEnd (b : Bld) (src : Addr) (i : Nat) (dst : Addr) : Res :=
  match b.heap[dst]? with
  | none => .ub
  | some d => b.moveChild src i dst (if src = dst then d.children.length - 1 else d.children.length)

/-- structured_sdfg_builder.cpp:607-623 `move_children`.  Moving a sequence into itself passes iterators of the vector to its own
`insert`: undefined.  All transitions of the target get it as their parent. -/
def Bld.moveChildren (b : Bld) (src dst : Addr) (j : Nat) : Res :=
  if src = dst then .ub
  else match b.heap[src]?, b.heap[dst]? with
    | some s, some d => if j ≤ d.children.length then
        .ok ⟨b.counter, (b.heap.set dst ⟨d.id, d.children.take j ++ s.children ++ d.children.drop j,
            (d.trans.take j ++ s.trans ++ d.trans.drop j).map fun t => { t with parent := dst }⟩).set src ⟨s.id, [], []⟩, b.root⟩
      else .ub
    | _, _ => .ub

/-- structured_sdfg_builder.cpp:603-605 -/
def Bld.moveChildrenEnd (b : Bld) (src dst : Addr) : Res :=
  match b.heap[dst]? with
  | none => .ub
  | some d => b.moveChildren src dst d.children.length

/-- structured_sdfg_builder.cpp:1204-1233 `convert_while` and 1235-1265 `convert_for`: a new loop takes the place (and the
transition) of the old one and receives its children. -/
def Bld.convert (b : Bld) (p : Addr) (i : Nat) (k : LoopKind) (header : String) : Res :=
  match b.heap[p]? with
  | none => .ub
  | some s => match s.children[i]? with
    | some (.loop _ _ _ r) =>
      let b1 : Bld := ⟨b.counter + 2,
        b.heap.set p ⟨s.id, s.children.set i (.loop (b.counter + 1) k header b.heap.length), s.trans⟩ ++ [⟨b.counter + 2, [], []⟩], b.root⟩
      b1.moveChildrenEnd r b.heap.length
    | none => .exc
    | _ => .ub

/-- structured_sdfg_builder.cpp:1320-1500 `add_access`, `add_constant`, `add_tasklet`, `add_memlet`, ...: one new dataflow element
in the block at position `i`. -/
def Bld.addNode (b : Bld) (p : Addr) (i : Nat) : Res :=
  match b.heap[p]? with
  | none => .ub
  | some s => match s.children[i]? with
    | some (.block id d) => .ok ⟨b.counter + 1, b.heap.set p ⟨s.id, s.children.set i (.block id (d ++ [b.counter + 1])), s.trans⟩, b.root⟩
    | _ => .ub

/-- structured_sdfg_builder.cpp:1503-1515 `remove_memlet`, `remove_node`: the `k`-th element of the block. -/
def Bld.removeNode (b : Bld) (p : Addr) (i k : Nat) : Res :=
  match b.heap[p]? with
  | none => .ub
  | some s => match s.children[i]? with
    | some (.block id d) =>
      if k < d.length then .ok ⟨b.counter, b.heap.set p ⟨s.id, s.children.set i (.block id (d.eraseIdx k)), s.trans⟩, b.root⟩ else .ub
    | _ => .ub

/-- a call of the builder -/
inductive Op where
  | add (p : Addr) (pos : Pos) (n : New) (assign : String)
  | addCase (p : Addr) (i : Nat) (cond : String)
  | removeCase (p : Addr) (i k : Nat)
  | removeChild (p : Addr) (i : Nat)
  | removeChildren (p : Addr)
  | moveChild (src : Addr) (i : Nat) (dst : Addr) (j : Nat)
  | moveChildEnd (src : Addr) (i : Nat) (dst : Addr)
  | moveChildren (src dst : Addr) (j : Nat)
  | moveChildrenEnd (src dst : Addr)
  | convert (p : Addr) (i : Nat) (k : LoopKind) (header : String)
  | addNode (p : Addr) (i : Nat)
  | removeNode (p : Addr) (i k : Nat)
  | hoistRoot
  | setCounter (n : Nat)
  deriving Repr, DecidableEq

/-- One call.  structured_sdfg_builder.cpp:625-636 `hoist_root` dereferences the moved-from `current_root` (line 633): always
undefined.  function_builder.cpp:58-60 `set_element_counter` is public. -/
def Bld.step (b : Bld) : Op → Res
  | .add p pos n a => b.add p pos n a
  | .addCase p i c => b.addCase p i c
  | .removeCase p i k => b.removeCase p i k
  | .removeChild p i => b.removeChild p i
  | .removeChildren p => b.removeChildren p
  | .moveChild s i d j => b.moveChild s i d j
  | .moveChildEnd s i d => b.moveChildEnd s i d
  | .moveChildren s d j => b.moveChildren s d j
  | .moveChildrenEnd s d => b.moveChildrenEnd s d
  | .convert p i k h => b.convert p i k h
  | .addNode p i => b.addNode p i
  | .removeNode p i k => b.removeNode p i k
  | .hoistRoot => .ub
  | .setCounter n => .ok { b with counter := n }

/-- a history of calls; a call that throws leaves the builder unchanged (the check precedes any change) -/
def Bld.run (b : Bld) : List Op → Res
  | [] => .ok b
  | o :: r => match b.step o with
    | .ok b' => b'.run r
    | .exc => b.run r
    | .ub => .ub

end Docc.Builder
