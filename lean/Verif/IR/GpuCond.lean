import Verif.IR.Users
import Verif.IR.OutLocal
import Verif.IR.Jump

/-
GPUConditionPropagation (opt/src/transformations/offloading/gpu_condition_propagation.cpp): a CUDA map whose body contains thread barriers is
emitted without the test of the map condition (opt/src/targets/cuda/cuda_map_dispatcher.cpp:209-215, 229-233), so that every thread of the last
block reaches the barriers; instead the condition is pushed into the body.
-/
namespace Docc.IR
open Docc.Sym

/-- data_flow/library_nodes/barrier_local_node.h `BarrierLocalNode`.  The node has no connectors in the code.  In the model a barrier may be given
containers that it reads and writes (for instance a counter of the barriers passed). -/
def Stmt.isBarrier : Stmt → Bool
  | .lib op _ _ => op == "barrier_local"
  | .tasklet _ _ _ _ => false

mutual
/-- gpu_condition_propagation.cpp:157-195 `BarrierFinder` -/
def Node.hasBarrier : Node → Bool
  | .block l => l.any Stmt.isBarrier
  | .seq s => s.hasBarrier
  | .ifElse b => b.hasBarrier
  | .whileL s => s.hasBarrier
  | .loop _ _ _ _ _ s => s.hasBarrier
  | .brk => false
  | .cont => false
  | .ret _ _ => false
/-- the same for a sequence -/
def Seq.hasBarrier : Seq → Bool
  | .nil => false
  | .cons n _ r => n.hasBarrier || r.hasBarrier
/-- the same for cases -/
def Brs.hasBarrier : Brs → Bool
  | .nil => false
  | .cons _ s r => s.hasBarrier || r.hasBarrier
end

/-- gpu_condition_propagation.cpp:56-61: the `UsersView` of a node contains a use of the map variable -/
def usesVar (i : String) (us : List User) : Bool := us.any fun u => u.2 == i

/-- how the transformation fails -/
inductive GpuFail where
  /-- gpu_condition_propagation.cpp:76: `add_if_else_before` is asked for a child of the parent sequence but gets a child of the nested one
  (sdfg/src/builder/structured_sdfg_builder.cpp `add_if_else_before`: exception) -/
  | childNotFound
  /-- gpu_condition_propagation.cpp:53-54, 76: the parent of a branch is an if-else and is cast to a sequence (undefined behaviour) -/
  | badCast
  deriving Repr, DecidableEq

/-- gpu_condition_propagation.cpp:63-68, 80-117: a child without barriers is moved, together with its transition (`move_child`), into a new
if-else with the map condition; a nested sequence fails (:70-79); break, continue and return are none of the cases. -/
def Node.wrap (k : Cond) (n : Node) (t : Trans) (r : Seq) : Except GpuFail Seq :=
  match n with
  | .seq _ => .error .childNotFound
  | .brk => .ok (.cons n t r)
  | .cont => .ok (.cons n t r)
  | .ret _ _ => .ok (.cons n t r)
  | _ => .ok (.cons (.ifElse (.cons k (.cons n t .nil) .nil)) [] r)

mutual
/-- gpu_condition_propagation.cpp:63-117: a node that contains a barrier and uses the map variable.  A body that does not use the variable is
left alone (:58-61), which is what the visit of its children does, too. -/
def Node.guard (i : String) (k : Cond) : Node → Except GpuFail Node
  | .block l => .ok (.block l)
  | .seq s => (s.guard i k).map .seq
  | .ifElse b => (b.guard i k).map .ifElse
  | .whileL s => (s.guard i k).map .whileL
  | .loop m j init cond upd s => (s.guard i k).map (.loop m j init cond upd)
  | .brk => .ok .brk
  | .cont => .ok .cont
  | .ret d q => .ok (.ret d q)
/-- gpu_condition_propagation.cpp:50-118: the children of a sequence with a barrier.  The stack visits the last child first.  Simplification: code
behind a direct `return` has no users graph and is not expected. -/
def Seq.guard (i : String) (k : Cond) : Seq → Except GpuFail Seq
  | .nil => .ok .nil
  | .cons n t r =>
    match r.guard i k with
    | .error f => .error f
    | .ok r' =>
      if usesVar i n.users then
        if n.hasBarrier then (n.guard i k).map fun n' => .cons n' t r'
        else n.wrap k t r'
      else .ok (.cons n t r')
/-- gpu_condition_propagation.cpp:80-84: the branches of an if-else with a barrier; a branch that uses the map variable but has no barrier itself is
handled like a nested sequence (:70-79), but its parent is not a sequence. -/
def Brs.guard (i : String) (k : Cond) : Brs → Except GpuFail Brs
  | .nil => .ok .nil
  | .cons c s r =>
    match r.guard i k with
    | .error f => .error f
    | .ok r' =>
      if usesVar i s.users then
        if s.hasBarrier then (s.guard i k).map fun s' => .cons c s' r'
        else .error .badCast
      else .ok (.cons c s r')
end

/-- gpu_condition_propagation.cpp:19-34, 36-120: the body of an accepted CUDA map with variable `i` and condition `k` afterwards.  `none`: not
accepted (no barrier in the body). -/
def gpuPropagate (i : String) (k : Cond) (body : Seq) : Option (Except GpuFail Seq) :=
  if body.hasBarrier then some (body.guard i k) else none

/-- cuda_map_dispatcher.cpp:209-234: what one thread runs before the transformation: the body under the test (the test that is printed
compares the variable with the number of iterations; here it is the condition of the map). -/
def threadBefore (k : Cond) (body : Seq) : Node := .ifElse (.cons k body .nil)

/-! ### specification: the containers a thread may change before any test of the map variable -/

mutual
/-- Containers that are written, in a node that contains a barrier, by something that is not put under the condition: blocks with a barrier,
variables of loops with a barrier. -/
def Node.exposed (i : String) : Node → List String
  | .block l => (Node.block l).written
  | .seq s => s.exposed i
  | .ifElse b => b.exposed i
  | .whileL s => s.exposed i
  | .loop _ j _ _ _ s => j :: s.exposed i
  | .brk => []
  | .cont => []
  | .ret _ _ => []
/-- The same for a sequence: the writes of children that do not mention `i` at all, of transitions behind such children or behind children with a
barrier, and the exposed writes inside children with a barrier. -/
def Seq.exposed (i : String) : Seq → List String
  | .nil => []
  | .cons n t r => (if usesVar i n.users then (if n.hasBarrier then n.exposed i ++ t.map (·.1) else []) else n.written ++ t.map (·.1)) ++ r.exposed i
/-- the same for cases -/
def Brs.exposed (i : String) : Brs → List String
  | .nil => []
  | .cons _ s r => (if usesVar i s.users then s.exposed i else s.written) ++ r.exposed i
end

/-! ### specification: threads that take the same way through the body -/

/-- values of containers of `X` are computed from containers of `X` only -/
def Stmt.within (X : String → Bool) : Stmt → Bool
  | .tasklet _ ins o sub => !X o || (ins.all (fun r => X r.1 && (Expr.atomsL r.2).all X) && (Expr.atomsL sub).all X)
  | .lib _ rs ws => !ws.any X || rs.all X

/-- the same for the assignments of a transition -/
def transWithin (X : String → Bool) (t : Trans) : Bool := t.all fun a => !X a.1 || a.2.atoms.all X

mutual
/-- Everything that decides the way through the node (conditions, loop headers) is computed from containers of `X`, and so are the values of these
containers. -/
def Node.within (X : String → Bool) : Node → Bool
  | .block l => l.all (Stmt.within X)
  | .seq s => s.within X
  | .ifElse b => b.within X
  | .whileL s => s.within X
  | .loop _ j init cond upd s => (!X j || (init.atoms.all X && upd.atoms.all X)) && cond.atoms.all X && s.within X
  | .brk => true
  | .cont => true
  | .ret _ _ => true
/-- the same for a sequence -/
def Seq.within (X : String → Bool) : Seq → Bool
  | .nil => true
  | .cons n t r => n.within X && transWithin X t && r.within X
/-- the same for cases -/
def Brs.within (X : String → Bool) : Brs → Bool
  | .nil => true
  | .cons c s r => c.atoms.all X && s.within X && r.within X
end

/-- what is put under the condition: no `break`, `continue` or `return` leaves it, and it writes no container of `X` -/
def Node.aside (X : String → Bool) (n : Node) (t : Trans) : Bool := n.noJump && !n.returns && !(n.written ++ t.map (·.1)).any X

mutual
/-- The way through the body, apart from what is put under the condition, depends on containers of `X` only, and what is put under the condition
neither leaves early nor writes such a container. -/
def Node.uniform (i : String) (X : String → Bool) : Node → Bool
  | .block l => (Node.block l).within X
  | .seq s => s.uniform i X
  | .ifElse b => b.uniform i X
  | .whileL s => s.uniform i X
  | .loop _ j init cond upd s => (!X j || (init.atoms.all X && upd.atoms.all X)) && cond.atoms.all X && s.uniform i X
  | .brk => true
  | .cont => true
  | .ret _ _ => true
/-- the same for a sequence -/
def Seq.uniform (i : String) (X : String → Bool) : Seq → Bool
  | .nil => true
  | .cons n t r =>
    (if usesVar i n.users then (if n.hasBarrier then n.uniform i X && transWithin X t else n.aside X t) else n.within X && transWithin X t)
      && r.uniform i X
/-- the same for cases -/
def Brs.uniform (i : String) (X : String → Bool) : Brs → Bool
  | .nil => true
  | .cons c s r => c.atoms.all X && (if usesVar i s.users then s.uniform i X else s.within X) && r.uniform i X
end

end Docc.IR
