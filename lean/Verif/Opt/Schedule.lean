/-
Map schedules (sdfg/include/sdfg/structured_control_flow/map.h) and the compatibility filter of the loop scheduling pass
(opt/src/passes/scheduler/loop_scheduling_pass.cpp).
-/
namespace Docc.Opt

/-- map.h:18 -/
inductive Cat where
  | offloader
  | parallelizer
  | vectorizer
  | none
  deriving Repr, DecidableEq, Inhabited

/-- map.h:39-84 `ScheduleType`: the property map as an association list -/
structure Sched where
  value : String
  cat : Cat
  props : List (String × String)
  deriving Repr, DecidableEq, Inhabited

/-- lookup in the property map -/
def Sched.prop (s : Sched) (k : String) : Option String := (s.props.find? fun p => p.1 == k).map (·.2)

/-- map.h:63-69 `set_property`: insert or overwrite -/
def Sched.setProp (s : Sched) (k v : String) : Sched :=
  if s.props.any (fun p => p.1 == k) then { s with props := s.props.map fun p => if p.1 == k then (k, v) else p }
  else { s with props := s.props ++ [(k, v)] }

/-- map.h:71-77 `operator=`: value and properties -/
def Sched.assign (lhs rhs : Sched) : Sched := { lhs with value := rhs.value, props := rhs.props }

/-- map.h:86-90 -/
def Sched.sequential : Sched := ⟨"SEQUENTIAL", .none, []⟩
/-- opt/include/sdfg/targets/omp/schedule.h:77-81 -/
def Sched.omp : Sched := ⟨"CPU_PARALLEL", .parallelizer, []⟩
/-- opt/include/sdfg/targets/highway/schedule.h:20-23 -/
def Sched.highway : Sched := ⟨"HIGHWAY", .vectorizer, []⟩
/-- opt/include/sdfg/targets/cuda/cuda.h:40-45 -/
def Sched.cuda : Sched := Sched.setProp ⟨"CUDA", .offloader, []⟩ "dimension" "0"

/-- structured_sdfg_builder.cpp:1287-1289 `update_schedule_type`: the new schedule of a map with schedule `old` -/
def updateSchedule (old new : Sched) : Sched := old.assign new

/-- An outermost loop as the filter sees it: the schedule of the loop itself when it is a map, and those of the maps among its
proper descendants (loop_analysis.cpp:446-463 `descendants` does not contain the loop itself). -/
structure Nest where
  self : Option Sched
  desc : List Sched
  deriving Repr, DecidableEq, Inhabited

/-- loop_scheduling_pass.cpp:44-54 (negated `found_incompatible`) -/
def Nest.passes (types : List Cat) (n : Nest) : Bool := n.desc.all fun s => types.contains s.cat

/-- loop_scheduling_pass.cpp:39-60: `for (i = 0; i < queue.size(); i++)` pops the front and pushes it back when it passes. -/
def filterQueue {α : Type} (ok : α → Bool) (i : Nat) (q : List α) : List α :=
  if h : i < q.length then
    match q, h with
    | x :: r, _ => filterQueue ok (i + 1) (if ok x then r ++ [x] else r)
  else q
termination_by q.length - i
decreasing_by
  split <;> simp_all <;> omega

/-- the queue that reaches the scheduler -/
def schedulerQueue (types : List Cat) (outermost : List Nest) : List Nest := filterQueue (Nest.passes types) 0 outermost

/-- cuda_scheduler.cpp:89, polly_scheduler.cpp:40 -/
def cudaTypes : List Cat := [.none]
/-- omp_scheduler.cpp:54-56 -/
def ompTypes : List Cat := [.none, .vectorizer]
/-- highway_scheduler.cpp:51-53 -/
def highwayTypes : List Cat := [.none, .parallelizer]

end Docc.Opt
