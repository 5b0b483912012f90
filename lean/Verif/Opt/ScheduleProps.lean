import Verif.Opt.Schedule

/-
C52: `update_schedule_type` gives a map the schedule it is called with.
C53: a scheduler only sees loop nests whose maps all have a schedule it is compatible with.
-/
namespace Docc.Opt

/-! ### specification -/

/-- all maps of the nest, the outermost loop included, have a compatible category -/
def Nest.Compatible (types : List Cat) (n : Nest) : Prop := ∀ s ∈ n.self.toList ++ n.desc, s.cat ∈ types

/-! ### C52 -/

/-- **C52** (partial): value and properties are those of the new schedule.  Missing: the category keeps its old value
(`update_schedule_violated`). -/
theorem update_schedule_partial (old new : Sched) :
    (updateSchedule old new).value = new.value ∧ (∀ k, (updateSchedule old new).prop k = new.prop k) ∧
    (old.cat = new.cat → updateSchedule old new = new) := by
  refine ⟨rfl, fun _ => rfl, fun h => ?_⟩
  cases old; cases new; simp_all [updateSchedule, Sched.assign]

/-- **C52 fails**: a sequential map that is made an OpenMP map still reports the category of a sequential map; and so does every map
whatever the schedule: the category never changes. -/
theorem update_schedule_violated : updateSchedule .sequential .omp ≠ .omp ∧
    (∀ old new : Sched, (updateSchedule old new).cat = old.cat) := ⟨by decide, fun _ _ => rfl⟩

/-- setting a property and reading it back; other properties keep their value -/
theorem setProp_prop (s : Sched) (k v k' : String) : (s.setProp k v).prop k' = if k' = k then some v else s.prop k' := by
  unfold Sched.setProp
  split
  · rename_i h
    simp only [Sched.prop]
    generalize s.props = l at h ⊢
    induction l with
    | nil => simp at h
    | cons p r ih =>
      by_cases hp : p.1 = k
      · subst hp
        by_cases hk : k' = p.1
        · subst hk; simp
        · have : ¬ p.1 = k' := fun e => hk e.symm
          simp only [List.map_cons, beq_self_eq_true, if_true, List.find?_cons, if_neg hk, beq_eq_false_iff_ne.2 this]
          by_cases hr : (r.any fun q => q.1 == p.1) = true
          · have := ih hr
            rw [if_neg hk] at this
            exact this
          · have : (r.map fun q => if q.1 == p.1 then (p.1, v) else q) = r := by
              conv => rhs; rw [← List.map_id r]
              refine List.map_congr_left fun q hq => ?_
              have : ¬ q.1 = p.1 := fun e => hr (List.any_eq_true.2 ⟨q, hq, by simp [e]⟩)
              simp [this]
            rw [this]
      · have hr : (r.any fun q => q.1 == k) = true := by simpa [hp] using h
        have hpb : (p.1 == k) = false := by simp [hp]
        simp only [List.map_cons, hpb, Bool.false_eq_true, if_false, List.find?_cons]
        by_cases hpk : p.1 = k'
        · have : ¬ k' = k := fun e => hp (hpk.trans e)
          simp [hpk, this]
        · simp only [beq_eq_false_iff_ne.2 hpk]
          exact ih hr
  · rename_i h
    simp only [Sched.prop, List.find?_append]
    by_cases hk : k' = k
    · subst hk
      have : s.props.find? (fun p => p.1 == k') = none := by
        refine List.find?_eq_none.2 fun p hp => ?_
        simp only [Bool.not_eq_true, List.any_eq_false] at h
        simpa using h p hp
      simp [this]
    · simp only [if_neg hk]
      cases hf : s.props.find? (fun p => p.1 == k') with
      | none => simp; exact fun e => hk e.symm
      | some p => simp

example : (Sched.cuda.setProp "block_size" "32").prop "dimension" = some "0" := by decide

/-! ### C53 -/

theorem filterQueue_lt {α : Type} (ok : α → Bool) (i : Nat) (x : α) (r : List α) (h : i < (x :: r).length) :
    filterQueue ok i (x :: r) = filterQueue ok (i + 1) (if ok x then r ++ [x] else r) := by
  rw [filterQueue]; simp only [h, dite_true]

theorem filterQueue_ge {α : Type} (ok : α → Bool) (i : Nat) (q : List α) (h : q.length ≤ i) : filterQueue ok i q = q := by
  rw [filterQueue]; simp only [Nat.not_lt.2 h, dite_false]

/-- The loop examines the elements in order until the number of examined and removed elements reaches the size of the queue. -/
theorem filterQueue_spec {α : Type} (ok : α → Bool) (todo done : List α) (i : Nat) (hi : done.length ≤ i) :
    ∃ k ≤ todo.length, filterQueue ok i (todo ++ done) = todo.drop k ++ (done ++ (todo.take k).filter ok) ∧
      (k = todo.length ∨ todo.length + done.length ≤ i + k + ((todo.take k).filter fun x => !ok x).length) := by
  induction todo generalizing done i with
  | nil => exact ⟨0, Nat.le_refl _, by rw [List.nil_append, filterQueue_ge _ _ _ hi]; simp, .inl rfl⟩
  | cons x r ih =>
    by_cases h : i < (x :: (r ++ done)).length
    · rw [List.cons_append, filterQueue_lt _ _ _ _ h]
      cases hx : ok x with
      | true =>
        simp only [if_true, List.append_assoc]
        obtain ⟨k, h1, h2, h3⟩ := ih (done ++ [x]) (i + 1) (by simp; omega)
        refine ⟨k + 1, by simp; omega, ?_, ?_⟩
        · rw [h2]; simp [hx]
        · rcases h3 with h3 | h3
          · exact .inl (by simp [h3])
          · right; simp [hx] at h3 ⊢; omega
      | false =>
        simp only [Bool.false_eq_true, if_false]
        obtain ⟨k, h1, h2, h3⟩ := ih done (i + 1) (by omega)
        refine ⟨k + 1, by simp; omega, ?_, ?_⟩
        · rw [h2]; simp [hx]
        · rcases h3 with h3 | h3
          · exact .inl (by simp [h3])
          · right; simp [hx] at h3 ⊢; omega
    · refine ⟨0, Nat.zero_le _, ?_, ?_⟩
      · rw [List.cons_append, filterQueue_ge _ _ _ (by omega)]; simp
      · right; simp at h ⊢; omega

/-- no loop is invented and no nest that passes is dropped -/
theorem schedulerQueue_keeps (types : List Cat) (l : List Nest) (n : Nest) :
    (n ∈ schedulerQueue types l → n ∈ l) ∧ (n ∈ l → n.passes types = true → n ∈ schedulerQueue types l) := by
  obtain ⟨k, _, h2, _⟩ := filterQueue_spec (Nest.passes types) l [] 0 (Nat.le_refl _)
  rw [List.append_nil] at h2
  rw [schedulerQueue, h2]
  simp only [List.nil_append, List.mem_append, List.mem_filter]
  refine ⟨fun h => ?_, fun h hp => ?_⟩
  · rcases h with h | h
    · exact List.mem_of_mem_drop h
    · exact List.mem_of_mem_take h.1
  · rw [← List.take_append_drop k l, List.mem_append] at h
    rcases h with h | h
    · exact .inr ⟨h, hp⟩
    · exact .inl h

/-- **C53** (partial): if at most one outermost nest contains (below its outermost loop) an incompatible map, and no outermost loop is
itself an incompatible map, the scheduler only sees compatible nests.  Missing: two such nests (`schedule_filter_violated`), an
incompatible outermost map (`schedule_filter_self_violated`). -/
theorem schedule_filter_partial (types : List Cat) (l : List Nest) (hone : (l.filter fun n => !n.passes types).length ≤ 1)
    (hself : ∀ n ∈ l, ∀ s ∈ n.self, s.cat ∈ types) : ∀ n ∈ schedulerQueue types l, n.Compatible types := by
  intro n hn
  have hl := (schedulerQueue_keeps types l n).1 hn
  have hp : n.passes types = true := by
    obtain ⟨k, hk, h2, h3⟩ := filterQueue_spec (Nest.passes types) l [] 0 (Nat.le_refl _)
    rw [List.append_nil] at h2
    rw [schedulerQueue, h2] at hn
    simp only [List.nil_append, List.mem_append, List.mem_filter] at hn
    rcases hn with hn | hn
    · rcases h3 with h3 | h3
      · simp [h3] at hn
      · have hsplit : (l.filter fun n => !n.passes types).length =
            ((l.take k).filter fun n => !n.passes types).length + ((l.drop k).filter fun n => !n.passes types).length := by
          rw [← List.length_append, ← List.filter_append, List.take_append_drop]
        have hd : 1 ≤ (l.drop k).length := List.length_pos_of_mem hn
        simp only [List.length_drop, List.length_nil] at hd h3
        have : ((l.drop k).filter fun n => !n.passes types).length = 0 := by omega
        rw [List.length_eq_zero_iff, List.filter_eq_nil_iff] at this
        simpa using this n hn
    · exact hn.2
  intro s hs
  rw [List.mem_append] at hs
  rcases hs with hs | hs
  · exact hself n hl s (by simpa using hs)
  · simp only [Nest.passes, List.all_eq_true] at hp
    simpa using hp s hs

example : (schedulerQueue cudaTypes [⟨some .sequential, [.sequential]⟩, ⟨some .sequential, [.cuda]⟩, ⟨none, [.sequential]⟩]) =
    [⟨none, [.sequential]⟩, ⟨some .sequential, [.sequential]⟩] := by
  simp [schedulerQueue, filterQueue, Nest.passes, cudaTypes, Sched.sequential, Sched.cuda, Sched.setProp]

/-- **C53 fails**: of two adjacent nests with offloaded maps only the first is removed: the loop bound `queue.size()` shrinks. -/
theorem schedule_filter_violated : ∃ l : List Nest, ∃ n ∈ schedulerQueue ompTypes l, ¬ n.Compatible ompTypes := by
  refine ⟨[⟨none, [.cuda]⟩, ⟨none, [.cuda]⟩], ⟨none, [.cuda]⟩, ?_, fun h => ?_⟩
  · simp only [schedulerQueue]
    rw [filterQueue_lt _ _ _ _ (by decide), filterQueue_ge _ _ _ (by decide)]
    decide
  · exact absurd (h .cuda (by decide)) (by decide)

/-- **C53 fails**: an outermost map that is already offloaded is handed to the OpenMP scheduler: the outermost loop is not looked at. -/
theorem schedule_filter_self_violated : ∃ l : List Nest, l.length = 1 ∧ ∃ n ∈ schedulerQueue ompTypes l, ¬ n.Compatible ompTypes := by
  refine ⟨[⟨some .cuda, []⟩], rfl, ⟨some .cuda, []⟩, ?_, fun h => ?_⟩
  · simp only [schedulerQueue]
    rw [filterQueue_lt _ _ _ _ (by decide), filterQueue_ge _ _ _ (by decide)]
    decide
  · exact absurd (h .cuda (by decide)) (by decide)

/-- **C53 fails** together with C52: a nest whose inner map was offloaded by `update_schedule_type` from a sequential one passes every
filter. -/
theorem schedule_filter_update_violated (types : List Cat) (h : Cat.none ∈ types) (new : Sched) :
    (⟨none, [updateSchedule .sequential new]⟩ : Nest).passes types = true := by
  simp [Nest.passes, updateSchedule, Sched.assign, Sched.sequential, h]

end Docc.Opt
