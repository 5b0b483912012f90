import Verif.Builder.Tree

/-
C36: element ids stay unique.  C37: sequences keep their children and transitions paired; moves lose and duplicate nothing.
-/
namespace Docc.Builder

/-! ### specification -/

/-- element ids of a child (a nested sequence's id belongs to its own object) -/
def Child.ids : Child → List Nat
  | .seq _ => []
  | .block id d => id :: d
  | .ifElse id _ _ => [id]
  | .loop id _ _ _ => [id]
  | .leaf id _ => [id]

/-- the sequences a child owns -/
def Child.owns : Child → List Addr
  | .seq a => [a]
  | .block _ _ => []
  | .ifElse _ cs _ => cs
  | .loop _ _ _ r => [r]
  | .leaf _ _ => []

/-- element ids of a sequence, its children and its transitions -/
def SeqObj.ids (s : SeqObj) : List Nat := s.id :: (s.children.flatMap Child.ids ++ s.trans.map Tr.id)

/-- the sequences owned by the children -/
def SeqObj.owns (s : SeqObj) : List Addr := s.children.flatMap Child.owns

/-- the ids of all elements, one entry per element -/
def Bld.ids (b : Bld) : List Nat := b.heap.flatMap SeqObj.ids

/-- all owned sequences, one entry per owner -/
def Bld.owns (b : Bld) : List Addr := b.heap.flatMap SeqObj.owns

/-! ### counting -/

theorem split_get {α : Type} {l : List α} {i : Nat} {s : α} (h : l[i]? = some s) :
    ∃ pre post, l = pre ++ s :: post ∧ pre.length = i := by
  induction l generalizing i with
  | nil => simp at h
  | cons a r ih =>
    cases i with
    | zero => simp at h; exact ⟨[], r, by simp [h], rfl⟩
    | succ i =>
      simp at h
      obtain ⟨pre, post, h1, h2⟩ := ih h
      exact ⟨a :: pre, post, by simp [h1], by simp [h2]⟩

section count
variable {α : Type} {β : Type} [BEq β] (f : α → List β) (x : β)

theorem count_set {l : List α} {i : Nat} {s : α} (h : l[i]? = some s) (s' : α) :
    ((l.set i s').flatMap f).count x + (f s).count x = (l.flatMap f).count x + (f s').count x := by
  obtain ⟨pre, post, rfl, rfl⟩ := split_get h
  simp [List.count_append]; omega

theorem count_erase {l : List α} {i : Nat} {s : α} (h : l[i]? = some s) :
    ((l.eraseIdx i).flatMap f).count x + (f s).count x = (l.flatMap f).count x := by
  obtain ⟨pre, post, rfl, rfl⟩ := split_get h
  simp [List.eraseIdx_append_of_length_le, List.count_append]; omega

theorem count_insert {l : List α} {i : Nat} (h : i ≤ l.length) (s : α) :
    ((l.insertIdx i s).flatMap f).count x = (l.flatMap f).count x + (f s).count x := by
  induction l generalizing i with
  | nil => simp at h; subst h; simp
  | cons a r ih =>
    cases i with
    | zero => simp [List.count_append]; omega
    | succ i => simp at h; simp [List.count_append, ih h]; omega

end count


theorem count_map {α : Type} (f : α → Nat) (l : List α) (x : Nat) : (l.map f).count x = (l.flatMap fun a => [f a]).count x := by
  congr 1
  induction l with
  | nil => rfl
  | cons a r ih => simp [ih]

theorem count_freshIds (c n x : Nat) : (freshIds c n).count x = if c < x ∧ x ≤ c + n then 1 else 0 := by
  induction n with
  | zero => simp [freshIds]
  | succ n ih =>
    simp only [freshIds, List.range_succ, List.map_append, List.map_cons, List.map_nil, List.count_append] at ih ⊢
    rw [ih, List.count_singleton]
    simp only [beq_iff_eq]
    split <;> split <;> split <;> omega

theorem SeqObj.count_ids (s : SeqObj) (x : Nat) :
    s.ids.count x = (if s.id = x then 1 else 0) + (s.children.flatMap Child.ids).count x + (s.trans.flatMap fun t => [t.id]).count x := by
  rw [SeqObj.ids, List.count_cons, List.count_append, count_map]
  simp only [beq_iff_eq]
  omega

/-- Between two states the counter grows and at most the ids in between are new. -/
def Grow (b b' : Bld) : Prop :=
  b.counter ≤ b'.counter ∧ ∀ x, b'.ids.count x ≤ b.ids.count x + (if b.counter < x ∧ x ≤ b'.counter then 1 else 0)

theorem Grow.trans {a b c : Bld} (h1 : Grow a b) (h2 : Grow b c) : Grow a c := by
  refine ⟨by have := h1.1; have := h2.1; omega, fun x => ?_⟩
  have a1 := h1.2 x
  have a2 := h2.2 x
  have := h1.1
  have := h2.1
  split at a1 <;> split at a2 <;> split <;> omega

/-- replacing one sequence object -/
theorem grow_set {b : Bld} {p : Addr} {s s' : SeqObj} {c r : Nat} {extra : List SeqObj} (hp : b.heap[p]? = some s) (hc : b.counter ≤ c)
    (h : ∀ x, s'.ids.count x + (extra.flatMap SeqObj.ids).count x ≤ s.ids.count x + (if b.counter < x ∧ x ≤ c then 1 else 0)) :
    Grow b ⟨c, b.heap.set p s' ++ extra, r⟩ := by
  refine ⟨hc, fun x => ?_⟩
  have h1 := count_set SeqObj.ids x hp s'
  have h2 := h x
  simp only [Bld.ids, List.flatMap_append, List.count_append]
  omega

theorem Pos.index_le {pos : Pos} {n i : Nat} (h : pos.index n = some i) : i ≤ n := by
  cases pos <;> simp only [Pos.index] at h
  · simp only [Option.some.injEq] at h; omega
  · split at h <;> simp_all; omega
  · split at h <;> simp_all; omega

theorem count_insert_le {α : Type} (f : α → List Nat) (x : Nat) (l : List α) (i : Nat) (s : α) :
    ((l.insertIdx i s).flatMap f).count x ≤ (l.flatMap f).count x + (f s).count x := by
  by_cases h : i ≤ l.length
  · rw [count_insert f x h]; omega
  · rw [List.insertIdx_of_length_lt (by omega)]; omega

theorem count_erase_le {α : Type} (f : α → List Nat) (x : Nat) (l : List α) (i : Nat) :
    ((l.eraseIdx i).flatMap f).count x ≤ (l.flatMap f).count x := by
  cases h : l[i]? with
  | none =>
    rw [List.eraseIdx_of_length_le]
    · exact Nat.le_refl _
    · simpa using h
  | some a => have := count_erase f x h; omega

theorem add_grow {b b' : Bld} {p : Addr} {pos : Pos} {n : New} {a : String} (h : b.add p pos n a = .ok b') : Grow b b' := by
  unfold Bld.add at h
  split at h
  · simp at h
  rename_i s hp
  split at h
  · simp at h
  rename_i i hi
  simp only [Res.ok.injEq] at h
  subst h
  refine grow_set hp (by omega) fun x => ?_
  simp only [SeqObj.count_ids]
  have h1 := count_insert_le Child.ids x s.children i ((n.make b.counter b.heap.length).1.fillDataflow (freshIds (b.counter + (n.make b.counter b.heap.length).2.2 + 1) n.flow))
  have h2 := count_insert_le (fun t : Tr => [t.id]) x s.trans i ⟨b.counter + (n.make b.counter b.heap.length).2.2 + 1, p, a⟩
  simp only [List.count_singleton, beq_iff_eq] at h2
  have h3 : ((n.make b.counter b.heap.length).1.fillDataflow (freshIds (b.counter + (n.make b.counter b.heap.length).2.2 + 1) n.flow)).ids.count x +
      (List.flatMap SeqObj.ids (n.make b.counter b.heap.length).2.1).count x +
      (if b.counter + (n.make b.counter b.heap.length).2.2 + 1 = x then 1 else 0) ≤
      if b.counter < x ∧ x ≤ b.counter + (n.make b.counter b.heap.length).2.2 + 1 + n.flow then 1 else 0 := by
    cases n <;> simp only [New.make, New.flow, Child.fillDataflow, Child.ids, List.count_nil, List.flatMap_nil, List.flatMap_cons,
      List.append_nil, SeqObj.ids, List.map_nil, List.count_cons, count_freshIds, beq_iff_eq, List.nil_append]
    all_goals clear h1 h2 hi; grind
  omega

theorem addCase_grow {b b' : Bld} {p : Addr} {i : Nat} {c : String} (h : b.addCase p i c = .ok b') : Grow b b' := by
  unfold Bld.addCase at h
  split at h
  · simp at h
  rename_i s hp
  split at h
  · rename_i id cs ks hi
    simp only [Res.ok.injEq] at h
    subst h
    refine grow_set hp (by simp) fun x => ?_
    simp only [SeqObj.count_ids]
    have h1 := count_set Child.ids x hi (.ifElse id (cs ++ [b.heap.length]) (ks ++ [c]))
    simp only [Child.ids, List.count_singleton, List.flatMap_cons, List.flatMap_nil, SeqObj.ids, List.map_nil, List.append_nil, beq_iff_eq] at h1 ⊢
    have : (if b.counter + 1 = x then 1 else 0) ≤ if b.counter < x ∧ x ≤ b.counter + 1 then 1 else 0 := by
      (repeat' split) <;> omega
    omega
  · simp at h

theorem set_child_grow {b : Bld} {p : Addr} {i : Nat} {s : SeqObj} {c c' : Child} {n : Nat} (hp : b.heap[p]? = some s) (hi : s.children[i]? = some c)
    (hn : b.counter ≤ n) (hc : ∀ x, c'.ids.count x ≤ c.ids.count x + if b.counter < x ∧ x ≤ n then 1 else 0) :
    Grow b ⟨n, b.heap.set p ⟨s.id, s.children.set i c', s.trans⟩, b.root⟩ := by
  have := grow_set (r := b.root) (s' := ⟨s.id, s.children.set i c', s.trans⟩) (extra := []) hp hn (fun x => by
    have h1 := count_set Child.ids x hi c'
    have h2 := hc x
    simp only [SeqObj.count_ids, List.flatMap_nil, List.count_nil]
    omega)
  simpa using this

theorem removeCase_grow {b b' : Bld} {p : Addr} {i k : Nat} (h : b.removeCase p i k = .ok b') : Grow b b' := by
  unfold Bld.removeCase at h
  split at h
  · simp at h
  rename_i s hp
  split at h
  · rename_i id cs ks hi
    split at h
    · simp only [Res.ok.injEq] at h
      subst h
      exact set_child_grow hp hi (Nat.le_refl _) fun x => by simp [Child.ids]
    · simp at h
  · simp at h

theorem addNode_grow {b b' : Bld} {p : Addr} {i : Nat} (h : b.addNode p i = .ok b') : Grow b b' := by
  unfold Bld.addNode at h
  split at h
  · simp at h
  rename_i s hp
  split at h
  · rename_i id d hi
    simp only [Res.ok.injEq] at h
    subst h
    refine set_child_grow hp hi (by omega) fun x => ?_
    simp only [Child.ids, List.count_cons, List.count_append, List.count_nil, beq_iff_eq]
    have : (if b.counter + 1 = x then 1 else 0) ≤ if b.counter < x ∧ x ≤ b.counter + 1 then 1 else 0 := by
      (repeat' split) <;> omega
    omega
  · simp at h

theorem removeNode_grow {b b' : Bld} {p : Addr} {i k : Nat} (h : b.removeNode p i k = .ok b') : Grow b b' := by
  unfold Bld.removeNode at h
  split at h
  · simp at h
  rename_i s hp
  split at h
  · rename_i id d hi
    split at h
    · simp only [Res.ok.injEq] at h
      subst h
      refine set_child_grow hp hi (by omega) fun x => ?_
      simp only [Child.ids, List.count_cons]
      have := (List.eraseIdx_sublist d k).count_le x
      omega
    · simp at h
  · simp at h

/-- objects replaced by objects with fewer ids -/
theorem shrink_set {b : Bld} {p : Addr} {s s' : SeqObj} (hp : b.heap[p]? = some s) (h : ∀ x, s'.ids.count x ≤ s.ids.count x) :
    Grow b ⟨b.counter, b.heap.set p s', b.root⟩ := by
  have := grow_set (r := b.root) (s' := s') (extra := []) hp (Nat.le_refl _) (fun x => by have := h x; simp; omega)
  simpa using this

theorem removeChild_grow {b b' : Bld} {p : Addr} {i : Nat} (h : b.removeChild p i = .ok b') : Grow b b' := by
  unfold Bld.removeChild at h
  split at h
  · simp at h
  rename_i s hp
  split at h
  · simp only [Res.ok.injEq] at h
    subst h
    refine shrink_set hp fun x => ?_
    simp only [SeqObj.count_ids]
    have h1 := count_erase_le Child.ids x s.children i
    have h2 := count_erase_le (fun t : Tr => [t.id]) x s.trans i
    omega
  · simp at h

theorem removeChildren_grow {b b' : Bld} {p : Addr} (h : b.removeChildren p = .ok b') : Grow b b' := by
  unfold Bld.removeChildren at h
  split at h
  · simp at h
  rename_i s hp
  simp only [Res.ok.injEq] at h
  subst h
  refine shrink_set hp fun x => ?_
  simp only [SeqObj.count_ids]
  simp
  omega

theorem moveChild_grow {b b' : Bld} {s d : Addr} {i j : Nat} (h : b.moveChild s i d j = .ok b') : Grow b b' := by
  unfold Bld.moveChild at h
  split at h
  · simp at h
  rename_i so hp
  split at h
  · rename_i c t hc ht
    simp only at h
    split at h
    · simp at h
    rename_i dobj hd
    split at h
    · simp only [Res.ok.injEq] at h
      subst h
      refine ⟨Nat.le_refl _, fun x => ?_⟩
      have h1 := count_set SeqObj.ids x hp ⟨so.id, so.children.eraseIdx i, so.trans.eraseIdx i⟩
      have h2 := count_set SeqObj.ids x hd ⟨dobj.id, dobj.children.insertIdx j c, dobj.trans.insertIdx j { t with parent := d }⟩
      have h3 := count_erase Child.ids x hc
      have h4 := count_erase (fun t : Tr => [t.id]) x ht
      have h5 := count_insert_le Child.ids x dobj.children j c
      have h6 := count_insert_le (fun t : Tr => [t.id]) x dobj.trans j { t with parent := d }
      simp only [SeqObj.count_ids] at h1 h2
      simp only [Bld.ids] at *
      omega
    · simp at h
  · simp at h

theorem moveChildren_grow {b b' : Bld} {s d : Addr} {j : Nat} (h : b.moveChildren s d j = .ok b') : Grow b b' := by
  unfold Bld.moveChildren at h
  split at h
  · simp at h
  rename_i hsd
  split at h
  · rename_i so dobj hs hd
    split at h
    · simp only [Res.ok.injEq] at h
      subst h
      refine ⟨Nat.le_refl _, fun x => ?_⟩
      generalize hD : (⟨dobj.id, dobj.children.take j ++ so.children ++ dobj.children.drop j,
            (dobj.trans.take j ++ so.trans ++ dobj.trans.drop j).map fun t => { t with parent := d }⟩ : SeqObj) = D
      have hs' : (b.heap.set d D)[s]? = some so := by
        rw [List.getElem?_set_ne (Ne.symm hsd)]; exact hs
      have h1 := count_set SeqObj.ids x hd D
      have hD' : D.ids.count x = (if dobj.id = x then 1 else 0) +
          (((dobj.children.take j).flatMap Child.ids).count x + (so.children.flatMap Child.ids).count x + ((dobj.children.drop j).flatMap Child.ids).count x) +
          (((dobj.trans.take j).flatMap fun t => [t.id]).count x + (so.trans.flatMap fun t => [t.id]).count x +
            ((dobj.trans.drop j).flatMap fun t => [t.id]).count x) := by
        rw [← hD, SeqObj.count_ids]
        simp only [List.flatMap_append, List.count_append, List.map_append, List.flatMap_map]
      have h2 := count_set SeqObj.ids x hs' ⟨so.id, [], []⟩
      have h3 : (dobj.children.flatMap Child.ids).count x = ((dobj.children.take j).flatMap Child.ids).count x + ((dobj.children.drop j).flatMap Child.ids).count x := by
        rw [← List.count_append, ← List.flatMap_append, List.take_append_drop]
      have h4 : (dobj.trans.flatMap fun t => [t.id]).count x = ((dobj.trans.take j).flatMap fun t => [t.id]).count x + ((dobj.trans.drop j).flatMap fun t => [t.id]).count x := by
        rw [← List.count_append, ← List.flatMap_append, List.take_append_drop]
      rw [SeqObj.count_ids] at h1
      rw [SeqObj.count_ids, SeqObj.count_ids] at h2
      simp only [List.flatMap_nil, List.count_nil] at h2
      simp only [Bld.ids] at *
      omega
    · simp at h
  · simp at h

theorem moveChildrenEnd_grow {b b' : Bld} {s d : Addr} (h : b.moveChildrenEnd s d = .ok b') : Grow b b' := by
  unfold Bld.moveChildrenEnd at h
  split at h
  · simp at h
  · exact moveChildren_grow h

theorem convert_grow {b b' : Bld} {p : Addr} {i : Nat} {k : LoopKind} {hd : String} (h : b.convert p i k hd = .ok b') : Grow b b' := by
  unfold Bld.convert at h
  split at h
  · simp at h
  rename_i s hp
  split at h
  · rename_i id kk hh r hi
    refine Grow.trans ?_ (moveChildrenEnd_grow h)
    refine grow_set hp (by simp) fun x => ?_
    simp only [SeqObj.count_ids]
    have h1 := count_set Child.ids x hi (.loop (b.counter + 1) k hd b.heap.length)
    simp only [Child.ids, List.count_singleton, List.flatMap_cons, List.flatMap_nil, SeqObj.ids, List.map_nil, List.append_nil, beq_iff_eq] at h1 ⊢
    have : (if b.counter + 1 = x then 1 else 0) + (if b.counter + 2 = x then 1 else 0) ≤ if b.counter < x ∧ x ≤ b.counter + 2 then 1 else 0 := by
      (repeat' split) <;> omega
    omega
  · simp at h
  · simp at h

theorem step_grow {b b' : Bld} {o : Op} (hs : ∀ n, o = .setCounter n → b.counter ≤ n) (h : b.step o = .ok b') : Grow b b' := by
  cases o with
  | add => exact add_grow h
  | addCase => exact addCase_grow h
  | removeCase => exact removeCase_grow h
  | removeChild => exact removeChild_grow h
  | removeChildren => exact removeChildren_grow h
  | moveChild => exact moveChild_grow h
  | moveChildEnd s i d =>
    simp only [Bld.step, Bld.moveChildEnd] at h
    split at h
    · simp at h
    · exact moveChild_grow h
  | moveChildren => exact moveChildren_grow h
  | moveChildrenEnd => exact moveChildrenEnd_grow h
  | convert => exact convert_grow h
  | addNode => exact addNode_grow h
  | removeNode => exact removeNode_grow h
  | hoistRoot => simp [Bld.step] at h
  | setCounter n =>
    simp only [Bld.step, Res.ok.injEq] at h
    subst h
    refine ⟨hs n rfl, fun x => ?_⟩
    simp only [Bld.ids]
    omega

/-- the call sets the counter to a value below the current one -/
def Op.lowers (b : Bld) : Op → Bool
  | .setCounter n => decide (n < b.counter)
  | _ => false

/-- A history in which `set_element_counter` is never called with a value below the current counter. -/
def Bld.CounterUp (b : Bld) : List Op → Bool
  | [] => true
  | o :: r => !o.lowers b &&
    match b.step o with
    | .ok b' => b'.CounterUp r
    | .exc => b.CounterUp r
    | .ub => true

theorem run_unique {b b' : Bld} (ops : List Op) (hc : b.CounterUp ops = true) (h : b.run ops = .ok b')
    (hi : ∀ x, b.ids.count x ≤ 1 ∧ (b.counter < x → b.ids.count x = 0)) :
    ∀ x, b'.ids.count x ≤ 1 ∧ (b'.counter < x → b'.ids.count x = 0) := by
  induction ops generalizing b with
  | nil => simp only [Bld.run, Res.ok.injEq] at h; subst h; exact hi
  | cons o r ih =>
    simp only [Bld.run, Bld.CounterUp, Bool.and_eq_true] at h hc
    have hl : ∀ n, o = .setCounter n → b.counter ≤ n := by
      rintro n rfl
      simpa [Op.lowers] using hc.1
    cases hs : b.step o with
    | ok b1 =>
      simp only [hs] at h hc
      refine ih hc.2 h fun x => ?_
      obtain ⟨g1, g2⟩ := step_grow hl hs
      have a1 := hi x
      have a2 := g2 x
      split at a2
      · rename_i hx
        have := a1.2 hx.1
        exact ⟨by omega, fun h => by omega⟩
      · rename_i hx
        refine ⟨by omega, fun h => ?_⟩
        have := a1.2 (by omega)
        omega
    | exc => simp only [hs] at h hc; exact ih hc.2 h hi
    | ub => simp [hs] at h

/-- **C36** (partial): after any history of builder calls (additions, insertions, removals, moves, conversions of loops, dataflow
edits; calls that throw included) that does not lower the element counter, no two elements have the same id.
Missing: `set_element_counter` with a smaller value (`element_ids_violated`). -/
theorem element_ids_unique_partial (ops : List Op) (b : Bld) (hc : Bld.init.CounterUp ops = true) (h : Bld.init.run ops = .ok b) :
    b.ids.Nodup := by
  refine List.nodup_iff_count.2 fun x => ?_
  refine (run_unique ops hc h (fun x => ?_) x).1
  simp only [Bld.init, Bld.ids, List.flatMap_cons, List.flatMap_nil, SeqObj.ids, List.append_nil, List.map_nil, List.count_singleton, beq_iff_eq]
  split
  · rename_i hx; exact ⟨Nat.le_refl _, fun h => by omega⟩
  · exact ⟨by omega, fun _ => rfl⟩

/-- a history with a nested loop, a block with three dataflow elements before it, a conversion and a move -/
def exOps : List Op :=
  [.add 0 .last (.loop .while "") "", .add 1 .last .seq "x", .add 1 (.before 0) (.block 3) "y", .add 2 .last .ifElse "", .addCase 2 0 "c",
   .convert 0 0 .for "i", .moveChild 4 0 0 0, .add 0 (.before 9) .seq "", .addNode 0 0]

example : Bld.init.CounterUp exOps = true ∧ ∃ b, Bld.init.run exOps = .ok b ∧ b.ids.length = 16 :=
  ⟨by decide, _, rfl, by decide⟩

/-- **C36 fails** when `set_element_counter` lowers the counter. -/
theorem element_ids_violated : ∃ (ops : List Op) (b : Bld), Bld.init.run ops = .ok b ∧ ¬ b.ids.Nodup :=
  ⟨[.add 0 .last .seq "", .setCounter 0, .add 0 .last .seq ""], _, rfl, by decide⟩

end Docc.Builder
