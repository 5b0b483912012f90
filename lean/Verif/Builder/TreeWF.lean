import Verif.Builder.TreeProps

/-
C37: the two vectors of a sequence stay parallel, ownership stays a forest, and moves lose and duplicate nothing.
-/
namespace Docc.Builder

/-! ### specification -/

/-- both vectors have the same length, every transition points to its sequence, every if-else has as many conditions as cases -/
def SeqObj.Paired (a : Addr) (s : SeqObj) : Prop :=
  s.trans.length = s.children.length ∧ (∀ t ∈ s.trans, t.parent = a) ∧
  ∀ id cs ks, Child.ifElse id cs ks ∈ s.children → cs.length = ks.length

/-- in all sequences -/
def Bld.Paired (b : Bld) : Prop := ∀ (a : Addr) (s : SeqObj), b.heap[a]? = some s → s.Paired a

/-- The entries of a sequence: each child with the id and the assignments of its transition. -/
def SeqObj.entries (s : SeqObj) : List (Child × Nat × String) := List.zip s.children (s.trans.map fun t => (t.id, t.assign))

/-- the entries of the sequence at an address -/
def Bld.entries (b : Bld) (a : Addr) : List (Child × Nat × String) :=
  match b.heap[a]? with
  | some s => s.entries
  | none => []

/-- the sequence at `v` is owned by a child of the sequence at `u` -/
def Bld.Owns (b : Bld) (u v : Addr) : Prop := ∃ s, b.heap[u]? = some s ∧ v ∈ s.owns

/-- `v` is the sequence `u` or inside it -/
inductive Bld.Under (b : Bld) (u : Addr) : Addr → Prop where
  | refl : Bld.Under b u u
  | tail {v w : Addr} : Bld.Under b u v → b.Owns v w → Bld.Under b u w

/-! ### the invariant -/

theorem heap_set_get {h : List SeqObj} {p a : Addr} {s' s : SeqObj} (e : (h.set p s')[a]? = some s) :
    (p = a ∧ s = s') ∨ (p ≠ a ∧ h[a]? = some s) := by
  by_cases hp : p = a
  · subst hp
    rw [List.getElem?_set] at e
    simp only [if_true] at e
    split at e
    · simp at e; exact .inl ⟨rfl, e.symm⟩
    · simp at e
  · rw [List.getElem?_set_ne hp] at e
    exact .inr ⟨hp, e⟩

theorem heap_append_get {h x : List SeqObj} {a : Addr} {s : SeqObj} (e : (h ++ x)[a]? = some s) : h[a]? = some s ∨ s ∈ x := by
  rw [List.getElem?_append] at e
  split at e
  · exact .inl e
  · exact .inr (List.mem_of_getElem? e)

theorem mem_insertIdx' {α : Type} {l : List α} {i : Nat} {a x : α} (h : x ∈ l.insertIdx i a) : x = a ∨ x ∈ l := by
  induction l generalizing i with
  | nil => cases i <;> simp at h; exact .inl h
  | cons y r ih =>
    cases i with
    | zero => simp at h; rcases h with h | h | h <;> simp [h]
    | succ i =>
      simp at h
      rcases h with h | h
      · simp [h]
      · rcases ih h with h | h <;> simp [h]

theorem mem_insertIdx_iff {α : Type} {l : List α} {i : Nat} {a x : α} (hi : i ≤ l.length) : x ∈ l.insertIdx i a ↔ x = a ∨ x ∈ l := by
  induction l generalizing i with
  | nil => simp at hi; subst hi; simp
  | cons y r ih =>
    cases i with
    | zero => simp
    | succ i =>
      simp at hi
      simp [ih hi]
      constructor <;> (intro h; rcases h with h | h | h <;> simp [h])

theorem paired_new (a id : Nat) : SeqObj.Paired a ⟨id, [], []⟩ := ⟨rfl, by simp, by simp⟩

theorem paired_set {b : Bld} {p : Addr} {s' : SeqObj} {c r : Nat} {extra : List SeqObj} (hb : b.Paired) (hs : s'.Paired p)
    (he : ∀ s ∈ extra, s.children = [] ∧ s.trans = []) : Bld.Paired ⟨c, b.heap.set p s' ++ extra, r⟩ := by
  intro a s h
  rcases heap_append_get h with h | h
  · rcases heap_set_get h with ⟨rfl, rfl⟩ | ⟨_, h⟩
    · exact hs
    · exact hb a s h
  · obtain ⟨h1, h2⟩ := he s h
    rcases s with ⟨i, c, t⟩
    simp only at h1 h2
    subst h1 h2
    exact paired_new a i

theorem paired_set' {b : Bld} {p : Addr} {s' : SeqObj} {c r : Nat} (hb : b.Paired) (hs : s'.Paired p) :
    Bld.Paired ⟨c, b.heap.set p s', r⟩ := by
  have := paired_set (c := c) (r := r) (extra := []) hb hs (by simp)
  simpa using this

theorem New.make_extra (n : New) (c m : Nat) : ∀ s ∈ (n.make c m).2.1, s.children = [] ∧ s.trans = [] := by
  cases n <;> simp [New.make]

theorem New.make_ifElse (n : New) (c m : Nat) (fr : List Nat) (id : Nat) (cs : List Addr) (ks : List String)
    (h : (n.make c m).1.fillDataflow fr = .ifElse id cs ks) : cs.length = ks.length := by
  cases n <;> simp [New.make, Child.fillDataflow] at h
  simp [h.2.1, h.2.2]

theorem add_paired {b b' : Bld} {p : Addr} {pos : Pos} {n : New} {a : String} (hb : b.Paired) (h : b.add p pos n a = .ok b') : b'.Paired := by
  unfold Bld.add at h
  split at h
  · simp at h
  rename_i s hp
  split at h
  · simp at h
  rename_i i hi
  simp only [Res.ok.injEq] at h
  subst h
  obtain ⟨w1, w2, w3⟩ := hb p s hp
  have hi := Pos.index_le hi
  refine paired_set hb ⟨?_, ?_, ?_⟩ (New.make_extra _ _ _)
  · simp only [List.length_insertIdx]
    rw [w1]
  · intro t ht
    rcases mem_insertIdx' ht with rfl | ht
    · rfl
    · exact w2 t ht
  · intro id cs ks hc
    rcases mem_insertIdx' hc with hc | hc
    · exact New.make_ifElse _ _ _ _ _ _ _ hc.symm
    · exact w3 _ _ _ hc

theorem set_child_paired {s : SeqObj} {p : Addr} {i : Nat} {c : Child} (h : s.Paired p)
    (hc : ∀ id cs ks, c = .ifElse id cs ks → cs.length = ks.length) : SeqObj.Paired p ⟨s.id, s.children.set i c, s.trans⟩ := by
  obtain ⟨w1, w2, w3⟩ := h
  refine ⟨by simpa using w1, w2, ?_⟩
  intro id cs ks hm
  rcases List.mem_or_eq_of_mem_set hm with hm | hm
  · exact w3 _ _ _ hm
  · exact hc _ _ _ hm.symm

theorem moveChild_paired {b b' : Bld} {s d : Addr} {i j : Nat} (hb : b.Paired) (h : b.moveChild s i d j = .ok b') : b'.Paired := by
  unfold Bld.moveChild at h
  split at h
  · simp at h
  rename_i so hp
  split at h
  · rename_i c t hc ht
    simp only at h
    split at h
    · simp at h
    rename_i dobj hd
    split at h
    · rename_i hj
      simp only [Res.ok.injEq] at h
      subst h
      have h1 : Bld.Paired ⟨b.counter, b.heap.set s ⟨so.id, so.children.eraseIdx i, so.trans.eraseIdx i⟩, b.root⟩ := by
        refine paired_set' hb ?_
        obtain ⟨w1, w2, w3⟩ := hb s so hp
        refine ⟨by simp [List.length_eraseIdx, w1], fun t ht => w2 t (List.mem_of_mem_eraseIdx ht), fun id cs ks hm => w3 _ _ _ (List.mem_of_mem_eraseIdx hm)⟩
      refine paired_set' (b := ⟨b.counter, _, b.root⟩) h1 ?_
      obtain ⟨w1, w2, w3⟩ := h1 d dobj hd
      refine ⟨by simp [List.length_insertIdx, w1], ?_, ?_⟩
      · intro t' ht'
        rcases mem_insertIdx' ht' with rfl | ht'
        · rfl
        · exact w2 t' ht'
      · intro id cs ks hm
        rcases mem_insertIdx' hm with hm | hm
        · exact (hb s so hp).2.2 id cs ks (hm ▸ List.mem_of_getElem? hc)
        · exact w3 _ _ _ hm
    · simp at h
  · simp at h

theorem moveChildren_paired {b b' : Bld} {s d : Addr} {j : Nat} (hb : b.Paired) (h : b.moveChildren s d j = .ok b') : b'.Paired := by
  unfold Bld.moveChildren at h
  split at h
  · simp at h
  split at h
  · rename_i so dobj hs hd
    split at h
    · rename_i hj
      simp only [Res.ok.injEq] at h
      subst h
      obtain ⟨w1, w2, w3⟩ := hb s so hs
      obtain ⟨v1, v2, v3⟩ := hb d dobj hd
      refine paired_set' (b := ⟨b.counter, _, b.root⟩) (paired_set' (c := b.counter) (r := b.root) hb ⟨?_, ?_, ?_⟩) (paired_new _ _)
      · simp [List.length_take, w1, v1]
      · intro t ht
        simp only [List.mem_map] at ht
        obtain ⟨_, _, rfl⟩ := ht
        rfl
      · intro id cs ks hm
        simp only [List.mem_append] at hm
        rcases hm with (hm | hm) | hm
        · exact v3 _ _ _ (List.mem_of_mem_take hm)
        · exact w3 _ _ _ hm
        · exact v3 _ _ _ (List.mem_of_mem_drop hm)
    · simp at h
  · simp at h

theorem moveChildrenEnd_paired {b b' : Bld} {s d : Addr} (hb : b.Paired) (h : b.moveChildrenEnd s d = .ok b') : b'.Paired := by
  unfold Bld.moveChildrenEnd at h
  split at h
  · simp at h
  · exact moveChildren_paired hb h

theorem step_paired {b b' : Bld} {o : Op} (hb : b.Paired) (h : b.step o = .ok b') : b'.Paired := by
  cases o with
  | add => exact add_paired hb h
  | addCase p i c =>
    simp only [Bld.step, Bld.addCase] at h
    split at h
    · simp at h
    rename_i s hp
    split at h
    · rename_i id cs ks hi
      simp only [Res.ok.injEq] at h
      subst h
      refine paired_set hb (set_child_paired (hb _ _ hp) ?_) (by simp)
      rintro _ _ _ ⟨⟩
      simp [(hb _ _ hp).2.2 id cs ks (List.mem_of_getElem? hi)]
    · simp at h
  | removeCase p i k =>
    simp only [Bld.step, Bld.removeCase] at h
    split at h
    · simp at h
    rename_i s hp
    split at h
    · rename_i id cs ks hi
      split at h
      · simp only [Res.ok.injEq] at h
        subst h
        refine paired_set' hb (set_child_paired (hb _ _ hp) ?_)
        rintro _ _ _ ⟨⟩
        simp [List.length_eraseIdx, (hb _ _ hp).2.2 id cs ks (List.mem_of_getElem? hi)]
      · simp at h
    · simp at h
  | removeChild p i =>
    simp only [Bld.step, Bld.removeChild] at h
    split at h
    · simp at h
    rename_i s hp
    split at h
    · simp only [Res.ok.injEq] at h
      subst h
      obtain ⟨w1, w2, w3⟩ := hb _ _ hp
      exact paired_set' hb ⟨by simp [List.length_eraseIdx, w1], fun t ht => w2 t (List.mem_of_mem_eraseIdx ht),
        fun id cs ks hm => w3 _ _ _ (List.mem_of_mem_eraseIdx hm)⟩
    · simp at h
  | removeChildren p =>
    simp only [Bld.step, Bld.removeChildren] at h
    split at h
    · simp at h
    simp only [Res.ok.injEq] at h
    subst h
    exact paired_set' hb (paired_new _ _)
  | moveChild => exact moveChild_paired hb h
  | moveChildEnd s i d =>
    simp only [Bld.step, Bld.moveChildEnd] at h
    split at h
    · simp at h
    · exact moveChild_paired hb h
  | moveChildren => exact moveChildren_paired hb h
  | moveChildrenEnd => exact moveChildrenEnd_paired hb h
  | convert p i k hd =>
    simp only [Bld.step, Bld.convert] at h
    split at h
    · simp at h
    rename_i s hp
    split at h
    · rename_i id kk hh r hi
      refine moveChildrenEnd_paired ?_ h
      exact paired_set hb (set_child_paired (hb _ _ hp) (by simp)) (by simp)
    · simp at h
    · simp at h
  | addNode p i =>
    simp only [Bld.step, Bld.addNode] at h
    split at h
    · simp at h
    rename_i s hp
    split at h
    · simp only [Res.ok.injEq] at h
      subst h
      exact paired_set' hb (set_child_paired (hb _ _ hp) (by simp))
    · simp at h
  | removeNode p i k =>
    simp only [Bld.step, Bld.removeNode] at h
    split at h
    · simp at h
    rename_i s hp
    split at h
    · split at h
      · simp only [Res.ok.injEq] at h
        subst h
        exact paired_set' hb (set_child_paired (hb _ _ hp) (by simp))
      · simp at h
    · simp at h
  | hoistRoot => simp [Bld.step] at h
  | setCounter n =>
    simp only [Bld.step, Res.ok.injEq] at h
    subst h
    exact hb

theorem run_paired {b b' : Bld} (ops : List Op) (hb : b.Paired) (h : b.run ops = .ok b') : b'.Paired := by
  induction ops generalizing b with
  | nil => simp only [Bld.run, Res.ok.injEq] at h; subst h; exact hb
  | cons o r ih =>
    simp only [Bld.run] at h
    cases hs : b.step o with
    | ok b1 => simp only [hs] at h; exact ih (step_paired hb hs) h
    | exc => simp only [hs] at h; exact ih hb h
    | ub => simp [hs] at h

theorem init_paired : Bld.init.Paired := by
  intro a s h
  simp only [Bld.init] at h
  cases a with
  | zero => simp at h; subst h; exact paired_new _ _
  | succ a => simp at h

/-- **C37**: after every history of builder calls each sequence has exactly one transition per child, each transition's parent is
the sequence that holds it, and each if-else has one condition per case. -/
theorem children_transitions_paired (ops : List Op) (b : Bld) (h : Bld.init.run ops = .ok b) : b.Paired :=
  run_paired ops init_paired h

/-! ### what the calls do to the entries -/

theorem entries_set (b : Bld) (c r : Nat) (p : Addr) (s' : SeqObj) (a : Addr) (hp : p < b.heap.length) :
    Bld.entries ⟨c, b.heap.set p s', r⟩ a = if p = a then s'.entries else b.entries a := by
  unfold Bld.entries
  by_cases h : p = a
  · subst h; simp [hp]
  · simp [List.getElem?_set_ne h, h]

theorem zip_insertIdx {α β : Type} {l : List α} {m : List β} (h : l.length = m.length) (i : Nat) (a : α) (c : β) :
    List.zip (l.insertIdx i a) (m.insertIdx i c) = (List.zip l m).insertIdx i (a, c) := by
  induction l generalizing m i with
  | nil => cases m with
    | nil => cases i <;> simp
    | cons _ _ => simp at h
  | cons x r ih =>
    cases m with
    | nil => simp at h
    | cons y s => cases i with
      | zero => simp
      | succ i => simp at h; simp [ih h]

theorem zip_eraseIdx {α β : Type} (l : List α) (m : List β) (i : Nat) :
    List.zip (l.eraseIdx i) (m.eraseIdx i) = (List.zip l m).eraseIdx i := by
  induction l generalizing m i with
  | nil => simp
  | cons x r ih =>
    cases m with
    | nil => simp
    | cons y s => cases i with
      | zero => simp
      | succ i => simp [ih]

theorem map_insertIdx' {α β : Type} (f : α → β) (l : List α) (i : Nat) (a : α) : (l.insertIdx i a).map f = (l.map f).insertIdx i (f a) := by
  induction l generalizing i with
  | nil => cases i <;> simp
  | cons x r ih => cases i <;> simp [ih]

theorem map_eraseIdx' {α β : Type} (f : α → β) (l : List α) (i : Nat) : (l.eraseIdx i).map f = (l.map f).eraseIdx i := by
  induction l generalizing i with
  | nil => simp
  | cons x r ih => cases i <;> simp [ih]

theorem entries_erase (s : SeqObj) (i : Nat) : SeqObj.entries ⟨s.id, s.children.eraseIdx i, s.trans.eraseIdx i⟩ = s.entries.eraseIdx i := by
  simp only [SeqObj.entries, map_eraseIdx', zip_eraseIdx]

theorem entries_insert {s : SeqObj} (h : s.trans.length = s.children.length) (i : Nat) (c : Child) (t : Tr) :
    SeqObj.entries ⟨s.id, s.children.insertIdx i c, s.trans.insertIdx i t⟩ = s.entries.insertIdx i (c, t.id, t.assign) := by
  simp only [SeqObj.entries, map_insertIdx']
  exact zip_insertIdx (by simp [h]) _ _ _

theorem lt_of_get {h : List SeqObj} {p : Addr} {s : SeqObj} (e : h[p]? = some s) : p < h.length := by
  rcases Nat.lt_or_ge p h.length with h' | h'
  · exact h'
  · rw [List.getElem?_eq_none h'] at e; simp at e

theorem entries_of {b : Bld} {p : Addr} {s : SeqObj} (e : b.heap[p]? = some s) : b.entries p = s.entries := by
  simp [Bld.entries, e]

/-- **C37**: `remove_child` removes exactly that child with its transition, in that sequence. -/
theorem remove_child_entries {b b' : Bld} {p : Addr} {i : Nat} (h : b.step (.removeChild p i) = .ok b') (a : Addr) :
    b'.entries a = if p = a then (b.entries a).eraseIdx i else b.entries a := by
  simp only [Bld.step, Bld.removeChild] at h
  split at h
  · simp at h
  rename_i s hp
  split at h
  · simp only [Res.ok.injEq] at h
    subst h
    rw [entries_set _ _ _ _ _ _ (lt_of_get hp), entries_erase]
    split
    · rename_i e; subst e; rw [entries_of hp]
    · rfl
  · simp at h

/-- **C37**: `move_child(source, i, target, j)` takes the child with its transition out of the source and puts it, with the same
transition, at index `j` of what is then the target; no other sequence changes. -/
theorem move_child_entries {b b' : Bld} {src dst : Addr} {i j : Nat} (hb : b.Paired) (h : b.step (.moveChild src i dst j) = .ok b') :
    let out := fun a => if src = a then (b.entries a).eraseIdx i else b.entries a
    ∃ e, (b.entries src)[i]? = some e ∧ j ≤ (out dst).length ∧
      ∀ a, b'.entries a = if dst = a then (out a).insertIdx j e else out a := by
  intro out
  simp only [Bld.step, Bld.moveChild] at h
  split at h
  · simp at h
  rename_i so hp
  split at h
  · rename_i c t hc ht
    split at h
    · simp at h
    rename_i dobj hd
    split at h
    · rename_i hj
      simp only [Res.ok.injEq] at h
      subst h
      have hd' : Bld.entries ⟨b.counter, b.heap.set src ⟨so.id, so.children.eraseIdx i, so.trans.eraseIdx i⟩, b.root⟩ dst = dobj.entries :=
        entries_of hd
      have hlen : dobj.trans.length = dobj.children.length := by
        rcases heap_set_get hd with ⟨_, rfl⟩ | ⟨_, hd⟩
        · simp [List.length_eraseIdx, (hb _ _ hp).1]
        · exact (hb _ _ hd).1
      refine ⟨(c, t.id, t.assign), ?_, ?_, fun a => ?_⟩
      · rw [entries_of hp]
        simp [SeqObj.entries, List.zip, List.getElem?_zipWith, hc, ht]
      · have : out dst = dobj.entries := by
          rw [← hd', entries_set _ _ _ _ _ _ (lt_of_get hp), entries_erase]
          show (if src = dst then (b.entries dst).eraseIdx i else b.entries dst) = _
          by_cases h2 : src = dst
          · subst h2; rw [if_pos rfl, if_pos rfl, entries_of hp]
          · rw [if_neg h2, if_neg h2]
        rw [this]
        simp [SeqObj.entries, hlen, hj]
      · have hs := entries_set b b.counter b.root src ⟨so.id, so.children.eraseIdx i, so.trans.eraseIdx i⟩ a (lt_of_get hp)
        have hset := entries_set ⟨b.counter, b.heap.set src ⟨so.id, so.children.eraseIdx i, so.trans.eraseIdx i⟩, b.root⟩ b.counter b.root dst
          ⟨dobj.id, dobj.children.insertIdx j c, dobj.trans.insertIdx j { t with parent := dst }⟩ a (lt_of_get hd)
        simp only at hset ⊢
        rw [show out a = if src = a then (b.entries a).eraseIdx i else b.entries a from rfl, hset, entries_insert hlen, hs, entries_erase]
        by_cases h1 : dst = a
        · subst h1
          rw [if_pos rfl, if_pos rfl, ← hd', entries_set _ _ _ _ _ _ (lt_of_get hp), entries_erase]
          by_cases h2 : src = dst
          · subst h2; rw [if_pos rfl, if_pos rfl, entries_of hp]
          · rw [if_neg h2, if_neg h2]
        · rw [if_neg h1, if_neg h1]
          by_cases h2 : src = a
          · subst h2; rw [if_pos rfl, if_pos rfl, entries_of hp]
          · rw [if_neg h2, if_neg h2]
    · simp at h
  · simp at h

/-- **C37**: `move_children(source, target, j)` puts all children of the source, in order and with their transitions, at index `j`
of the target and leaves the source empty; no other sequence changes. -/
theorem move_children_entries {b b' : Bld} {src dst : Addr} {j : Nat} (hb : b.Paired) (h : b.step (.moveChildren src dst j) = .ok b') (a : Addr) :
    b'.entries a = if src = a then [] else
      if dst = a then (b.entries dst).take j ++ b.entries src ++ (b.entries dst).drop j else b.entries a := by
  simp only [Bld.step, Bld.moveChildren] at h
  split at h
  · simp at h
  rename_i hsd
  split at h
  · rename_i so dobj hs hd
    split at h
    · rename_i hj
      simp only [Res.ok.injEq] at h
      subst h
      have h2 := entries_set ⟨b.counter, b.heap.set dst ⟨dobj.id, dobj.children.take j ++ so.children ++ dobj.children.drop j,
            (dobj.trans.take j ++ so.trans ++ dobj.trans.drop j).map fun t => { t with parent := dst }⟩, b.root⟩ b.counter b.root src ⟨so.id, [], []⟩ a
            (by simpa using lt_of_get hs)
      simp only at h2 ⊢
      rw [h2, entries_set _ _ _ _ _ _ (lt_of_get hd)]
      by_cases e1 : src = a
      · rw [if_pos e1, if_pos e1]; rfl
      · rw [if_neg e1, if_neg e1]
        by_cases e2 : dst = a
        · rw [if_pos e2, if_pos e2, entries_of hd, entries_of hs]
          have l1 := (hb _ _ hs).1
          have l2 := (hb _ _ hd).1
          simp only [SeqObj.entries, List.map_append, List.map_map]
          have hf : ((fun t : Tr => (t.id, t.assign)) ∘ fun t : Tr => { t with parent := dst }) = fun t : Tr => (t.id, t.assign) := rfl
          rw [hf, List.zip_append (by simp [l1, l2]), List.zip_append (by simp [l2])]
          simp only [List.zip, List.take_zipWith, List.drop_zipWith, List.map_take, List.map_drop]
        · rw [if_neg e2, if_neg e2]
    · simp at h
  · simp at h

theorem entries_length {s : SeqObj} (h : s.trans.length = s.children.length) : s.entries.length = s.children.length := by
  simp [SeqObj.entries, h]

theorem entries_append (b : Bld) (c r : Nat) (extra : List SeqObj) (h : List SeqObj) (a : Addr) (ha : a < h.length) :
    Bld.entries ⟨c, h ++ extra, r⟩ a = Bld.entries ⟨c, h, r⟩ a := by
  simp [Bld.entries, List.getElem?_append, ha]

/-- the child is what was asked for -/
def New.Asked : New → Child → Prop
  | .seq, .seq _ => True
  | .block k, .block _ d => d.length = k
  | .ifElse, .ifElse _ cs ks => cs = [] ∧ ks = []
  | .loop k h, .loop _ k' h' _ => k' = k ∧ h' = h
  | .leaf w, .leaf _ w' => w' = w
  | _, _ => False

/-- **C37**: an `add_*` call (at the end, before or after a child) inserts one new child, with its own transition carrying the given
assignments, at the requested position; the entries of all existing sequences are otherwise unchanged. -/
theorem add_entries {b b' : Bld} {p : Addr} {pos : Pos} {n : New} {asg : String} (hb : b.Paired) (h : b.step (.add p pos n asg) = .ok b') :
    ∃ i c t, (match pos with
        | .last => i = (b.entries p).length
        | .before k => i = k ∧ k < (b.entries p).length
        | .after k => i = k + 1 ∧ k < (b.entries p).length) ∧ n.Asked c ∧ b.counter < t ∧
      ∀ a < b.heap.length, b'.entries a = if p = a then (b.entries a).insertIdx i (c, t, asg) else b.entries a := by
  simp only [Bld.step, Bld.add] at h
  split at h
  · simp at h
  rename_i s hp
  split at h
  · simp at h
  rename_i i hi
  simp only [Res.ok.injEq] at h
  subst h
  have hl := (hb _ _ hp).1
  refine ⟨i, (n.make b.counter b.heap.length).1.fillDataflow (freshIds (b.counter + (n.make b.counter b.heap.length).2.2 + 1) n.flow),
    b.counter + (n.make b.counter b.heap.length).2.2 + 1, ?_, ?_, by omega, fun a ha => ?_⟩
  rotate_left
  · cases n <;> simp [New.make, Child.fillDataflow, New.Asked, New.flow, freshIds]
  · rw [entries_append b _ _ _ _ _ (by simpa using ha), entries_set _ _ _ _ _ _ (lt_of_get hp), entries_insert hl]
    by_cases e : p = a
    · subst e; rw [if_pos rfl, if_pos rfl, entries_of hp]
    · rw [if_neg e, if_neg e]
  · rw [entries_of hp, entries_length hl]
    cases pos <;> simp only [Pos.index] at hi ⊢
    · simpa using hi.symm
    · split at hi <;> simp_all
    · split at hi <;> simp_all

/-! ### ownership -/

/-- Between two states at most the new objects get an owner, one each. -/
def OGrow (b b' : Bld) : Prop :=
  b'.root = b.root ∧ b.heap.length ≤ b'.heap.length ∧
  ∀ x : Nat, b'.owns.count x ≤ b.owns.count x + (if b.heap.length ≤ x ∧ x < b'.heap.length then 1 else 0)

theorem OGrow.trans {a b c : Bld} (h1 : OGrow a b) (h2 : OGrow b c) : OGrow a c := by
  refine ⟨h2.1.trans h1.1, Nat.le_trans h1.2.1 h2.2.1, fun x => ?_⟩
  have a1 := h1.2.2 x
  have a2 := h2.2.2 x
  have := h1.2.1
  have := h2.2.1
  split at a1 <;> split at a2 <;> split <;> omega

theorem ogrow_set {b : Bld} {p : Addr} {s s' : SeqObj} {c : Nat} {extra : List SeqObj} (hp : b.heap[p]? = some s)
    (h : ∀ x : Nat, s'.owns.count x + (extra.flatMap SeqObj.owns).count x ≤
      s.owns.count x + (if b.heap.length ≤ x ∧ x < b.heap.length + extra.length then 1 else 0)) :
    OGrow b ⟨c, b.heap.set p s' ++ extra, b.root⟩ := by
  refine ⟨rfl, by simp, fun x => ?_⟩
  have h1 := count_set SeqObj.owns x hp s'
  have h2 := h x
  simp only [Bld.owns, List.flatMap_append, List.count_append, List.length_append, List.length_set]
  omega

theorem ogrow_shrink {b : Bld} {p : Addr} {s s' : SeqObj} {c : Nat} (hp : b.heap[p]? = some s)
    (h : ∀ x : Nat, s'.owns.count x ≤ s.owns.count x) : OGrow b ⟨c, b.heap.set p s', b.root⟩ := by
  have := ogrow_set (c := c) (s' := s') (extra := []) hp (fun x => by have := h x; simp; omega)
  simpa using this

theorem ogrow_child {b : Bld} {p : Addr} {i : Nat} {s : SeqObj} {c c' : Child} {n : Nat} (hp : b.heap[p]? = some s) (hi : s.children[i]? = some c)
    (hc : ∀ x : Nat, c'.owns.count x ≤ c.owns.count x) : OGrow b ⟨n, b.heap.set p ⟨s.id, s.children.set i c', s.trans⟩, b.root⟩ := by
  refine ogrow_shrink hp fun x => ?_
  have h1 := count_set Child.owns x hi c'
  have h2 := hc x
  simp only [SeqObj.owns]
  omega

theorem moveChild_ogrow {b b' : Bld} {s d : Addr} {i j : Nat} (h : b.moveChild s i d j = .ok b') : OGrow b b' := by
  unfold Bld.moveChild at h
  split at h
  · simp at h
  rename_i so hp
  split at h
  · rename_i c t hc ht
    simp only at h
    split at h
    · simp at h
    rename_i dobj hd
    split at h
    · simp only [Res.ok.injEq] at h
      subst h
      refine ⟨rfl, by simp, fun x => ?_⟩
      have h1 := count_set SeqObj.owns x hp ⟨so.id, so.children.eraseIdx i, so.trans.eraseIdx i⟩
      have h2 := count_set SeqObj.owns x hd ⟨dobj.id, dobj.children.insertIdx j c, dobj.trans.insertIdx j { t with parent := d }⟩
      have h3 := count_erase Child.owns x hc
      have h5 := count_insert_le Child.owns x dobj.children j c
      simp only [SeqObj.owns] at h1 h2
      simp only [Bld.owns]
      omega
    · simp at h
  · simp at h

theorem moveChildren_ogrow {b b' : Bld} {s d : Addr} {j : Nat} (h : b.moveChildren s d j = .ok b') : OGrow b b' := by
  unfold Bld.moveChildren at h
  split at h
  · simp at h
  rename_i hsd
  split at h
  · rename_i so dobj hs hd
    split at h
    · simp only [Res.ok.injEq] at h
      subst h
      refine ⟨rfl, by simp, fun x => ?_⟩
      generalize hD : (⟨dobj.id, dobj.children.take j ++ so.children ++ dobj.children.drop j,
            (dobj.trans.take j ++ so.trans ++ dobj.trans.drop j).map fun t => { t with parent := d }⟩ : SeqObj) = D
      have hs' : (b.heap.set d D)[s]? = some so := by
        rw [List.getElem?_set_ne (Ne.symm hsd)]; exact hs
      have h1 := count_set SeqObj.owns x hd D
      have hD' : D.owns.count x = dobj.owns.count x + so.owns.count x := by
        have : dobj.owns.count x = ((dobj.children.take j).flatMap Child.owns).count x + ((dobj.children.drop j).flatMap Child.owns).count x := by
          rw [← List.count_append, ← List.flatMap_append, List.take_append_drop]; rfl
        rw [this, ← hD]
        simp only [SeqObj.owns, List.flatMap_append, List.count_append]
        omega
      have h2 := count_set SeqObj.owns x hs' ⟨so.id, [], []⟩
      have h3 : SeqObj.owns ⟨so.id, [], []⟩ = [] := rfl
      rw [h3, List.count_nil] at h2
      simp only [Bld.owns]
      omega
    · simp at h
  · simp at h

theorem moveChildrenEnd_ogrow {b b' : Bld} {s d : Addr} (h : b.moveChildrenEnd s d = .ok b') : OGrow b b' := by
  unfold Bld.moveChildrenEnd at h
  split at h
  · simp at h
  · exact moveChildren_ogrow h

theorem New.make_owns (n : New) (c m : Nat) (fr : List Nat) (x : Nat) :
    ((n.make c m).1.fillDataflow fr).owns.count x + ((n.make c m).2.1.flatMap SeqObj.owns).count x ≤
      if m ≤ x ∧ x < m + (n.make c m).2.1.length then 1 else 0 := by
  cases n <;> simp only [New.make, Child.fillDataflow, Child.owns, List.flatMap_cons, List.flatMap_nil, SeqObj.owns, List.append_nil,
    List.count_nil, List.length_cons, List.length_nil, List.count_cons, beq_iff_eq]
  all_goals grind

theorem step_ogrow {b b' : Bld} {o : Op} (h : b.step o = .ok b') : OGrow b b' := by
  cases o with
  | add p pos n a =>
    simp only [Bld.step, Bld.add] at h
    split at h
    · simp at h
    rename_i s hp
    split at h
    · simp at h
    rename_i i hi
    simp only [Res.ok.injEq] at h
    subst h
    refine ogrow_set hp fun x => ?_
    have h1 := count_insert_le Child.owns x s.children i
      ((n.make b.counter b.heap.length).1.fillDataflow (freshIds (b.counter + (n.make b.counter b.heap.length).2.2 + 1) n.flow))
    have h2 := New.make_owns n b.counter b.heap.length (freshIds (b.counter + (n.make b.counter b.heap.length).2.2 + 1) n.flow) x
    simp only [SeqObj.owns] at *
    omega
  | addCase p i c =>
    simp only [Bld.step, Bld.addCase] at h
    split at h
    · simp at h
    rename_i s hp
    split at h
    · rename_i id cs ks hi
      simp only [Res.ok.injEq] at h
      subst h
      refine ogrow_set hp fun x => ?_
      have h1 := count_set Child.owns x hi (.ifElse id (cs ++ [b.heap.length]) (ks ++ [c]))
      simp only [Child.owns, List.count_append, List.count_singleton, beq_iff_eq] at h1
      have h2 : (if b.heap.length = x then 1 else 0) ≤ if b.heap.length ≤ x ∧ x < b.heap.length + 1 then 1 else 0 := by
        (repeat' split) <;> omega
      simp only [SeqObj.owns, List.flatMap_cons, List.flatMap_nil, List.append_nil, List.count_nil, List.length_cons, List.length_nil, Nat.zero_add]
      omega
    · simp at h
  | removeCase p i k =>
    simp only [Bld.step, Bld.removeCase] at h
    split at h
    · simp at h
    rename_i s hp
    split at h
    · rename_i id cs ks hi
      split at h
      · simp only [Res.ok.injEq] at h
        subst h
        exact ogrow_child hp hi fun x => (List.eraseIdx_sublist cs k).count_le x
      · simp at h
    · simp at h
  | removeChild p i =>
    simp only [Bld.step, Bld.removeChild] at h
    split at h
    · simp at h
    rename_i s hp
    split at h
    · simp only [Res.ok.injEq] at h
      subst h
      exact ogrow_shrink hp fun x => count_erase_le Child.owns x s.children i
    · simp at h
  | removeChildren p =>
    simp only [Bld.step, Bld.removeChildren] at h
    split at h
    · simp at h
    rename_i s hp
    simp only [Res.ok.injEq] at h
    subst h
    exact ogrow_shrink hp fun x => by simp [SeqObj.owns]
  | moveChild => exact moveChild_ogrow h
  | moveChildEnd s i d =>
    simp only [Bld.step, Bld.moveChildEnd] at h
    split at h
    · simp at h
    · exact moveChild_ogrow h
  | moveChildren => exact moveChildren_ogrow h
  | moveChildrenEnd => exact moveChildrenEnd_ogrow h
  | convert p i k hd =>
    simp only [Bld.step, Bld.convert] at h
    split at h
    · simp at h
    rename_i s hp
    split at h
    · rename_i id kk hh r hi
      refine OGrow.trans ?_ (moveChildrenEnd_ogrow h)
      refine ogrow_set hp fun x => ?_
      have h1 := count_set Child.owns x hi (.loop (b.counter + 1) k hd b.heap.length)
      simp only [Child.owns, List.count_singleton, beq_iff_eq] at h1
      have h2 : (if b.heap.length = x then 1 else 0) ≤ if b.heap.length ≤ x ∧ x < b.heap.length + 1 then 1 else 0 := by
        (repeat' split) <;> omega
      simp only [SeqObj.owns, List.flatMap_cons, List.flatMap_nil, List.append_nil, List.count_nil, List.length_cons, List.length_nil, Nat.zero_add]
      omega
    · simp at h
    · simp at h
  | addNode p i =>
    simp only [Bld.step, Bld.addNode] at h
    split at h
    · simp at h
    rename_i s hp
    split at h
    · rename_i hi
      simp only [Res.ok.injEq] at h
      subst h
      exact ogrow_child hp hi fun x => by simp [Child.owns]
    · simp at h
  | removeNode p i k =>
    simp only [Bld.step, Bld.removeNode] at h
    split at h
    · simp at h
    rename_i s hp
    split at h
    · rename_i hi
      split at h
      · simp only [Res.ok.injEq] at h
        subst h
        exact ogrow_child hp hi fun x => by simp [Child.owns]
      · simp at h
    · simp at h
  | hoistRoot => simp [Bld.step] at h
  | setCounter n =>
    simp only [Bld.step, Res.ok.injEq] at h
    subst h
    exact ⟨rfl, Nat.le_refl _, fun x => by simp only [Bld.owns]; omega⟩

theorem run_owned {b b' : Bld} (ops : List Op) (h : b.run ops = .ok b') (hr : b.root < b.heap.length)
    (hi : ∀ x : Nat, b.owns.count x ≤ 1 ∧ (b.heap.length ≤ x ∨ x = b.root → b.owns.count x = 0)) :
    b'.root = b.root ∧ b.heap.length ≤ b'.heap.length ∧
    ∀ x : Nat, b'.owns.count x ≤ 1 ∧ (b'.heap.length ≤ x ∨ x = b'.root → b'.owns.count x = 0) := by
  induction ops generalizing b with
  | nil => simp only [Bld.run, Res.ok.injEq] at h; subst h; exact ⟨rfl, Nat.le_refl _, hi⟩
  | cons o r ih =>
    simp only [Bld.run] at h
    cases hs : b.step o with
    | ok b1 =>
      simp only [hs] at h
      obtain ⟨g0, g1, g2⟩ := step_ogrow hs
      have := ih h (by rw [g0]; omega) fun x => by
        have a1 := hi x
        have a2 := g2 x
        rw [g0]
        split at a2
        · rename_i hx
          have := a1.2 (.inl hx.1)
          exact ⟨by omega, fun h => by omega⟩
        · rename_i hx
          refine ⟨by omega, fun h => ?_⟩
          have := a1.2 (by omega)
          omega
      exact ⟨this.1.trans g0, Nat.le_trans g1 this.2.1, this.2.2⟩
    | exc => simp only [hs] at h; exact ih h hr hi
    | ub => simp [hs] at h

/-- **C37**: after every history of builder calls no sequence has two owners, the root sequence has none, and every owned sequence
exists: nothing is duplicated. -/
theorem single_owner (ops : List Op) (b : Bld) (h : Bld.init.run ops = .ok b) :
    b.owns.Nodup ∧ b.root ∉ b.owns ∧ ∀ a ∈ b.owns, a < b.heap.length := by
  obtain ⟨_, _, hx⟩ := run_owned ops h (by decide) (fun x => by
    have : Bld.init.owns = [] := rfl
    rw [this]; simp)
  refine ⟨List.nodup_iff_count.2 fun x => (hx x).1, ?_, ?_⟩
  · exact fun hm => List.count_eq_zero.1 ((hx _).2 (.inr rfl)) hm
  · intro a ha
    rcases Nat.lt_or_ge a b.heap.length with h | h
    · exact h
    · exact absurd ha (List.count_eq_zero.1 ((hx a).2 (.inl h)))

/-! ### reachability -/

theorem mem_entries_owns {s : SeqObj} (h : s.trans.length = s.children.length) {v : Addr} :
    v ∈ s.owns ↔ ∃ e ∈ s.entries, v ∈ e.1.owns := by
  have : s.children = s.entries.map Prod.fst := by
    rw [SeqObj.entries, List.map_fst_zip (by simp [h])]
  rw [SeqObj.owns, this]
  simp

theorem owns_entries {b : Bld} (hb : b.Paired) {u v : Addr} : b.Owns u v ↔ ∃ e ∈ b.entries u, v ∈ e.1.owns := by
  unfold Bld.Owns Bld.entries
  cases h : b.heap[u]? with
  | none => simp
  | some s => simp [mem_entries_owns (hb u s h).1]

theorem Bld.Under.trans {b : Bld} {u v w : Addr} (h1 : b.Under u v) (h2 : b.Under v w) : b.Under u w := by
  induction h2 with
  | refl => exact h1
  | tail _ e ih => exact ih.tail e

theorem Bld.Under.head {b : Bld} {u v w : Addr} (h1 : b.Owns u v) (h2 : b.Under v w) : b.Under u w :=
  Bld.Under.trans (.tail .refl h1) h2

/-- Redirecting some edges (those in `M`) from `src` to `dst`, where `dst` is not below any of them, keeps what is reachable. -/
theorem under_redirect {b b' : Bld} {src dst r : Addr} {M : Addr → Prop}
    (hkeep : ∀ u v, b.Owns u v → b'.Owns u v ∨ (u = src ∧ M v))
    (hmove : ∀ v, M v → b'.Owns dst v)
    (hback : ∀ u v, b'.Owns u v → b.Owns u v ∨ (u = dst ∧ M v ∧ b.Owns src v))
    (hnot : ∀ v, M v → ¬ b.Under v dst)
    (hsrc : b.Under r src) (hdst : b.Under r dst) (x : Addr) : b'.Under r x ↔ b.Under r x := by
  have hd : ∀ {u}, b.Under r u → b.Under u dst → b'.Under r u := by
    intro u hu
    induction hu with
    | refl => exact fun _ => .refl
    | tail p e ih =>
      intro h
      rcases hkeep _ _ e with e' | ⟨rfl, hm⟩
      · exact (ih (.head e h)).tail e'
      · exact absurd h (hnot _ hm)
  have hdst' := hd hdst .refl
  constructor
  · intro h
    induction h with
    | refl => exact .refl
    | tail p e ih =>
      rcases hback _ _ e with e' | ⟨rfl, _, e'⟩
      · exact ih.tail e'
      · exact hsrc.tail e'
  · intro h
    induction h with
    | refl => exact .refl
    | tail p e ih =>
      rcases hkeep _ _ e with e' | ⟨rfl, hm⟩
      · exact ih.tail e'
      · exact hdst'.tail (hmove _ hm)

/-- **C37** (partial): moving a child between two sequences of the program loses nothing and adds nothing: exactly the same
sequences are in the program afterwards.  Missing: a target inside the moved child (`move_child_violated`). -/
theorem move_child_reach_partial {b b' : Bld} {src dst : Addr} {i j : Nat} (hb : b.Paired) (h : b.step (.moveChild src i dst j) = .ok b')
    (hsrc : b.Under b.root src) (hdst : b.Under b.root dst)
    (hnot : ∀ e, (b.entries src)[i]? = some e → ∀ v ∈ e.1.owns, ¬ b.Under v dst) (x : Addr) :
    b'.Under b.root x ↔ b.Under b.root x := by
  have hb' := step_paired hb h
  obtain ⟨e, he, hj, hent⟩ := move_child_entries hb h
  have hmem : ∀ {l : List (Child × Nat × String)} {y}, l[i]? = some e → (y ∈ l ↔ y ∈ l.eraseIdx i ∨ y = e) := by
    intro l y hl
    obtain ⟨pre, post, rfl, rfl⟩ := split_get hl
    simp only [List.eraseIdx_append_of_length_le, Nat.le_refl, Nat.sub_self, List.eraseIdx_cons_zero, List.mem_append, List.mem_cons]
    grind
  refine under_redirect (src := src) (dst := dst) (M := fun v => v ∈ e.1.owns) ?_ ?_ ?_ (fun v hv => hnot e he v hv) hsrc hdst x
  · intro u v huv
    obtain ⟨y, hy, hv⟩ := (owns_entries hb).1 huv
    by_cases hye : u = src ∧ y = e
    · exact .inr ⟨hye.1, hye.2 ▸ hv⟩
    · refine .inl ((owns_entries hb').2 ⟨y, ?_, hv⟩)
      have : y ∈ if src = u then (b.entries u).eraseIdx i else b.entries u := by
        split
        · rename_i hu
          subst hu
          exact ((hmem he).1 hy).resolve_right fun h => hye ⟨rfl, h⟩
        · exact hy
      rw [hent u]
      split
      · rename_i hd
        subst hd
        exact (mem_insertIdx_iff hj).2 (.inr this)
      · exact this
  · intro v hv
    refine (owns_entries hb').2 ⟨e, ?_, hv⟩
    rw [hent dst, if_pos rfl]
    exact (mem_insertIdx_iff hj).2 (.inl rfl)
  · intro u v huv
    obtain ⟨y, hy, hv⟩ := (owns_entries hb').1 huv
    rw [hent u] at hy
    have hout : y ∈ (if src = u then (b.entries u).eraseIdx i else b.entries u) → b.Owns u v := by
      intro hy
      refine (owns_entries hb).2 ⟨y, ?_, hv⟩
      split at hy
      · exact List.mem_of_mem_eraseIdx hy
      · exact hy
    split at hy
    · rename_i hd
      subst hd
      rcases (mem_insertIdx_iff hj).1 hy with rfl | hy
      · exact .inr ⟨rfl, hv, (owns_entries hb).2 ⟨y, List.mem_of_getElem? he, hv⟩⟩
      · exact .inl (hout hy)
    · exact .inl (hout hy)

/-- **C37** (partial): the same for `move_children`, when the target is not inside the source.  -/
theorem move_children_reach_partial {b b' : Bld} {src dst : Addr} {j : Nat} (hb : b.Paired) (h : b.step (.moveChildren src dst j) = .ok b')
    (hsrc : b.Under b.root src) (hdst : b.Under b.root dst) (hnot : ¬ b.Under src dst) (x : Addr) :
    b'.Under b.root x ↔ b.Under b.root x := by
  have hb' := step_paired hb h
  have hent := move_children_entries hb h
  have hne : src ≠ dst := fun e => hnot (e ▸ .refl)
  refine under_redirect (src := src) (dst := dst) (M := fun v => b.Owns src v) ?_ ?_ ?_ (fun v hv hu => hnot (.head hv hu)) hsrc hdst x
  · intro u v huv
    by_cases hu : src = u
    · exact .inr ⟨hu.symm, hu ▸ huv⟩
    · obtain ⟨y, hy, hv⟩ := (owns_entries hb).1 huv
      refine .inl ((owns_entries hb').2 ⟨y, ?_, hv⟩)
      rw [hent u, if_neg hu]
      split
      · rename_i hd
        subst hd
        rw [← List.take_append_drop j (b.entries dst)] at hy
        simp only [List.mem_append] at hy ⊢
        rcases hy with hy | hy <;> simp [hy]
      · exact hy
  · intro v hv
    obtain ⟨y, hy, hv⟩ := (owns_entries hb).1 hv
    refine (owns_entries hb').2 ⟨y, ?_, hv⟩
    rw [hent dst, if_neg hne, if_pos rfl]
    simp [hy]
  · intro u v huv
    obtain ⟨y, hy, hv⟩ := (owns_entries hb').1 huv
    rw [hent u] at hy
    split at hy
    · simp at hy
    · split at hy
      · rename_i hd
        subst hd
        simp only [List.mem_append] at hy
        rcases hy with (hy | hy) | hy
        · exact .inl ((owns_entries hb).2 ⟨y, List.mem_of_mem_take hy, hv⟩)
        · exact .inr ⟨rfl, (owns_entries hb).2 ⟨y, hy, hv⟩, (owns_entries hb).2 ⟨y, hy, hv⟩⟩
        · exact .inl ((owns_entries hb).2 ⟨y, List.mem_of_mem_drop hy, hv⟩)
      · exact .inl ((owns_entries hb).2 ⟨y, hy, hv⟩)

/-- two sibling loops; the second one's nested sequence is moved into the first -/
def exMove : List Op :=
  [.add 0 .last (.loop .for "i") "", .add 0 .last (.loop .for "j") "", .add 2 .last .seq "x", .add 3 .last (.block 0) ""]

example : ∃ b b', Bld.init.run exMove = .ok b ∧ b.step (.moveChild 2 0 1 0) = .ok b' ∧
    b.entries 2 = [(.seq 3, 8, "x")] ∧ b'.entries 2 = [] ∧ b'.entries 1 = [(.seq 3, 8, "x")] := ⟨_, _, rfl, rfl, by decide⟩

example : ∃ b, Bld.init.run exOps = .ok b ∧ b.owns = [4, 3, 2] ∧ b.heap.length = 5 := ⟨_, rfl, by decide⟩

/-- **C37 fails**: moving a loop into its own body is accepted and detaches it, with everything in it, from the program. -/
theorem move_child_violated : ∃ (ops : List Op) (b b' : Bld), Bld.init.run ops = .ok b ∧ b.step (.moveChild 0 0 1 0) = .ok b' ∧
    b.Under b.root 1 ∧ ¬ b'.Under b'.root 1 := by
  refine ⟨[.add 0 .last (.loop .for "i") ""], _, _, rfl, rfl, .tail .refl ⟨_, rfl, by decide⟩, ?_⟩
  intro h
  cases h with
  | tail p e =>
    have : ∀ {v}, Bld.Under ⟨3, [⟨0, [], []⟩, ⟨2, [.loop 1 .for "i" 1], [⟨3, 1, ""⟩]⟩], 0⟩ 0 v → v = 0 := by
      intro v h
      induction h with
      | refl => rfl
      | tail _ e ih =>
        subst ih
        obtain ⟨s, hs, hv⟩ := e
        simp at hs
        subst hs
        simp [SeqObj.owns] at hv
    have := this (.tail p e)
    simp at this

/-- **C37 fails**: `move_children` of a sequence into itself and `hoist_root` have undefined behaviour on every program. -/
theorem builder_undefined (b : Bld) (a j : Nat) : b.step (.moveChildren a a j) = .ub ∧ b.step .hoistRoot = .ub := by
  simp [Bld.step, Bld.moveChildren]

end Docc.Builder
