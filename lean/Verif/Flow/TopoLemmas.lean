import Verif.Flow.Topo
/-
Lemmas about the topological sort: sorting, predecessors, dependency ids, heads.
-/
namespace Docc.Flow

/-- there is a memlet from `a` to `b` -/
def Gr.Arc (g : Gr) (a b : Nat) : Prop := ∃ e ∈ g.edges, e.src = a ∧ e.dst = b

/-- the connectors of a code node; `none` for an access node -/
def Kind.conns : Kind → Option (List String × List String)
  | .access _ => none
  | .tasklet _ i o => some (i, o)
  | .lib _ i o => some (i, o)

/-- A well formed graph: vertices are distinct, memlets connect vertices of the graph; at a code node a memlet uses a connector of the
node and no connector is used for two different neighbours. -/
structure Valid (g : Gr) : Prop where
  ids : g.vs.Nodup
  ends : ∀ e ∈ g.edges, e.src ∈ g.vs ∧ e.dst ∈ g.vs
  insUsed : ∀ e ∈ g.edges, ∀ i o, (g.kind e.dst).conns = some (i, o) → e.dc ∈ i
  insOnce : ∀ e ∈ g.edges, ∀ e' ∈ g.edges, e.dst = e'.dst → (g.kind e.dst).conns.isSome → e.dc = e'.dc → e.src = e'.src
  outsUsed : ∀ e ∈ g.edges, ∀ i o, (g.kind e.src).conns = some (i, o) → e.sc ∈ o
  outsOnce : ∀ e ∈ g.edges, ∀ e' ∈ g.edges, e.src = e'.src → (g.kind e.src).conns.isSome → e.sc = e'.sc → e.dst = e'.dst

/-- no cycle: the nodes can be numbered such that every memlet goes up -/
def Dag (g : Gr) : Prop := ∃ ρ : Nat → Nat, ∀ e ∈ g.edges, ρ e.src < ρ e.dst

/-! ### sorting and duplicates -/

theorem insertBy_perm {α : Type} (lt : α → α → Bool) (x : α) (l : List α) : List.Perm (insertBy lt x l) (x :: l) := by
  induction l with
  | nil => simp [insertBy]
  | cons y r ih =>
      rw [insertBy]
      split
      · exact List.Perm.refl _
      · exact (List.Perm.cons y ih).trans (List.Perm.swap x y r)

theorem sortBy_perm {α : Type} (lt : α → α → Bool) (l : List α) : List.Perm (sortBy lt l) l := by
  induction l with
  | nil => simp [sortBy]
  | cons x r ih => rw [sortBy]; exact (insertBy_perm lt x _).trans (List.Perm.cons x ih)

theorem uniq_mem (l : List Nat) : ∀ (seen : List Nat) (x : Nat), x ∈ uniq seen l ↔ x ∈ l ∧ x ∉ seen := by
  induction l with
  | nil => intro seen x; simp [uniq]
  | cons y r ih =>
      intro seen x
      rw [uniq]
      split
      · rename_i h
        rw [ih]
        constructor
        · rintro ⟨a, b⟩; exact ⟨List.mem_cons_of_mem _ a, b⟩
        · rintro ⟨a, b⟩
          rcases List.mem_cons.mp a with rfl | a
          · exact absurd h b
          · exact ⟨a, b⟩
      · rename_i h
        rw [List.mem_cons, ih, List.mem_cons, List.mem_cons]
        by_cases hx : x = y
        · subst hx; simp [h]
        · simp [hx]

theorem uniq_nodup (l : List Nat) : ∀ (seen : List Nat), (uniq seen l).Nodup := by
  induction l with
  | nil => intro seen; simp [uniq]
  | cons y r ih =>
      intro seen
      rw [uniq]
      split
      · exact ih seen
      · rw [List.nodup_cons]
        exact ⟨by rw [uniq_mem]; simp, ih _⟩

theorem uniq_length (l : List Nat) : ∀ (seen : List Nat), (uniq seen l).length ≤ l.length := by
  induction l with
  | nil => intro seen; simp [uniq]
  | cons y r ih =>
      intro seen
      rw [uniq]
      split
      · have := ih seen; simp; omega
      · have := ih (y :: seen); simp; omega

theorem mem_outE {g : Gr} {v : Nat} {e : Edge} : e ∈ g.outE v ↔ e ∈ g.edges ∧ e.src = v := by simp [Gr.outE]
theorem mem_inE {g : Gr} {v : Nat} {e : Edge} : e ∈ g.inE v ↔ e ∈ g.edges ∧ e.dst = v := by simp [Gr.inE]

theorem arc_out {g : Gr} {a b : Nat} : g.Arc a b ↔ b ∈ (g.outE a).map (·.dst) := by
  simp only [Gr.Arc, List.mem_map, mem_outE]
  constructor
  · rintro ⟨e, h, h1, h2⟩; exact ⟨e, ⟨h, h1⟩, h2⟩
  · rintro ⟨e, ⟨h, h1⟩, h2⟩; exact ⟨e, h, h1, h2⟩

theorem arc_in {g : Gr} {a b : Nat} : g.Arc a b ↔ a ∈ (g.inE b).map (·.src) := by
  simp only [Gr.Arc, List.mem_map, mem_inE]
  constructor
  · rintro ⟨e, h, h1, h2⟩; exact ⟨e, ⟨h, h2⟩, h1⟩
  · rintro ⟨e, ⟨h, h1⟩, h2⟩; exact ⟨e, h, h2, h1⟩

theorem arc_deg {g : Gr} {a b : Nat} (h : g.Arc a b) : 0 < g.outDeg a := by
  obtain ⟨e, he, h1, _⟩ := h
  exact List.length_pos_of_mem (mem_outE.mpr ⟨he, h1⟩)

/-- a node with one memlet has one successor -/
theorem arc_unique {g : Gr} {a b c : Nat} (hd : g.outDeg a ≤ 1) (h : g.Arc a b) (h' : g.Arc a c) : b = c := by
  obtain ⟨e, he, h1, rfl⟩ := h
  obtain ⟨e', he', h1', rfl⟩ := h'
  have m := mem_outE.mpr ⟨he, h1⟩
  have m' := mem_outE.mpr ⟨he', h1'⟩
  rw [Gr.outDeg] at hd
  match hl : g.outE a, m, m' with
  | [x], m, m' => rw [List.mem_singleton.mp m, List.mem_singleton.mp m']
  | x :: y :: r, _, _ => rw [hl] at hd; simp at hd

theorem find_dc {l : List Edge} {c : String} {e : Edge} (h : l.find? (fun e => e.dc == c) = some e) : e ∈ l ∧ e.dc = c :=
  ⟨List.mem_of_find?_eq_some h, by simpa using List.find?_some h⟩

theorem preds_code {g : Gr} (hv : Valid g) (v a : Nat) (ins : List String) (o : List String)
    (hk : (g.kind v).conns = some (ins, o)) :
    a ∈ uniq [] (ins.filterMap fun c => ((g.inE v).find? fun e => e.dc == c).map (·.src)) ↔ g.Arc a v := by
  rw [uniq_mem]
  simp only [List.mem_filterMap, Option.map_eq_some_iff, List.not_mem_nil, not_false_eq_true, and_true]
  constructor
  · rintro ⟨c, _, e, he, rfl⟩
    have := find_dc he
    exact ⟨e, (mem_inE.mp this.1).1, rfl, (mem_inE.mp this.1).2⟩
  · rintro ⟨e, he, rfl, rfl⟩
    refine ⟨e.dc, hv.insUsed e he _ _ hk, ?_⟩
    cases hf : (g.inE e.dst).find? fun e' => e'.dc == e.dc with
    | none =>
        rw [List.find?_eq_none] at hf
        exact absurd (by simp) (hf e (mem_inE.mpr ⟨he, rfl⟩))
    | some e' =>
        have := find_dc hf
        have h' := mem_inE.mp this.1
        exact ⟨e', rfl, hv.insOnce e' h'.1 e he h'.2 (by rw [h'.2, hk]; rfl) this.2⟩

/-- the predecessors are exactly the sources of memlets into the node -/
theorem mem_preds {g : Gr} (hv : Valid g) {a v : Nat} : a ∈ g.preds v ↔ g.Arc a v := by
  rw [Gr.preds]
  cases hk : g.kind v with
  | access d => rw [(sortBy_perm _ _).mem_iff, uniq_mem, arc_in]; simp
  | tasklet c i o => exact preds_code hv v a i o (by rw [hk]; rfl)
  | lib c i o => exact preds_code hv v a i o (by rw [hk]; rfl)

theorem preds_nodup (g : Gr) (v : Nat) : (g.preds v).Nodup := by
  rw [Gr.preds]
  cases g.kind v with
  | access d => exact (sortBy_perm _ _).nodup_iff.mpr (uniq_nodup _ _)
  | tasklet c i o => exact uniq_nodup _ _
  | lib c i o => exact uniq_nodup _ _

theorem nodup_subset_length {l m : List Nat} (h : l.Nodup) (hs : ∀ x ∈ l, x ∈ m) : l.length ≤ m.length := by
  induction l generalizing m with
  | nil => simp
  | cons x r ih =>
      rw [List.nodup_cons] at h
      have hx := hs x (List.mem_cons_self ..)
      have := ih (m := m.erase x) h.2 (by
        intro y hy
        have hne : y ≠ x := fun e => h.1 (e ▸ hy)
        exact (List.mem_erase_of_ne hne).mpr (hs y (List.mem_cons_of_mem _ hy)))
      rw [List.length_erase_of_mem hx] at this
      have := List.length_pos_of_mem hx
      simp; omega

theorem preds_length {g : Gr} (hv : Valid g) (v : Nat) : (g.preds v).length ≤ (g.inE v).length := by
  rw [← List.length_map (as := g.inE v) (f := fun e : Edge => e.src)]
  exact nodup_subset_length (preds_nodup g v) (fun x hx => arc_in.mp ((mem_preds hv).mp hx))

theorem flatMap_congr_mem {α β : Type} {l : List α} {f h : α → List β} (e : ∀ x ∈ l, f x = h x) : l.flatMap f = l.flatMap h := by
  induction l with
  | nil => rfl
  | cons x r ih =>
      rw [List.flatMap_cons, List.flatMap_cons, e x (List.mem_cons_self ..), ih (fun y hy => e y (List.mem_cons_of_mem _ hy))]

theorem sum_filter : ∀ (l : List Nat) (es : List Edge), l.Nodup →
    (l.flatMap fun v => es.filter fun e => e.dst == v).length ≤ es.length := by
  intro l
  induction l with
  | nil => intro es _; simp
  | cons x t ih =>
      intro es hl
      rw [List.nodup_cons] at hl
      rw [List.flatMap_cons, List.length_append]
      have h1 := ih (es.filter fun e => !(e.dst == x)) hl.2
      have h2 : (t.flatMap fun v => es.filter fun e => e.dst == v) =
          t.flatMap fun v => (es.filter fun e => !(e.dst == x)).filter fun e => e.dst == v := by
        refine flatMap_congr_mem fun v hv => ?_
        rw [List.filter_filter]
        refine List.filter_congr fun e _ => ?_
        by_cases h : e.dst = v
        · have : v ≠ x := fun c => hl.1 (c ▸ hv)
          simp [h, this]
        · simp [h]
      rw [h2]
      have h3 : es.length = (es.filter fun e => e.dst == x).length + (es.filter fun e => !(e.dst == x)).length := by
        clear ih h1 h2
        induction es with
        | nil => rfl
        | cons e r ihr => by_cases h : e.dst = x <;> simp [h] <;> omega
      omega

theorem sum_preds {g : Gr} (hv : Valid g) (l : List Nat) (hl : l.Nodup) : (l.flatMap g.preds).length ≤ g.edges.length := by
  refine Nat.le_trans ?_ (sum_filter l g.edges hl)
  clear hl
  induction l with
  | nil => simp
  | cons x t ih =>
      rw [List.flatMap_cons, List.flatMap_cons, List.length_append, List.length_append]
      have := preds_length hv x
      rw [Gr.inE] at this
      omega

/-! ### dependency ids -/

theorem findIdx_inj {l : List Nat} (a b i : Nat) (ha : l.findIdx? (· == a) = some i) (hb : l.findIdx? (· == b) = some i) : a = b := by
  rw [List.findIdx?_eq_some_iff_getElem] at ha hb
  obtain ⟨h, e, _⟩ := ha
  obtain ⟨h', e', _⟩ := hb
  have e : l[i] = a := by simpa using e
  have e' : l[i] = b := by simpa using e'
  rw [← e, ← e']

theorem findIdx_injS {l : List String} (a b : String) (i : Nat) (ha : l.findIdx? (· == a) = some i) (hb : l.findIdx? (· == b) = some i) :
    a = b := by
  rw [List.findIdx?_eq_some_iff_getElem] at ha hb
  obtain ⟨h, e, _⟩ := ha
  obtain ⟨h', e', _⟩ := hb
  have e : l[i] = a := by simpa using e
  have e' : l[i] = b := by simpa using e'
  rw [← e, ← e']

theorem findIdx_some {α : Type} [BEq α] [LawfulBEq α] {l : List α} {a : α} (h : a ∈ l) : ∃ i, l.findIdx? (· == a) = some i := by
  cases hf : l.findIdx? (· == a) with
  | some i => exact ⟨i, rfl⟩
  | none =>
      rw [List.findIdx?_eq_none_iff] at hf
      have := hf a h
      simp at this

/-- the id in the code branch -/
def codeId (g : Gr) (v s : Nat) (outs : List String) : Option Nat :=
  match (g.outE v).find? fun e => e.dst == s with
  | some e => outs.findIdx? (· == e.sc)
  | none => none

theorem codeId_some {g : Gr} (hv : Valid g) {v s : Nat} {i o : List String} (hk : (g.kind v).conns = some (i, o)) (h : g.Arc v s) :
    ∃ k, codeId g v s o = some k := by
  obtain ⟨e, he, rfl, rfl⟩ := h
  rw [codeId]
  cases hf : (g.outE e.src).find? fun e' => e'.dst == e.dst with
  | none =>
      rw [List.find?_eq_none] at hf
      exact absurd (by simp) (hf e (mem_outE.mpr ⟨he, rfl⟩))
  | some e' =>
      have h' := mem_outE.mp (List.mem_of_find?_eq_some hf)
      exact findIdx_some (hv.outsUsed e' h'.1 _ _ (by rw [h'.2]; exact hk))

theorem codeId_inj {g : Gr} (hv : Valid g) {v s s' : Nat} {i o : List String} (hk : (g.kind v).conns = some (i, o)) {k : Nat}
    (h : codeId g v s o = some k) (h' : codeId g v s' o = some k) : s = s' := by
  rw [codeId] at h h'
  cases hf : (g.outE v).find? fun e' => e'.dst == s with
  | none => rw [hf] at h; cases h
  | some e =>
      cases hf' : (g.outE v).find? fun e' => e'.dst == s' with
      | none => rw [hf'] at h'; cases h'
      | some e' =>
          rw [hf] at h; rw [hf'] at h'
          have m := mem_outE.mp (List.mem_of_find?_eq_some hf)
          have m' := mem_outE.mp (List.mem_of_find?_eq_some hf')
          have d : e.dst = s := by simpa using List.find?_some hf
          have d' : e'.dst = s' := by simpa using List.find?_some hf'
          have := findIdx_injS _ _ _ h h'
          rw [← d, ← d']
          exact hv.outsOnce e m.1 e' m'.1 (by rw [m.2, m'.2]) (by rw [m.2, hk]; rfl) this

theorem depId_some {g : Gr} (hv : Valid g) {v s : Nat} (h : g.Arc v s) : ∃ k, g.depId v s = some k := by
  rw [Gr.depId]
  cases hk : g.kind v with
  | access d =>
      dsimp only
      exact findIdx_some ((sortBy_perm _ _).mem_iff.mpr ((uniq_mem _ _ _).mpr ⟨arc_out.mp h, by simp⟩))
  | tasklet c i o => exact codeId_some hv (i := i) (by rw [hk]; rfl) h
  | lib c i o => exact codeId_some hv (i := i) (by rw [hk]; rfl) h

theorem depId_inj {g : Gr} (hv : Valid g) {v s s' k : Nat} (h : g.depId v s = some k) (h' : g.depId v s' = some k) : s = s' := by
  rw [Gr.depId] at h h'
  cases hk : g.kind v with
  | access d =>
      simp only [hk] at h h'
      exact findIdx_inj _ _ _ h h'
  | tasklet c i o => simp only [hk] at h h'; exact codeId_inj hv (i := i) (o := o) (by rw [hk]; rfl) h h'
  | lib c i o => simp only [hk] at h h'; exact codeId_inj hv (i := i) (o := o) (by rw [hk]; rfl) h h'

/-! ### the list a node belongs to -/

/-- several memlets leave the node -/
def Gr.Multi (g : Gr) (v : Nat) : Prop := 1 < g.outDeg v

/-- following single memlets from `v` ends in `s`, a sink or a node with several memlets -/
inductive Head (g : Gr) : Nat → Nat → Prop
  | self {s : Nat} : g.outDeg s ≠ 1 → Head g s s
  | step {v t s : Nat} : g.outDeg v = 1 → g.Arc v t → Head g t s → Head g v s

theorem Head.unique {g : Gr} {v s s' : Nat} (h : Head g v s) (h' : Head g v s') : s = s' := by
  induction h with
  | self hd =>
      cases h' with
      | self _ => rfl
      | step hd' _ _ => exact absurd hd' hd
  | step hd ha _ ih =>
      cases h' with
      | self hd' => exact absurd hd hd'
      | step _ ha' h' =>
          have := arc_unique (by omega) ha ha'
          subst this
          exact ih h'

theorem Head.isHead {g : Gr} {v s : Nat} (h : Head g v s) : g.outDeg s ≠ 1 := by
  induction h with
  | self hd => exact hd
  | step _ _ _ ih => exact ih

theorem Head.rank {g : Gr} {ρ : Nat → Nat} (hρ : ∀ e ∈ g.edges, ρ e.src < ρ e.dst) {v s : Nat} (h : Head g v s) : ρ v ≤ ρ s := by
  induction h with
  | self _ => exact Nat.le_refl _
  | step _ ha _ ih =>
      obtain ⟨e, he, rfl, rfl⟩ := ha
      have := hρ e he
      omega

theorem arc_rank {g : Gr} {ρ : Nat → Nat} (hρ : ∀ e ∈ g.edges, ρ e.src < ρ e.dst) {a b : Nat} (h : g.Arc a b) : ρ a < ρ b := by
  obtain ⟨e, he, rfl, rfl⟩ := h
  exact hρ e he

theorem list_bound (f : Nat → Nat) : ∀ l : List Nat, ∃ B, ∀ x ∈ l, f x ≤ B := by
  intro l
  induction l with
  | nil => exact ⟨0, by simp⟩
  | cons a r ih =>
      obtain ⟨B, hB⟩ := ih
      refine ⟨max B (f a), fun x hx => ?_⟩
      rcases List.mem_cons.mp hx with rfl | hx
      · omega
      · have := hB x hx; omega

theorem Valid.arc_mem {g : Gr} (hv : Valid g) {a b : Nat} (h : g.Arc a b) : a ∈ g.vs ∧ b ∈ g.vs := by
  obtain ⟨e, he, rfl, rfl⟩ := h
  exact hv.ends e he

theorem arc_of_deg {g : Gr} {v : Nat} (h : 0 < g.outDeg v) : ∃ t, g.Arc v t := by
  rw [Gr.outDeg] at h
  obtain ⟨e, he⟩ := List.exists_mem_of_length_pos h
  have := mem_outE.mp he
  exact ⟨e.dst, e, this.1, this.2, rfl⟩

/-- well-founded downward induction: towards the sinks -/
theorem dag_induction {g : Gr} (hv : Valid g) (hd : Dag g) {P : Nat → Prop}
    (h : ∀ v, (∀ t, g.Arc v t → P t) → P v) : ∀ v, P v := by
  obtain ⟨ρ, hρ⟩ := hd
  obtain ⟨B, hB⟩ := list_bound ρ g.vs
  have key : ∀ n v, B - ρ v < n → P v := by
    intro n
    induction n with
    | zero => intro v h; omega
    | succ n ih =>
        intro v hn
        refine h v fun t ht => ih t ?_
        have h1 := arc_rank hρ ht
        have h2 := hB t (hv.arc_mem ht).2
        omega
  exact fun v => key _ v (Nat.lt_succ_self _)

theorem head_exists {g : Gr} (hv : Valid g) (hd : Dag g) (v : Nat) : ∃ s, Head g v s := by
  refine dag_induction hv hd (P := fun v => ∃ s, Head g v s) (fun v ih => ?_) v
  by_cases h1 : g.outDeg v = 1
  · obtain ⟨t, ht⟩ := arc_of_deg (g := g) (v := v) (by omega)
    obtain ⟨s, hs⟩ := ih t ht
    exact ⟨s, .step h1 ht hs⟩
  · exact ⟨v, .self h1⟩

end Docc.Flow
