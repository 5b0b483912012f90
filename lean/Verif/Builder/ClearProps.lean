import Verif.Builder.Clear

/-
C89: clearing a node of a data flow graph removes exactly its memlets, what computed it, and what is left without memlets.
-/
namespace Docc.Builder

theorem FG.has_iff (g : FG) (n : Nat) : g.has n = true ↔ ∃ b, (n, b) ∈ g.nodes := by
  simp only [FG.has, List.any_eq_true, beq_iff_eq]
  constructor
  · rintro ⟨⟨a, b⟩, h, rfl⟩; exact ⟨b, h⟩
  · rintro ⟨b, h⟩; exact ⟨_, h, rfl⟩

theorem FG.isAccess_iff (g : FG) (n : Nat) : g.isAccess n = true ↔ (n, true) ∈ g.nodes := by
  simp [FG.isAccess]

theorem FG.isolated_iff (g : FG) (n : Nat) : g.isolated n = true ↔ ∀ e ∈ g.edges, e.1 ≠ n ∧ e.2 ≠ n := by
  simp only [FG.isolated, FG.ins, FG.outs, Bool.and_eq_true, List.isEmpty_iff, List.filter_eq_nil_iff, beq_iff_eq]
  constructor
  · rintro ⟨h1, h2⟩ e he; exact ⟨h2 e he, h1 e he⟩
  · intro h; exact ⟨fun e he => (h e he).2, fun e he => (h e he).1⟩

theorem kind_unique {l : List (Nat × Bool)} (h : (l.map (·.1)).Nodup) {n : Nat} {b c : Bool} (h1 : (n, b) ∈ l) (h2 : (n, c) ∈ l) : b = c := by
  induction l with
  | nil => cases h1
  | cons a l ih =>
    simp only [List.map_cons, List.nodup_cons, List.mem_map, not_exists, not_and] at h
    rcases List.mem_cons.1 h1 with e1 | e1 <;> rcases List.mem_cons.1 h2 with e2 | e2
    · rw [← e1] at e2; exact (Prod.ext_iff.1 e2).2.symm
    · exact (h.1 _ e2 (by rw [← e1])).elim
    · exact (h.1 _ e1 (by rw [← e2])).elim
    · exact ih h.2 e1 e2

/-! ### code nodes -/

/-- **C89 (tasklets and library nodes).** Clearing a code node of a valid graph leaves a valid graph with exactly the memlets that do not
touch the node; apart from the node only those of its neighbours are removed that had no other memlet. -/
theorem clear_code (g : FG) (ok : g.Ok) (n : Nat) (hn : (n, false) ∈ g.nodes) :
    (g.clearCode n).Ok ∧ (g.clearCode n).edges = g.edges.filter (fun e => e.1 != n && e.2 != n) ∧
    ∀ a, a ∈ (g.clearCode n).nodes ↔ a ∈ g.nodes ∧ a.1 ≠ n ∧
      ((∃ e ∈ g.edges, (e.1 = a.1 ∨ e.2 = a.1) ∧ e.1 ≠ n ∧ e.2 ≠ n) ∨ ((a.1, n) ∉ g.edges ∧ (n, a.1) ∉ g.edges)) := by
  have he : (g.clearCode n).edges = g.edges.filter (fun e => e.1 != n && e.2 != n) := by
    simp only [FG.clearCode, FG.cutIn, FG.cutOut, List.filter_filter]
  have hmem : ∀ e, e ∈ ((g.cutIn n).cutOut n).edges ↔ e ∈ g.edges ∧ e.1 ≠ n ∧ e.2 ≠ n := by
    intro e
    simp only [FG.cutIn, FG.cutOut, List.mem_filter, bne_iff_ne, ne_eq]
    exact ⟨fun h => ⟨h.1.1, h.2, h.1.2⟩, fun h => ⟨⟨h.1, h.2.2⟩, h.2.1⟩⟩
  have hnodes : ∀ a, a ∈ (g.clearCode n).nodes ↔ a ∈ g.nodes ∧ a.1 ≠ n ∧
      ((∃ e ∈ g.edges, (e.1 = a.1 ∨ e.2 = a.1) ∧ e.1 ≠ n ∧ e.2 ≠ n) ∨ ((a.1, n) ∉ g.edges ∧ (n, a.1) ∉ g.edges)) := by
    intro a
    have hiso : ((g.cutIn n).cutOut n).isolated a.1 = true ↔ ∀ e ∈ g.edges, e.1 ≠ n → e.2 ≠ n → e.1 ≠ a.1 ∧ e.2 ≠ a.1 := by
      rw [FG.isolated_iff]
      exact ⟨fun h e h1 h2 h3 => h e ((hmem e).2 ⟨h1, h2, h3⟩), fun h e he => h e ((hmem e).1 he).1 ((hmem e).1 he).2.1 ((hmem e).1 he).2.2⟩
    have hnear : ((g.ins n).map (·.1) ++ (g.outs n).map (·.2) ++ [n]).contains a.1 = true ↔ (a.1, n) ∈ g.edges ∨ (n, a.1) ∈ g.edges ∨ a.1 = n := by
      simp only [List.contains_iff_mem, List.mem_append, List.mem_map, FG.ins, FG.outs, List.mem_filter, beq_iff_eq, List.mem_singleton, or_assoc]
      constructor
      · rintro (⟨⟨x, y⟩, ⟨h, rfl⟩, e⟩ | ⟨⟨x, y⟩, ⟨h, rfl⟩, e⟩ | h)
        · exact Or.inl (by simp only at e; rw [← e]; exact h)
        · exact Or.inr (Or.inl (by simp only at e; rw [← e]; exact h))
        · exact Or.inr (Or.inr h)
      · rintro (h | h | h)
        · exact Or.inl ⟨_, ⟨h, rfl⟩, rfl⟩
        · exact Or.inr (Or.inl ⟨_, ⟨h, rfl⟩, rfl⟩)
        · exact Or.inr (Or.inr h)
    have hstep : a ∈ (g.clearCode n).nodes ↔ a ∈ g.nodes ∧
        ¬ (((g.ins n).map (·.1) ++ (g.outs n).map (·.2) ++ [n]).contains a.1 = true ∧ ((g.cutIn n).cutOut n).isolated a.1 = true) := by
      simp only [FG.clearCode, List.mem_filter, Bool.not_eq_true', ← Bool.not_eq_true, Bool.and_eq_true]
      exact Iff.rfl
    rw [hstep, hnear, hiso]
    constructor
    · rintro ⟨h1, h2⟩
      have hne : a.1 ≠ n := fun e => h2 ⟨Or.inr (Or.inr e), fun e' _ h3 h4 => ⟨by rw [e]; exact h3, by rw [e]; exact h4⟩⟩
      refine ⟨h1, hne, Classical.byContradiction fun hc => h2 ⟨?_, ?_⟩⟩
      · refine Classical.byContradiction fun hb => hc (Or.inr ⟨fun h => hb (Or.inl h), fun h => hb (Or.inr (Or.inl h))⟩)
      · intro e h3 h4 h5
        exact ⟨fun h => hc (Or.inl ⟨e, h3, Or.inl h, h4, h5⟩), fun h => hc (Or.inl ⟨e, h3, Or.inr h, h4, h5⟩)⟩
    · rintro ⟨h1, h2, h3⟩
      refine ⟨h1, fun ⟨h4, h5⟩ => ?_⟩
      rcases h3 with ⟨e, he, h6, h7, h8⟩ | ⟨h6, h7⟩
      · rcases h6 with h6 | h6
        · exact (h5 e he h7 h8).1 h6
        · exact (h5 e he h7 h8).2 h6
      · rcases h4 with h | h | h
        · exact h6 h
        · exact h7 h
        · exact h2 h
  refine ⟨⟨?_, ?_, ?_⟩, he, hnodes⟩
  · exact List.Nodup.sublist (List.Sublist.map _ List.filter_sublist) ok.distinct
  · intro e hee
    rw [he, List.mem_filter] at hee
    simp only [Bool.and_eq_true, bne_iff_ne, ne_eq] at hee
    obtain ⟨h1, h2⟩ := ok.ends e hee.1
    rw [FG.has_iff] at h1 h2
    obtain ⟨b, h1⟩ := h1
    obtain ⟨c, h2⟩ := h2
    rw [FG.has_iff, FG.has_iff]
    exact ⟨⟨b, (hnodes _).2 ⟨h1, hee.2.1, Or.inl ⟨e, hee.1, Or.inl rfl, hee.2.1, hee.2.2⟩⟩⟩,
      ⟨c, (hnodes _).2 ⟨h2, hee.2.2, Or.inl ⟨e, hee.1, Or.inr rfl, hee.2.1, hee.2.2⟩⟩⟩⟩
  · intro e hee
    rw [he, List.mem_filter] at hee
    simp only [Bool.and_eq_true, bne_iff_ne, ne_eq] at hee
    rcases ok.mixed e hee.1 with h | h
    · left
      rw [FG.isAccess_iff] at h ⊢
      exact (hnodes _).2 ⟨h, hee.2.1, Or.inl ⟨e, hee.1, Or.inl rfl, hee.2.1, hee.2.2⟩⟩
    · right
      rw [FG.isAccess_iff] at h ⊢
      exact (hnodes _).2 ⟨h, hee.2.2, Or.inl ⟨e, hee.1, Or.inr rfl, hee.2.1, hee.2.2⟩⟩

/-- Non-vacuity: `y = x * z; w = z`, clearing the multiplication removes `x` and `y` but not `z`. -/
example : let g : FG := ⟨[(0, true), (1, true), (2, false), (3, true), (4, false), (5, true)], [(0, 2), (1, 2), (2, 3), (1, 4), (4, 5)]⟩
    (2, false) ∈ g.nodes ∧ (g.clearCode 2).nodes = [(1, true), (4, false), (5, true)] ∧ (g.clearCode 2).edges = [(1, 4), (4, 5)] := by decide

/-! ### access nodes -/

/-- the memlets that have to go with the value of the access node `n`: those into it and those into what computes it -/
def FG.goes (g : FG) (n : Nat) (e : Nat × Nat) : Bool := e.2 == n || (g.edges.contains (e.2, n) && !g.isAccess e.2)

/-- the same when only the code nodes `D` have been visited -/
def FG.gone (n : Nat) (D : List Nat) (e : Nat × Nat) : Bool := e.2 == n || D.contains e.2

/-- What `clear_node` requires (documented nowhere): the code nodes that compute the access node have no other output, and an access node of
which several memlets go is kept by another memlet. -/
structure FG.Clearable (g : FG) (n : Nat) : Prop where
  access : (n, true) ∈ g.nodes
  acyclic : (n, n) ∉ g.edges ∧ ∀ c, (n, c) ∈ g.edges → (c, n) ∉ g.edges
  single : ∀ c, g.isAccess c = false → (c, n) ∈ g.edges → g.outs c = [(c, n)]
  shared : ∀ s, s ≠ n → g.isAccess s = true → 2 ≤ ((g.edges.filter fun e => e.1 == s && g.goes n e).length) →
    ∃ e ∈ g.edges, (e.1 = s ∨ e.2 = s) ∧ g.goes n e = false

/-- the state of the loop of `clear_node`: `D` are the code nodes visited, `X` the access nodes destroyed -/
structure FG.Mid (g : FG) (n : Nat) (D : List Nat) (queue : List Nat) (h : FG) : Prop where
  pred : ∀ c ∈ D, g.isAccess c = false ∧ (c, n) ∈ g.edges
  edges : h.edges = g.edges.filter fun e => !FG.gone n D e
  sub : ∀ a ∈ h.nodes, a ∈ g.nodes
  sublist : h.nodes.Sublist g.nodes
  code : ∀ c, (c, false) ∈ g.nodes → ((c, false) ∈ h.nodes ↔ c ∉ D)
  self : (n, true) ∈ h.nodes ↔ g.outs n ≠ []
  acc : ∀ s, s ≠ n → (s, true) ∈ g.nodes → (s, true) ∉ h.nodes → h.isolated s = true ∧ s ∉ queue ∧ ∃ e ∈ g.edges, e.1 = s ∧ FG.gone n D e = true
  pend : ∀ c, g.isAccess c = false → (c, n) ∈ g.edges → c ∉ D → c ∈ queue
  qnode : n ∉ queue
  qfrom : ∀ s ∈ queue, ∃ e ∈ g.edges, e.1 = s ∧ FG.gone n D e = true
  qcount : ∀ s, queue.count s ≤ ((g.edges.filter fun e => e.1 == s && FG.gone n D e).length)
  qdone : ∀ c ∈ D, c ∉ queue
  left : ∀ s, s ≠ n → (s, true) ∈ h.nodes → h.isolated s = true → (∃ e ∈ g.edges, e.1 = s ∧ FG.gone n D e = true) → s ∈ queue

theorem FG.isolated_mono {h h' : FG} (hs : ∀ e ∈ h'.edges, e ∈ h.edges) {s : Nat} (hi : h.isolated s = true) : h'.isolated s = true := by
  rw [FG.isolated_iff] at hi ⊢
  exact fun e he => hi e (hs e he)

theorem FG.gone_mono {n : Nat} {D : List Nat} {c : Nat} {e : Nat × Nat} (h : FG.gone n D e = true) : FG.gone n (c :: D) e = true := by
  simp only [FG.gone, Bool.or_eq_true, beq_iff_eq, List.contains_iff_mem, List.mem_cons] at h ⊢
  rcases h with h | h
  · exact Or.inl h
  · exact Or.inr (Or.inr h)

theorem FG.gone_cons (n : Nat) (D : List Nat) (c : Nat) (e : Nat × Nat) : FG.gone n (c :: D) e = (FG.gone n D e || e.2 == c) := by
  simp only [FG.gone, List.contains_cons]
  cases h1 : (e.2 == n) <;> cases h2 : (e.2 == c) <;> simp_all

theorem filter_split_length (l : List (Nat × Nat)) (p q r : Nat × Nat → Bool) :
    (l.filter fun e => r e && (p e || q e)).length = (l.filter fun e => r e && p e).length + (l.filter fun e => r e && (!p e && q e)).length := by
  induction l with
  | nil => rfl
  | cons a l ih => cases hp : p a <;> cases hq : q a <;> cases hr : r a <;> simp [hp, hq, hr, ih] <;> omega

theorem filter_length_mono (l : List (Nat × Nat)) (p q : Nat × Nat → Bool) (h : ∀ e, p e = true → q e = true) : (l.filter p).length ≤ (l.filter q).length := by
  rw [← List.countP_eq_length_filter, ← List.countP_eq_length_filter]
  exact List.countP_mono_left fun e _ => h e

theorem count_sources (l : List (Nat × Nat)) (s c : Nat) :
    ((l.filter fun e => e.2 == c).map (·.1)).count s = (l.filter fun e => e.1 == s && e.2 == c).length := by
  induction l with
  | nil => rfl
  | cons a l ih =>
    by_cases h2 : a.2 = c <;> by_cases h1 : a.1 = s <;> simp_all [List.count_cons]

section
variable {g : FG} {n : Nat} (ok : g.Ok) (C : g.Clearable n)

include ok in
theorem FG.Ok.not_access {c : Nat} (h : (c, false) ∈ g.nodes) : g.isAccess c = false := by
  rw [← Bool.not_eq_true, FG.isAccess_iff]
  intro h'
  exact absurd (kind_unique ok.distinct h h') (by simp)

include ok in
theorem FG.Ok.code_target {e : Nat × Nat} (he : e ∈ g.edges) (h : g.isAccess e.2 = false) : (e.1, true) ∈ g.nodes := by
  rcases ok.mixed e he with h' | h'
  · exact (g.isAccess_iff _).1 h'
  · rw [h] at h'; cases h'

/-- a skipped access node -/
theorem FG.Mid.skip {D : List Nat} {c : Nat} {q : List Nat} {h : FG} (M : g.Mid n D (c :: q) h) (hc : g.isAccess c = true) (hi : h.isolated c = false) :
    g.Mid n D q h where
  pred := M.pred
  edges := M.edges
  sub := M.sub
  sublist := M.sublist
  code := M.code
  self := M.self
  acc := fun s h1 h2 h3 => by
    obtain ⟨a, b, d⟩ := M.acc s h1 h2 h3
    exact ⟨a, fun hq => b (List.mem_cons_of_mem _ hq), d⟩
  pend := fun c' h1 h2 h3 => by
    rcases List.mem_cons.1 (M.pend c' h1 h2 h3) with rfl | h
    · rw [hc] at h1; cases h1
    · exact h
  qnode := fun h => M.qnode (List.mem_cons_of_mem _ h)
  qfrom := fun s hs => M.qfrom s (List.mem_cons_of_mem _ hs)
  qcount := fun s => Nat.le_trans (by rw [List.count_cons]; omega) (M.qcount s)
  qdone := fun c' hc' h => M.qdone c' hc' (List.mem_cons_of_mem _ h)
  left := fun s h1 h2 h3 h4 => by
    rcases List.mem_cons.1 (M.left s h1 h2 h3 h4) with rfl | h
    · rw [hi] at h3; cases h3
    · exact h

theorem FG.Mid.gone_goes {D queue : List Nat} {h : FG} (M : g.Mid n D queue h) {e : Nat × Nat} (he : FG.gone n D e = true) : g.goes n e = true := by
  simp only [FG.gone, FG.goes, Bool.or_eq_true, beq_iff_eq, List.contains_iff_mem, Bool.and_eq_true, Bool.not_eq_true'] at he ⊢
  rcases he with he | he
  · exact Or.inl he
  · exact Or.inr ⟨(M.pred _ he).2, (M.pred _ he).1⟩

include C in
/-- an access node without memlets is destroyed -/
theorem FG.Mid.free {D : List Nat} {c : Nat} {q : List Nat} {h : FG} (M : g.Mid n D (c :: q) h) (hc : (c, true) ∈ g.nodes) (hi : h.isolated c = true)
    (ha : g.isAccess c = true) (hca : ∀ b, (c, b) ∈ g.nodes → b = true) : g.Mid n D q ((h.cutIn c).drop c) := by
  have hcn : c ≠ n := fun e => M.qnode (by rw [e]; exact List.mem_cons_self ..)
  have hed : ((h.cutIn c).drop c).edges = h.edges := by
    simp only [FG.drop, FG.cutIn]
    rw [List.filter_eq_self]
    intro e he
    simpa using ((h.isolated_iff c).1 hi e he).2
  have hiso : ∀ s, ((h.cutIn c).drop c).isolated s = h.isolated s := by
    intro s; simp only [FG.isolated, FG.ins, FG.outs, hed]
  have hmem : ∀ a, a ∈ ((h.cutIn c).drop c).nodes ↔ a ∈ h.nodes ∧ a.1 ≠ c := by
    intro a; simp [FG.drop, FG.cutIn]
  have hcq : c ∉ q := by
    intro hq
    have h1 := M.qcount c
    rw [List.count_cons_self] at h1
    have h2 : 0 < q.count c := List.count_pos_iff.2 hq
    have h3 : (g.edges.filter fun e => e.1 == c && FG.gone n D e).length ≤ (g.edges.filter fun e => e.1 == c && g.goes n e).length := by
      apply filter_length_mono
      intro e he
      simp only [Bool.and_eq_true] at he ⊢
      exact ⟨he.1, M.gone_goes he.2⟩
    obtain ⟨e, he, hes, hg⟩ := C.shared c hcn ha (by omega)
    have hng : FG.gone n D e = false := by
      rw [← Bool.not_eq_true]; intro h'; rw [M.gone_goes h'] at hg; cases hg
    have : e ∈ h.edges := by rw [M.edges, List.mem_filter]; exact ⟨he, by simp [hng]⟩
    have := (h.isolated_iff c).1 hi e this
    rcases hes with h' | h'
    · exact this.1 h'
    · exact this.2 h'
  exact {
    pred := M.pred
    edges := by rw [hed]; exact M.edges
    sub := fun a ha => M.sub a ((hmem a).1 ha).1
    sublist := List.Sublist.trans List.filter_sublist M.sublist
    code := fun c' hc' => by
      rw [hmem, ← M.code c' hc']
      exact ⟨fun h => h.1, fun h => ⟨h, fun e => by simp only at e; subst e; exact absurd (hca _ hc') (by simp)⟩⟩
    self := by rw [hmem, ← M.self]; exact ⟨fun h => h.1, fun h => ⟨h, fun e => hcn e.symm⟩⟩
    acc := fun s h1 h2 h3 => by
      rw [hiso]
      by_cases hsc : s = c
      · subst hsc
        exact ⟨hi, hcq, M.qfrom s (List.mem_cons_self ..)⟩
      · obtain ⟨a, b, d⟩ := M.acc s h1 h2 fun h => h3 ((hmem _).2 ⟨h, hsc⟩)
        exact ⟨a, fun hq => b (List.mem_cons_of_mem _ hq), d⟩
    pend := fun c' h1 h2 h3 => by
      rcases List.mem_cons.1 (M.pend c' h1 h2 h3) with rfl | h
      · rw [ha] at h1; cases h1
      · exact h
    qnode := fun h => M.qnode (List.mem_cons_of_mem _ h)
    qfrom := fun s hs => M.qfrom s (List.mem_cons_of_mem _ hs)
    qcount := fun s => Nat.le_trans (by rw [List.count_cons]; omega) (M.qcount s)
    qdone := fun c' hc' h => M.qdone c' hc' (List.mem_cons_of_mem _ h)
    left := fun s h1 h2 h3 h4 => by
      rw [hiso] at h3
      have h2' := (hmem _).1 h2
      rcases List.mem_cons.1 (M.left s h1 h2'.1 h3 h4) with rfl | h
      · exact absurd rfl h2'.2
      · exact h }

include ok C in
/-- a code node that computed the value is destroyed, and what it reads is visited -/
theorem FG.Mid.code_step {D : List Nat} {c : Nat} {q : List Nat} {h : FG} (M : g.Mid n D (c :: q) h) (hc : (c, false) ∈ g.nodes) :
    g.Mid n (c :: D) (q ++ (h.ins c).map (·.1)) ((h.cutIn c).drop c) := by
  have hcn : c ≠ n := fun e => M.qnode (by rw [e]; exact List.mem_cons_self ..)
  have hna := ok.not_access hc
  have hcD : c ∉ D := fun h => M.qdone c h (List.mem_cons_self ..)
  have hce : (c, n) ∈ g.edges := by
    obtain ⟨e, he, rfl, hg⟩ := M.qfrom c (List.mem_cons_self ..)
    simp only [FG.gone, Bool.or_eq_true, beq_iff_eq, List.contains_iff_mem] at hg
    rcases hg with hg | hg
    · rw [← hg]; exact he
    · have := ok.code_target he (M.pred _ hg).1
      exact absurd (kind_unique ok.distinct hc this) (by simp)
  have hmem : ∀ a, a ∈ ((h.cutIn c).drop c).nodes ↔ a ∈ h.nodes ∧ a.1 ≠ c := by
    intro a; simp [FG.drop, FG.cutIn]
  have hedm : ∀ e, e ∈ ((h.cutIn c).drop c).edges ↔ e ∈ h.edges ∧ e.2 ≠ c := by
    intro e; simp [FG.drop, FG.cutIn]
  have hin : ∀ e, e ∈ h.edges ↔ e ∈ g.edges ∧ FG.gone n D e = false := by
    intro e; rw [M.edges, List.mem_filter]; simp
  have hsrc : ∀ s, s ∈ (h.ins c).map (·.1) ↔ (s, c) ∈ h.edges := by
    intro s
    simp only [FG.ins, List.mem_map, List.mem_filter, beq_iff_eq]
    constructor
    · rintro ⟨⟨a, b⟩, ⟨h1, rfl⟩, rfl⟩; exact h1
    · intro h; exact ⟨_, ⟨h, rfl⟩, rfl⟩
  have hsacc : ∀ s, (s, c) ∈ h.edges → (s, true) ∈ g.nodes := fun s hs => ok.code_target (e := (s, c)) ((hin _).1 hs).1 hna
  exact {
    pred := fun c' hc' => by
      rcases List.mem_cons.1 hc' with rfl | hc'
      · exact ⟨hna, hce⟩
      · exact M.pred c' hc'
    edges := by
      simp only [FG.drop, FG.cutIn]
      rw [M.edges, List.filter_filter]
      congr 1
      funext e
      rw [FG.gone_cons]
      cases FG.gone n D e <;> cases h : (e.2 == c) <;> simp [bne, h]
    sub := fun a ha => M.sub a ((hmem a).1 ha).1
    sublist := List.Sublist.trans List.filter_sublist M.sublist
    code := fun c' hc' => by
      rw [hmem, M.code c' hc', List.mem_cons, not_or]
      exact ⟨fun h => ⟨h.2, h.1⟩, fun h => ⟨h.2, h.1⟩⟩
    self := by rw [hmem, ← M.self]; exact ⟨fun h => h.1, fun h => ⟨h, fun e => hcn e.symm⟩⟩
    acc := fun s h1 h2 h3 => by
      have hsc : s ≠ c := by
        rintro rfl
        exact absurd (kind_unique ok.distinct hc h2) (by simp)
      obtain ⟨a, b, e, he, hes, heg⟩ := M.acc s h1 h2 fun h => h3 ((hmem _).2 ⟨h, hsc⟩)
      refine ⟨FG.isolated_mono (fun e he => ((hedm e).1 he).1) a, ?_, e, he, hes, FG.gone_mono heg⟩
      intro hq
      rcases List.mem_append.1 hq with hq | hq
      · exact b (List.mem_cons_of_mem _ hq)
      · exact ((h.isolated_iff s).1 a _ ((hsrc s).1 hq)).1 rfl
    pend := fun c' h1 h2 h3 => by
      rw [List.mem_cons, not_or] at h3
      rcases List.mem_cons.1 (M.pend c' h1 h2 h3.2) with rfl | h
      · exact absurd rfl h3.1
      · exact List.mem_append_left _ h
    qnode := fun hq => by
      rcases List.mem_append.1 hq with hq | hq
      · exact M.qnode (List.mem_cons_of_mem _ hq)
      · exact C.acyclic.2 c ((hin _).1 ((hsrc n).1 hq)).1 hce
    qfrom := fun s hs => by
      rcases List.mem_append.1 hs with hs | hs
      · obtain ⟨e, h1, h2, h3⟩ := M.qfrom s (List.mem_cons_of_mem _ hs)
        exact ⟨e, h1, h2, FG.gone_mono h3⟩
      · exact ⟨(s, c), ((hin _).1 ((hsrc s).1 hs)).1, rfl, by rw [FG.gone_cons]; simp⟩
    qcount := fun s => by
      have e1 : (g.edges.filter fun e => e.1 == s && FG.gone n (c :: D) e).length =
          (g.edges.filter fun e => e.1 == s && FG.gone n D e).length + (g.edges.filter fun e => e.1 == s && (!FG.gone n D e && e.2 == c)).length := by
        rw [← filter_split_length]
        congr 2
        funext e
        rw [FG.gone_cons]
      have e2 : ((h.ins c).map (·.1)).count s = (g.edges.filter fun e => e.1 == s && (!FG.gone n D e && e.2 == c)).length := by
        rw [FG.ins, count_sources, M.edges, List.filter_filter]
        congr 2
        funext e
        cases FG.gone n D e <;> simp
      rw [e1, List.count_append, e2]
      have h1 := M.qcount s
      rw [List.count_cons] at h1
      omega
    qdone := fun c' hc' hq => by
      have hc'n : (c', false) ∈ g.nodes := by
        rcases List.mem_cons.1 hc' with rfl | hc'
        · exact hc
        · obtain ⟨p1, p2⟩ := M.pred c' hc'
          have := (ok.ends _ p2).1
          obtain ⟨b, hb⟩ := (g.has_iff _).1 this
          cases b
          · exact hb
          · rw [(g.isAccess_iff _).2 hb] at p1; cases p1
      rcases List.mem_append.1 hq with hq1 | hq1
      · rcases List.mem_cons.1 hc' with rfl | hc'
        · have h1 := M.qcount c'
          rw [List.count_cons_self] at h1
          have h2 : 0 < q.count c' := List.count_pos_iff.2 hq1
          have h3 : (g.edges.filter fun e => e.1 == c' && FG.gone n D e).length ≤ (g.outs c').length := by
            apply filter_length_mono
            intro e he
            simp only [Bool.and_eq_true] at he
            exact he.1
          rw [C.single c' hna hce] at h3
          simp only [List.length_singleton] at h3
          omega
        · exact M.qdone c' hc' (List.mem_cons_of_mem _ hq1)
      · exact absurd (kind_unique ok.distinct hc'n (hsacc _ ((hsrc c').1 hq1))) (by simp)
    left := fun s h1 h2 h3 h4 => by
      have h2' := (hmem _).1 h2
      by_cases hs : (s, c) ∈ h.edges
      · exact List.mem_append_right _ ((hsrc s).2 hs)
      · have hi : h.isolated s = true := by
          rw [FG.isolated_iff] at h3 ⊢
          intro e he
          by_cases hec : e.2 = c
          · refine ⟨fun hes => hs ?_, fun hes => h2'.2 (by simp only; rw [← hes, hec])⟩
            rw [← hes, ← hec]; exact he
          · exact h3 e ((hedm e).2 ⟨he, hec⟩)
        obtain ⟨e, he, hes, heg⟩ := h4
        have hgD : FG.gone n D e = true := by
          rw [FG.gone_cons, Bool.or_eq_true] at heg
          rcases heg with heg | heg
          · exact heg
          · refine Classical.byContradiction fun hb => hs ?_
            have : e ∈ h.edges := (hin e).2 ⟨he, by simpa using hb⟩
            rw [← hes, ← (beq_iff_eq.1 heg)]; exact this
        rcases List.mem_cons.1 (M.left s h1 h2'.1 hi ⟨e, he, hes, hgD⟩) with rfl | h
        · exact absurd rfl h2'.2
        · exact List.mem_append_left _ h }

include ok C in
theorem FG.Mid.run (k : Nat) : ∀ {D queue : List Nat} {h : FG}, 2 * h.edges.length + queue.length < k → g.Mid n D queue h →
    ∃ D' h', FG.clearLoop n queue h = some h' ∧ g.Mid n D' [] h' := by
  induction k with
  | zero => intro D queue h hk; omega
  | succ k ih =>
    intro D queue h hk M
    match queue, hk, M with
    | [], _, M => exact ⟨D, h, by rw [FG.clearLoop], M⟩
    | c :: q, hk, M =>
      have hcn : c ≠ n := fun e => M.qnode (by rw [e]; exact List.mem_cons_self ..)
      have hg : ∃ b, (c, b) ∈ g.nodes := by
        obtain ⟨e, he, rfl, _⟩ := M.qfrom c (List.mem_cons_self ..)
        exact (g.has_iff _).1 (ok.ends e he).1
      obtain ⟨b, hb⟩ := hg
      have hcut := h.ins_cut c
      simp only [List.length_cons] at hk
      cases b
      · have halive : h.has c = true := (h.has_iff c).2 ⟨false, (M.code c hb).2 fun hd => M.qdone c hd (List.mem_cons_self ..)⟩
        have hna : h.isAccess c = false := by
          rw [← Bool.not_eq_true, FG.isAccess_iff]
          intro h'
          exact absurd (kind_unique ok.distinct hb (M.sub _ h')) (by simp)
        obtain ⟨D', h', h1, h2⟩ := ih (queue := q ++ (h.ins c).map (·.1)) (h := (h.cutIn c).drop c)
          (by simp only [List.length_append, List.length_map, FG.drop]; omega) (M.code_step ok C hb)
        refine ⟨D', h', ?_, h2⟩
        conv => lhs; rw [FG.clearLoop]
        simp only [halive, hna, Bool.false_eq_true, false_and, and_false, if_false, hcn, ne_eq, not_false_eq_true, true_or, if_true, Bool.true_eq_false]
        exact h1
      · have hacc : (c, true) ∈ h.nodes := by
          refine Classical.byContradiction fun hc => ?_
          exact (M.acc c hcn hb hc).2.1 (List.mem_cons_self ..)
        have halive : h.has c = true := (h.has_iff c).2 ⟨true, hacc⟩
        have ha : h.isAccess c = true := (h.isAccess_iff c).2 hacc
        have hga : g.isAccess c = true := (g.isAccess_iff c).2 hb
        cases hi : h.isolated c
        · obtain ⟨D', h', h1, h2⟩ := ih (queue := q) (h := h) (by omega) (M.skip hga hi)
          refine ⟨D', h', ?_, h2⟩
          conv => lhs; rw [FG.clearLoop]
          simp only [halive, ha, hi, hcn, ne_eq, not_false_eq_true, true_and, if_true, Bool.true_eq_false, if_false]
          exact h1
        · have hnil : h.ins c = [] := by
            simp only [FG.isolated, Bool.and_eq_true, List.isEmpty_iff] at hi
            exact hi.1
          obtain ⟨D', h', h1, h2⟩ := ih (queue := q) (h := (h.cutIn c).drop c)
            (by simp only [FG.drop]; omega) (M.free C hb hi hga fun b' hb' => kind_unique ok.distinct hb' hb)
          refine ⟨D', h', ?_, h2⟩
          conv => lhs; rw [FG.clearLoop]
          simp only [halive, ha, hi, hcn, ne_eq, not_false_eq_true, true_and, if_true, Bool.true_eq_false, if_false, true_or, hnil, List.map_nil, List.append_nil]
          exact h1

include ok C in
/-- the first visit -/
theorem FG.Mid.start : g.Mid n [] ((g.ins n).map (·.1)) (if g.outs n = [] then (g.cutIn n).drop n else g.cutIn n) := by
  have hed : (if g.outs n = [] then (g.cutIn n).drop n else g.cutIn n).edges = g.edges.filter fun e => e.2 != n := by
    split <;> rfl
  have hmem : ∀ a, a ∈ (if g.outs n = [] then (g.cutIn n).drop n else g.cutIn n).nodes ↔ a ∈ g.nodes ∧ (g.outs n = [] → a.1 ≠ n) := by
    intro a
    split
    · rename_i h; simp [FG.drop, FG.cutIn, h]
    · rename_i h; simp [FG.cutIn, h]
  have hsrc : ∀ s, s ∈ (g.ins n).map (·.1) ↔ (s, n) ∈ g.edges := by
    intro s
    simp only [FG.ins, List.mem_map, List.mem_filter, beq_iff_eq]
    constructor
    · rintro ⟨⟨a, b⟩, ⟨h1, rfl⟩, rfl⟩; exact h1
    · intro h; exact ⟨_, ⟨h, rfl⟩, rfl⟩
  have hgone : ∀ e, FG.gone n [] e = (e.2 == n) := fun e => by simp [FG.gone]
  exact {
    pred := fun c hc => by cases hc
    edges := by rw [hed]; congr 1; funext e; rw [hgone]; rfl
    sub := fun a ha => ((hmem a).1 ha).1
    sublist := by
      split
      · exact List.filter_sublist
      · exact List.Sublist.refl _
    code := fun c hc => by
      rw [hmem]
      refine ⟨fun _ => by simp, fun _ => ⟨hc, fun _ e => ?_⟩⟩
      simp only at e
      subst e
      exact absurd (kind_unique ok.distinct hc C.access) (by simp)
    self := by
      rw [hmem]
      exact ⟨fun h e => h.2 e rfl, fun h => ⟨C.access, fun e => absurd e h⟩⟩
    acc := fun s h1 h2 h3 => absurd ((hmem _).2 ⟨h2, fun _ => h1⟩) h3
    pend := fun c _ h2 _ => (hsrc c).2 h2
    qnode := fun h => C.acyclic.1 ((hsrc n).1 h)
    qfrom := fun s hs => ⟨_, (hsrc s).1 hs, rfl, by rw [hgone]; simp⟩
    qcount := fun s => by
      rw [FG.ins, count_sources]
      apply filter_length_mono
      intro e he
      rw [hgone]; exact he
    qdone := fun c hc => by cases hc
    left := fun s h1 h2 h3 h4 => by
      obtain ⟨e, he, rfl, heg⟩ := h4
      rw [hgone, beq_iff_eq] at heg
      rw [hsrc, ← heg]; exact he }

include ok C in
theorem FG.clearAccess_mid : ∃ D h, g.clearAccess n = some h ∧ g.Mid n D [] h := by
  obtain ⟨D, h, h1, h2⟩ := FG.Mid.run ok C _ (Nat.lt_succ_self _) (FG.Mid.start ok C)
  refine ⟨D, h, ?_, h2⟩
  have halive : g.has n = true := (g.has_iff n).2 ⟨true, C.access⟩
  have hout : (g.cutIn n).outs n = g.outs n := by
    simp only [FG.outs, FG.cutIn, List.filter_filter]
    apply List.filter_congr
    intro e he
    by_cases h1 : e.1 = n
    · have : e.2 ≠ n := fun h2 => C.acyclic.1 (by have : e = (n, n) := Prod.ext h1 h2; rw [← this]; exact he)
      simp [h1, this]
    · simp [h1]
  unfold FG.clearAccess
  rw [FG.clearLoop]
  simp only [halive, ne_eq, not_true_eq_false, false_and, if_false, Bool.true_eq_false, false_or, hout, List.nil_append]
  exact h1

end

/-- **C89 (access nodes; partial).** On a valid graph, clearing an access node that meets `Clearable` ends without touching destroyed nodes and leaves a valid
graph.  It has lost exactly the memlets into the node and into the tasklets and library nodes that computed it; these code nodes are gone, the
node itself is gone unless it is still read, and of the other access nodes exactly those are gone that had no other memlets.  Missing: nodes that are
not `Clearable` (`clear_access_twice_violated`, `clear_access_dangling_violated`). -/
theorem clear_access_partial (g : FG) (ok : g.Ok) (n : Nat) (C : g.Clearable n) : ∃ h, g.clearAccess n = some h ∧ h.Ok ∧
    h.edges = g.edges.filter (fun e => !g.goes n e) ∧
    ∀ a, a ∈ h.nodes ↔ a ∈ g.nodes ∧ (a.1 = n → ∃ e ∈ g.edges, e.1 = n) ∧ (a.2 = false → (a.1, n) ∉ g.edges) ∧
      (a.2 = true → a.1 ≠ n → (∃ e ∈ g.edges, e.1 = a.1 ∧ g.goes n e = true) →
        ∃ e ∈ g.edges, (e.1 = a.1 ∨ e.2 = a.1) ∧ g.goes n e = false) := by
  obtain ⟨D, h, h1, M⟩ := FG.clearAccess_mid ok C
  have hgg : ∀ e, FG.gone n D e = g.goes n e := by
    intro e
    refine Bool.eq_iff_iff.2 ⟨M.gone_goes, fun hg => ?_⟩
    simp only [FG.gone, FG.goes, Bool.or_eq_true, beq_iff_eq, List.contains_iff_mem, Bool.and_eq_true, Bool.not_eq_true'] at hg ⊢
    rcases hg with hg | hg
    · exact Or.inl hg
    · refine Or.inr (Classical.byContradiction fun hd => ?_)
      have := M.pend _ hg.2 hg.1 hd
      cases this
  have hedges : h.edges = g.edges.filter (fun e => !g.goes n e) := by
    rw [M.edges]; congr 1; funext e; rw [hgg]
  have hein : ∀ e, e ∈ h.edges ↔ e ∈ g.edges ∧ g.goes n e = false := by
    intro e; rw [hedges, List.mem_filter]; simp
  have hnodes : ∀ a, a ∈ h.nodes ↔ a ∈ g.nodes ∧ (a.1 = n → ∃ e ∈ g.edges, e.1 = n) ∧ (a.2 = false → (a.1, n) ∉ g.edges) ∧
      (a.2 = true → a.1 ≠ n → (∃ e ∈ g.edges, e.1 = a.1 ∧ g.goes n e = true) →
        ∃ e ∈ g.edges, (e.1 = a.1 ∨ e.2 = a.1) ∧ g.goes n e = false) := by
    intro ⟨s, b⟩
    simp only
    have hDs : ∀ c, (c, false) ∈ g.nodes → (c ∈ D ↔ (c, n) ∈ g.edges) := by
      intro c hc
      refine ⟨fun hd => (M.pred c hd).2, fun he => Classical.byContradiction fun hd => ?_⟩
      have := M.pend c (ok.not_access hc) he hd
      cases this
    constructor
    · intro ha
      have hg := M.sub _ ha
      refine ⟨hg, ?_, ?_, ?_⟩
      · rintro rfl
        have : b = true := kind_unique ok.distinct hg C.access
        subst this
        have := M.self.1 ha
        obtain ⟨e, he⟩ := List.exists_mem_of_ne_nil _ this
        simp only [FG.outs, List.mem_filter, beq_iff_eq] at he
        exact ⟨e, he.1, he.2⟩
      · rintro rfl he
        exact (M.code s hg).1 ha ((hDs s hg).2 he)
      · rintro rfl hsn ⟨e, he, hes, heg⟩
        refine Classical.byContradiction fun hc => ?_
        have hi : h.isolated s = true := by
          rw [FG.isolated_iff]
          intro e' he'
          obtain ⟨g1, g2⟩ := (hein e').1 he'
          exact ⟨fun h => hc ⟨e', g1, Or.inl h, g2⟩, fun h => hc ⟨e', g1, Or.inr h, g2⟩⟩
        have := M.left s hsn ha hi ⟨e, he, hes, by rw [hgg]; exact heg⟩
        cases this
    · rintro ⟨hg, h2, h3, h4⟩
      cases b
      · exact (M.code s hg).2 fun hd => h3 rfl ((hDs s hg).1 hd)
      · by_cases hsn : s = n
        · subst hsn
          refine M.self.2 fun hnil => ?_
          obtain ⟨e, he, hes⟩ := h2 rfl
          have : e ∈ g.outs s := by simp only [FG.outs, List.mem_filter, beq_iff_eq]; exact ⟨he, hes⟩
          rw [hnil] at this; cases this
        · refine Classical.byContradiction fun hc => ?_
          obtain ⟨hi, _, e, he, hes, heg⟩ := M.acc s hsn hg hc
          obtain ⟨e', he', hes', heg'⟩ := h4 rfl hsn ⟨e, he, hes, by rw [← hgg]; exact heg⟩
          have := (h.isolated_iff s).1 hi e' ((hein e').2 ⟨he', heg'⟩)
          rcases hes' with h' | h'
          · exact this.1 h'
          · exact this.2 h'
  have hkeep : ∀ e ∈ h.edges, ∀ a ∈ g.nodes, (e.1 = a.1 ∨ e.2 = a.1) → a ∈ h.nodes := by
    intro e he a ha hea
    obtain ⟨g1, g2⟩ := (hein e).1 he
    refine (hnodes a).2 ⟨ha, ?_, ?_, fun _ _ _ => ⟨e, g1, hea, g2⟩⟩
    · intro han
      rcases hea with h | h
      · exact ⟨e, g1, h.trans han⟩
      · exfalso
        simp [FG.goes, h, han] at g2
    · intro ha2 hp
      have hna : g.isAccess a.1 = false := ok.not_access (by rw [← ha2]; exact ha)
      rcases hea with h | h
      · have hmem : e ∈ g.outs a.1 := by simp only [FG.outs, List.mem_filter, beq_iff_eq]; exact ⟨g1, h⟩
        rw [C.single a.1 hna hp, List.mem_singleton] at hmem
        rw [hmem] at g2
        simp [FG.goes] at g2
      · simp [FG.goes, h, hp, hna] at g2
  refine ⟨h, h1, ⟨?_, ?_, ?_⟩, hedges, hnodes⟩
  · exact List.Nodup.sublist (List.Sublist.map _ M.sublist) ok.distinct
  · intro e he
    have g1 := ((hein e).1 he).1
    obtain ⟨e1, e2⟩ := ok.ends e g1
    obtain ⟨b1, e1⟩ := (g.has_iff _).1 e1
    obtain ⟨b2, e2⟩ := (g.has_iff _).1 e2
    exact ⟨(h.has_iff _).2 ⟨b1, hkeep e he _ e1 (Or.inl rfl)⟩, (h.has_iff _).2 ⟨b2, hkeep e he _ e2 (Or.inr rfl)⟩⟩
  · intro e he
    have g1 := ((hein e).1 he).1
    rcases ok.mixed e g1 with h' | h'
    · left; rw [FG.isAccess_iff] at h' ⊢; exact hkeep e he _ h' (Or.inl rfl)
    · right; rw [FG.isAccess_iff] at h' ⊢; exact hkeep e he _ h' (Or.inr rfl)

theorem FG.Ok.of_decide (g : FG) (h1 : (g.nodes.map (·.1)).Nodup) (h2 : (g.edges.all fun e => g.has e.1 && g.has e.2) = true)
    (h3 : (g.edges.all fun e => g.isAccess e.1 || g.isAccess e.2) = true) : g.Ok :=
  ⟨h1, fun e he => by simpa using List.all_eq_true.1 h2 e he, fun e he => by simpa using List.all_eq_true.1 h3 e he⟩

/-- `y = x + z; p = &y; w = z` -/
def exClr : FG := ⟨[(0, true), (1, true), (2, false), (3, true), (4, true), (5, false), (6, true)], [(0, 2), (1, 2), (2, 3), (3, 4), (1, 5), (5, 6)]⟩

/-- Non-vacuity: clearing `y` (still aliased by `p`) removes the addition and `x`, clearing `p` only `p`. -/
example : exClr.Ok ∧ exClr.Clearable 3 ∧ exClr.Clearable 4 ∧
    (exClr.clearAccess 3).map (·.nodes) = some [(1, true), (3, true), (4, true), (5, false), (6, true)] ∧
    (exClr.clearAccess 4).map (·.edges) = some [(0, 2), (1, 2), (2, 3), (1, 5), (5, 6)] := by
  have hacc : ∀ c, exClr.isAccess c = true ↔ c = 0 ∨ c = 1 ∨ c = 3 ∨ c = 4 ∨ c = 6 := by
    intro c; simp [FG.isAccess, exClr]
  have clr : ∀ n, (n, true) ∈ exClr.nodes → (n = 3 ∨ n = 4) → exClr.Clearable n := by
    intro n hn hcase
    refine ⟨hn, ?_, ?_, ?_⟩
    · rcases hcase with rfl | rfl <;> simp [exClr] <;> omega
    · intro c h1 h2
      rcases hcase with rfl | rfl
      · simp [exClr] at h2; subst h2; decide
      · simp [exClr] at h2; subst h2; exact absurd h1 (by decide)
    · intro s h1 h2 h3
      rw [hacc] at h2
      rcases hcase with rfl | rfl <;> rcases h2 with rfl | rfl | rfl | rfl | rfl <;> first
        | (exfalso; revert h3; decide)
        | exact absurd rfl h1
  refine ⟨FG.Ok.of_decide _ (by decide) (by decide) (by decide), clr 3 (by decide) (Or.inl rfl), clr 4 (by decide) (Or.inr rfl), ?_, ?_⟩
  · simp [exClr, FG.clearAccess, FG.clearLoop, FG.has, FG.isAccess, FG.isolated, FG.ins, FG.outs, FG.cutIn, FG.drop]
  · simp [exClr, FG.clearAccess, FG.clearLoop, FG.has, FG.isAccess, FG.isolated, FG.ins, FG.outs, FG.cutIn, FG.drop]

/-- **C89, violated.** `y = x * x` with one access node for `x`: clearing `y` visits the access node of `x` twice, the second time after it was destroyed. -/
theorem clear_access_twice_violated : ∃ (g : FG) (n : Nat), g.Ok ∧ (n, true) ∈ g.nodes ∧ g.clearAccess n = none := by
  refine ⟨⟨[(0, true), (1, false), (2, true)], [(0, 1), (0, 1), (1, 2)]⟩, 2, FG.Ok.of_decide _ (by decide) (by decide) (by decide), by decide, ?_⟩
  simp [FG.clearAccess, FG.clearLoop, FG.has, FG.isAccess, FG.isolated, FG.ins, FG.outs, FG.cutIn, FG.drop]

/-- **C89, violated.** A library node with two outputs: clearing one output destroys the library node, although the other is still used; its memlet starts nowhere. -/
theorem clear_access_dangling_violated : ∃ (g h : FG) (n : Nat), g.Ok ∧ (n, true) ∈ g.nodes ∧ g.clearAccess n = some h ∧ ¬ h.Ok := by
  refine ⟨⟨[(0, true), (1, false), (2, true), (3, true)], [(0, 1), (1, 2), (1, 3)]⟩, ⟨[(3, true)], [(1, 3)]⟩, 2,
    FG.Ok.of_decide _ (by decide) (by decide) (by decide), by decide, ?_, fun hok => ?_⟩
  · simp [FG.clearAccess, FG.clearLoop, FG.has, FG.isAccess, FG.isolated, FG.ins, FG.outs, FG.cutIn, FG.drop]
  · have := (hok.ends (1, 3) (by decide)).1
    revert this; decide

end Docc.Builder
