import Verif.IR.PipelineLemmas

/-
C88: pipelines stop at a fixed point of all their passes, what they report is what they did, they keep what every pass keeps, and
the analyses left in the cache are those of the resulting program.
-/
namespace Docc.IR
open Docc.Sym

variable {P K V : Type}

/-- every cached analysis is the analysis of the current program -/
def Fresh (an : P → K → V) (x : P × (K → Option V)) : Prop := ∀ k v, x.2 k = some v → v = an x.1 k

/-- What a pass promises (with `an` the results of the analyses): given correct cached analyses, it behaves as with an empty cache;
if it reports no change it made none and only added correct analyses to the cache. -/
structure Pass.Honest (an : P → K → V) (p : Pass P K V) : Prop where
  same : ∀ x, Fresh an x → (p.run x.1 x.2).1 = (p.run x.1 fun _ => none).1 ∧ (p.run x.1 x.2).2.2 = (p.run x.1 fun _ => none).2.2
  silent : ∀ x, Fresh an x → (p.run x.1 x.2).2.2 = false → (p.run x.1 x.2).1 = x.1
  caches : ∀ x, Fresh an x → (p.run x.1 x.2).2.2 = false → Fresh an (x.1, (p.run x.1 x.2).2.1)

theorem Pass.exec_true {p : Pass P K V} {x y : P × (K → Option V)} (h : p.exec x = (y, true)) :
    y.1 = (p.run x.1 x.2).1 ∧ (p.run x.1 x.2).2.2 = true ∧ ∀ k, y.2 k = none := by
  unfold Pass.exec at h
  generalize p.run x.1 x.2 = r at h
  obtain ⟨s, c, b⟩ := r
  cases b
  · simp at h
  · simp only [Prod.mk.injEq, and_true] at h
    exact ⟨by rw [← h], rfl, fun k => by rw [← h]⟩

theorem Pass.exec_false {p : Pass P K V} {x y : P × (K → Option V)} (h : p.exec x = (y, false)) :
    y = ((p.run x.1 x.2).1, (p.run x.1 x.2).2.1) ∧ (p.run x.1 x.2).2.2 = false := by
  unfold Pass.exec at h
  generalize p.run x.1 x.2 = r at h
  obtain ⟨s, c, b⟩ := r
  cases b
  · simp only [Prod.mk.injEq, and_true] at h
    exact ⟨h.symm, rfl⟩
  · simp at h

/-- the program after a pass -/
theorem Pass.exec_prog {p : Pass P K V} {x y : P × (K → Option V)} {b : Bool} (h : p.exec x = (y, b)) :
    y.1 = (p.run x.1 x.2).1 ∧ (p.run x.1 x.2).2.2 = b := by
  cases b
  · obtain ⟨h1, h2⟩ := Pass.exec_false h; exact ⟨by rw [h1], h2⟩
  · obtain ⟨h1, h2, _⟩ := Pass.exec_true h; exact ⟨h1, h2⟩

theorem Pass.exec_fresh {an : P → K → V} {p : Pass P K V} (hp : p.Honest an) {x y : P × (K → Option V)} {b : Bool}
    (h : p.exec x = (y, b)) (hx : Fresh an x) : Fresh an y ∧ (b = false → y.1 = x.1) := by
  cases b
  · obtain ⟨h1, h2⟩ := Pass.exec_false h
    have hs := hp.silent x hx h2
    have hc := hp.caches x hx h2
    rw [h1]
    exact ⟨by rw [hs]; exact hc, fun _ => hs⟩
  · obtain ⟨_, _, h3⟩ := Pass.exec_true h
    exact ⟨fun k v hk => (by rw [h3] at hk; cases hk), by simp⟩

theorem Pass.exec_idle {an : P → K → V} {p : Pass P K V} (hp : p.Honest an) {x y z : P × (K → Option V)} (h : p.exec x = (y, false))
    (hx : Fresh an x) (hz : Fresh an z) (e : z.1 = x.1) : ∃ w, p.exec z = (w, false) ∧ w.1 = z.1 := by
  obtain ⟨_, h2⟩ := Pass.exec_false h
  rw [(hp.same x hx).2, ← e, ← (hp.same z hz).2] at h2
  have hs := hp.silent z hz h2
  refine ⟨((p.run z.1 z.2).1, (p.run z.1 z.2).2.1), ?_, hs⟩
  unfold Pass.exec
  generalize p.run z.1 z.2 = r at h2
  obtain ⟨s, c, b⟩ := r
  simp only at h2
  subst h2
  rfl

/-! ### the loops -/

theorem Rep.facts {an : P → K → V} {p : Pass P K V} (hp : p.Honest an) {x y : P × (K → Option V)} {b : Bool} (h : Rep p x y b)
    (hx : Fresh an x) : Fresh an y ∧ (b = false → y.1 = x.1) ∧ ∃ w, p.exec y = (w, false) ∧ w.1 = y.1 := by
  induction h with
  | done e =>
    obtain ⟨h1, h2⟩ := Pass.exec_fresh hp e hx
    exact ⟨h1, h2, Pass.exec_idle hp e hx h1 (h2 rfl)⟩
  | more e _ ih =>
    obtain ⟨h1, _⟩ := Pass.exec_fresh hp e hx
    obtain ⟨h2, _, h3⟩ := ih h1
    exact ⟨h2, by simp, h3⟩

theorem Sweep.facts {an : P → K → V} {ps : List (Pass P K V)} (hp : ∀ p ∈ ps, p.Honest an) {x y : P × (K → Option V)} {b : Bool}
    (h : Sweep ps x y b) (hx : Fresh an x) : Fresh an y ∧ (b = false → y.1 = x.1 ∧ ∀ p ∈ ps, ∃ w, p.exec y = (w, false) ∧ w.1 = y.1) := by
  induction h with
  | nil => exact ⟨hx, fun _ => ⟨rfl, fun _ h => absurd h (by simp)⟩⟩
  | @cons p ps x y z a b hr _ ih =>
    have hpp := hp p (by simp)
    obtain ⟨h1, h2, w, h3, h3'⟩ := Rep.facts hpp hr hx
    obtain ⟨h4, h5⟩ := ih (fun q hq => hp q (by simp [hq])) h1
    refine ⟨h4, fun hb => ?_⟩
    simp only [Bool.or_eq_false_iff] at hb
    obtain ⟨h6, h7⟩ := h5 hb.2
    refine ⟨h6.trans (h2 hb.1), fun q hq => ?_⟩
    rcases List.mem_cons.1 hq with rfl | hq
    · exact Pass.exec_idle hpp h3 h1 h4 h6
    · exact h7 q hq

/-- **C88 (a pipeline ends at a fixed point).** When the pipeline returns, no pass reports or makes a change on the resulting program;
if the pipeline reports no change the program is unchanged; and all analyses left in the cache are those of the resulting program. -/
theorem pipeline_fixed_point (an : P → K → V) (ps : List (Pass P K V)) (hp : ∀ p ∈ ps, p.Honest an) (x y : P × (K → Option V)) (b : Bool)
    (h : Pipe ps x y b) (hx : Fresh an x) :
    Fresh an y ∧ (b = false → y.1 = x.1) ∧ ∀ p ∈ ps, ∃ w, p.exec y = (w, false) ∧ w.1 = y.1 := by
  induction h with
  | done hs =>
    obtain ⟨h1, h2⟩ := Sweep.facts hp hs hx
    exact ⟨h1, fun _ => (h2 rfl).1, (h2 rfl).2⟩
  | more hs _ ih =>
    obtain ⟨h1, _⟩ := Sweep.facts hp hs hx
    obtain ⟨h2, _, h3⟩ := ih h1
    exact ⟨h2, by simp, h3⟩

/-! ### determinism -/

theorem Rep.det {p : Pass P K V} {x y z : P × (K → Option V)} {b c : Bool} (h : Rep p x y b) (h' : Rep p x z c) : y = z ∧ b = c := by
  induction h generalizing z c with
  | done e =>
    cases h' with
    | done e' => rw [e] at e'; exact ⟨congrArg Prod.fst e', rfl⟩
    | more e' _ => rw [e] at e'; simp at e'
  | more e _ ih =>
    cases h' with
    | done e' => rw [e] at e'; simp at e'
    | more e' h' =>
      rw [e] at e'
      have := congrArg Prod.fst e'
      simp only at this
      subst this
      exact ⟨(ih h').1, rfl⟩

theorem Sweep.det {ps : List (Pass P K V)} {x y z : P × (K → Option V)} {b c : Bool} (h : Sweep ps x y b) (h' : Sweep ps x z c) :
    y = z ∧ b = c := by
  induction h generalizing z c with
  | nil => cases h'; exact ⟨rfl, rfl⟩
  | cons hr _ ih =>
    cases h' with
    | cons hr' hs' =>
      obtain ⟨rfl, rfl⟩ := hr.det hr'
      obtain ⟨rfl, rfl⟩ := ih hs'
      exact ⟨rfl, rfl⟩

/-- **C88 (determinism).** A pipeline has at most one result. -/
theorem pipeline_deterministic (ps : List (Pass P K V)) (x y z : P × (K → Option V)) (b c : Bool) (h : Pipe ps x y b) (h' : Pipe ps x z c) :
    y = z ∧ b = c := by
  induction h generalizing z c with
  | done hs =>
    cases h' with
    | done hs' => exact ⟨(hs.det hs').1, rfl⟩
    | more hs' _ => exact absurd (hs.det hs').2 (by simp)
  | more hs _ ih =>
    cases h' with
    | done hs' => exact absurd (hs.det hs').2 (by simp)
    | more hs' h' =>
      obtain ⟨rfl, _⟩ := hs.det hs'
      exact ⟨(ih _ _ h').1, rfl⟩

/-- **C88 (idempotence).** Running the pipeline again on its result returns false and changes nothing. -/
theorem pipeline_idempotent (an : P → K → V) (ps : List (Pass P K V)) (hp : ∀ p ∈ ps, p.Honest an) (x y : P × (K → Option V)) (b : Bool)
    (h : Pipe ps x y b) (hx : Fresh an x) : ∃ z, Pipe ps y z false ∧ z.1 = y.1 := by
  obtain ⟨hy, _, hf⟩ := pipeline_fixed_point an ps hp x y b h hx
  have go : ∀ (qs : List (Pass P K V)) (z : P × (K → Option V)), (∀ p ∈ qs, p ∈ ps) → Fresh an z → z.1 = y.1 →
      ∃ w, Sweep qs z w false ∧ w.1 = y.1 := by
    intro qs
    induction qs with
    | nil => intro z _ _ e; exact ⟨z, .nil, e⟩
    | cons q qs ih =>
      intro z hq hz e
      have hm := hq q (by simp)
      obtain ⟨w, hw, _⟩ := hf q hm
      obtain ⟨v, hv, hv'⟩ := Pass.exec_idle (hp q hm) hw hy hz e
      obtain ⟨u, hu, hu'⟩ := ih v (fun p h => hq p (by simp [h])) (Pass.exec_fresh (hp q hm) hv hz).1 (hv'.trans e)
      exact ⟨u, Sweep.cons (.done hv) hu, hu'⟩
  obtain ⟨z, hz, e⟩ := go ps y (fun _ h => h) hy rfl
  exact ⟨z, .done hz, e⟩

/-! ### what all passes keep, the pipeline keeps -/

theorem Rep.keeps {p : Pass P K V} (I : P → Prop) (R : P → P → Prop) (hr : ∀ s, R s s) (ht : ∀ a b c, R a b → R b c → R a c)
    (hp : ∀ s c, I s → I (p.run s c).1 ∧ R s (p.run s c).1) {x y : P × (K → Option V)} {b : Bool} (h : Rep p x y b) (hx : I x.1) :
    I y.1 ∧ R x.1 y.1 := by
  induction h with
  | done e => rw [(Pass.exec_prog e).1]; exact hp _ _ hx
  | @more x y z b e _ ih =>
    have e' := (Pass.exec_prog e).1
    have := hp x.1 x.2 hx
    rw [← e'] at this
    obtain ⟨h1, h2⟩ := ih this.1
    exact ⟨h1, ht _ _ _ this.2 h2⟩

theorem Sweep.keeps {ps : List (Pass P K V)} (I : P → Prop) (R : P → P → Prop) (hr : ∀ s, R s s) (ht : ∀ a b c, R a b → R b c → R a c)
    (hp : ∀ p ∈ ps, ∀ s c, I s → I (p.run s c).1 ∧ R s (p.run s c).1) {x y : P × (K → Option V)} {b : Bool} (h : Sweep ps x y b)
    (hx : I x.1) : I y.1 ∧ R x.1 y.1 := by
  induction h with
  | nil => exact ⟨hx, hr _⟩
  | cons h1 _ ih =>
    obtain ⟨h2, h3⟩ := h1.keeps I R hr ht (hp _ (by simp)) hx
    obtain ⟨h4, h5⟩ := ih (fun p h => hp p (by simp [h])) h2
    exact ⟨h4, ht _ _ _ h3 h5⟩

/-- **C88 (composition).** A pipeline keeps every invariant, and stays in every reflexive and transitive relation (such as "every
execution of the old program is one of the new"), that its passes keep. -/
theorem pipeline_keeps (ps : List (Pass P K V)) (I : P → Prop) (R : P → P → Prop) (hr : ∀ s, R s s) (ht : ∀ a b c, R a b → R b c → R a c)
    (hp : ∀ p ∈ ps, ∀ s c, I s → I (p.run s c).1 ∧ R s (p.run s c).1) (x y : P × (K → Option V)) (b : Bool) (h : Pipe ps x y b)
    (hx : I x.1) : I y.1 ∧ R x.1 y.1 := by
  induction h with
  | done hs => exact hs.keeps I R hr ht hp hx
  | more hs _ ih =>
    obtain ⟨h1, h2⟩ := hs.keeps I R hr ht hp hx
    obtain ⟨h3, h4⟩ := ih h1
    exact ⟨h3, ht _ _ _ h2 h4⟩

/-! ### termination -/

theorem Rep.total (p : Pass P K V) (m : P → Nat) (hp : ∀ s c, (p.run s c).2.2 = true → m (p.run s c).1 < m s)
    (hs : ∀ s c, m (p.run s c).1 ≤ m s) (x : P × (K → Option V)) : ∃ y b, Rep p x y b ∧ m y.1 ≤ m x.1 ∧ (b = true → m y.1 < m x.1) := by
  induction hn : m x.1 using Nat.strongRecOn generalizing x with
  | ind k ih =>
    subst hn
    obtain ⟨y, b, e⟩ : ∃ y b, p.exec x = (y, b) := ⟨_, _, rfl⟩
    obtain ⟨e1, e2⟩ := Pass.exec_prog e
    cases b
    · exact ⟨y, false, .done e, by rw [e1]; exact hs _ _, by simp⟩
    · have hlt : m y.1 < m x.1 := by rw [e1]; exact hp _ _ e2
      obtain ⟨z, b, h1, h2, _⟩ := ih (m y.1) hlt y rfl
      exact ⟨z, true, .more e h1, by omega, fun _ => by omega⟩

theorem Sweep.total (ps : List (Pass P K V)) (m : P → Nat) (hp : ∀ p ∈ ps, ∀ s c, (p.run s c).2.2 = true → m (p.run s c).1 < m s)
    (hs : ∀ p ∈ ps, ∀ s c, m (p.run s c).1 ≤ m s) (x : P × (K → Option V)) :
    ∃ y b, Sweep ps x y b ∧ m y.1 ≤ m x.1 ∧ (b = true → m y.1 < m x.1) := by
  induction ps generalizing x with
  | nil => exact ⟨x, false, .nil, Nat.le_refl _, by simp⟩
  | cons p ps ih =>
    obtain ⟨y, a, h1, h2, h3⟩ := Rep.total p m (hp p (by simp)) (hs p (by simp)) x
    obtain ⟨z, b, h4, h5, h6⟩ := ih (fun q h => hp q (by simp [h])) (fun q h => hs q (by simp [h])) y
    refine ⟨z, a || b, .cons h1 h4, by omega, fun h => ?_⟩
    simp only [Bool.or_eq_true] at h
    rcases h with h | h
    · have := h3 h; omega
    · have := h6 h; omega

/-- **C88 (termination).** The pipeline returns on every program if every reported change makes some size smaller. -/
theorem pipeline_terminates (ps : List (Pass P K V)) (m : P → Nat) (hp : ∀ p ∈ ps, ∀ s c, (p.run s c).2.2 = true → m (p.run s c).1 < m s)
    (hs : ∀ p ∈ ps, ∀ s c, m (p.run s c).1 ≤ m s) (x : P × (K → Option V)) : ∃ y b, Pipe ps x y b := by
  induction hn : m x.1 using Nat.strongRecOn generalizing x with
  | ind k ih =>
    subst hn
    obtain ⟨y, b, h1, _, h3⟩ := Sweep.total ps m hp hs x
    cases b
    · exact ⟨y, false, .done h1⟩
    · obtain ⟨z, b, h⟩ := ih _ (h3 rfl) y rfl
      exact ⟨z, true, .more h1 h⟩

/-- Without that the pipeline need not return: two passes that undo each other, each of which reports its changes truthfully. -/
theorem pipeline_diverges : ∃ ps : List (Pass Bool Unit Unit), (∀ p ∈ ps, p.Honest fun _ _ => ()) ∧
    (∀ p ∈ ps, ∀ x, ∃ y b, Rep p x y b) ∧ ¬ ∃ y b, Pipe ps (true, fun _ => none) y b := by
  let off : Pass Bool Unit Unit := ⟨fun s c => (false, c, s)⟩
  let on : Pass Bool Unit Unit := ⟨fun s c => (true, c, !s)⟩
  have key : ∀ (x : Bool × (Unit → Option Unit)), x.1 = true → ∀ y b, ¬ Sweep [off, on] x y b ∨ (b = true ∧ y.1 = true) := by
    intro x hx y b
    by_cases h : Sweep [off, on] x y b
    · right
      cases h with
      | @cons _ _ _ z _ a b' hr hs =>
        have ha : a = true := by
          cases hr with
          | done e => have := (Pass.exec_prog e).2; simp only [off] at this; rw [hx] at this; cases this
          | more _ _ => rfl
        cases hs with
        | @cons _ _ _ w _ a' b'' hr' hs' =>
          cases hs'
          refine ⟨by rw [ha]; rfl, ?_⟩
          have : ∀ {u v : Bool × (Unit → Option Unit)} {b : Bool}, Rep on u v b → v.1 = true := by
            intro u v b h
            induction h with
            | done e => exact (Pass.exec_prog e).1
            | more _ _ ih => exact ih
          exact this hr'
    · exact Or.inl h
  refine ⟨[off, on], ?_, ?_, ?_⟩
  · intro p hp
    simp only [List.mem_cons, List.not_mem_nil, or_false] at hp
    rcases hp with rfl | rfl
    · exact ⟨fun _ _ => ⟨rfl, rfl⟩, fun x _ h => h.symm, fun x _ _ _ _ _ => rfl⟩
    · exact ⟨fun _ _ => ⟨rfl, rfl⟩, fun x _ h => by simp only [on] at h ⊢; simpa using h, fun x _ _ _ _ _ => rfl⟩
  · intro p hp x
    simp only [List.mem_cons, List.not_mem_nil, or_false] at hp
    rcases hp with rfl | rfl
    · obtain ⟨s, c⟩ := x
      cases s
      · exact ⟨_, _, .done rfl⟩
      · exact ⟨_, _, .more rfl (.done rfl)⟩
    · obtain ⟨s, c⟩ := x
      cases s
      · exact ⟨_, _, .more rfl (.done rfl)⟩
      · exact ⟨_, _, .done rfl⟩
  · rintro ⟨y, b, h⟩
    have : ∀ {x y : Bool × (Unit → Option Unit)} {b : Bool}, Pipe [off, on] x y b → x.1 = true → False := by
      intro x y b h
      induction h with
      | done hs => intro hx; rcases key _ hx _ _ with h | h; exact h hs; cases h.1
      | more hs _ ih => intro hx; rcases key _ hx _ _ with h | h; exact h hs; exact ih h.2
    exact this h rfl

/-- A pass that changes the program without reporting it leaves outdated analyses in the cache. -/
theorem unreported_change_stale : ∃ (an : Nat → Unit → Nat) (p : Pass Nat Unit Nat) (x y : Nat × (Unit → Option Nat)), Fresh an x ∧
    (∀ s c, Fresh an (s, c) → Fresh an (s, (p.run s c).2.1)) ∧ Pipe [p] x y false ∧ ¬ Fresh an y :=
  ⟨fun s _ => s, ⟨fun s c => (s + 1, c, false)⟩, (3, fun _ => some 3), (4, fun _ => some 3),
    fun _ _ h => by simp at h; exact h.symm, fun _ _ h => h, .done (by exact Sweep.cons (.done rfl) .nil),
    fun h => by have := h () 3 rfl; simp at this⟩

/-! ### DeadCodeElimination -/

theorem deadCfgPass_honest (D : DCE) (an : Seq → K → V) : (deadCfgPass D K V).Honest an :=
  ⟨fun _ _ => ⟨rfl, rfl⟩, fun x _ h => (D.run_reports x.1).1 h, fun _ hx _ => hx⟩

theorem fusionPass_honest (an : Seq → K → V) : (fusionPass K V).Honest an :=
  ⟨fun _ _ => ⟨rfl, rfl⟩, fun x _ h => x.1.fuse_reports.1 h, fun _ hx _ => hx⟩

/-- **C88.** The pipeline DeadCodeElimination returns on every program, with one result.  On it neither pass finds anything, no sequence
is a direct child of a sequence, the cached analyses are those of the result, and a false report means the program was left alone. -/
theorem dead_code_pipeline (D : DCE) (an : Seq → K → V) (root : Seq) (cache : K → Option V) (hc : Fresh an (root, cache)) :
    ∃ out b, Pipe (deadCodePipeline D K V) (root, cache) out b ∧
      (∀ out' b', Pipe (deadCodePipeline D K V) (root, cache) out' b' → out' = out ∧ b' = b) ∧ Fresh an out ∧
      (b = false → out.1 = root) ∧ (b = true → out.1.amount < root.amount) ∧ D.run out.1 = out.1 ∧ out.1.fuse = out.1 ∧ out.1.flat := by
  have dec : ∀ p ∈ deadCodePipeline D K V, ∀ s c, (p.run s c).2.2 = true → (p.run s c).1.amount < s.amount := by
    intro p hp s c
    simp only [deadCodePipeline, List.mem_cons, List.not_mem_nil, or_false] at hp
    rcases hp with rfl | rfl
    · exact (D.run_reports s).2.1
    · exact s.fuse_reports.2.1
  have le : ∀ p ∈ deadCodePipeline D K V, ∀ s c, (p.run s c).1.amount ≤ s.amount := by
    intro p hp s c
    simp only [deadCodePipeline, List.mem_cons, List.not_mem_nil, or_false] at hp
    rcases hp with rfl | rfl
    · exact (D.run_reports s).2.2
    · exact s.fuse_reports.2.2
  have hh : ∀ p ∈ deadCodePipeline D K V, p.Honest an := by
    intro p hp
    simp only [deadCodePipeline, List.mem_cons, List.not_mem_nil, or_false] at hp
    rcases hp with rfl | rfl
    · exact deadCfgPass_honest D an
    · exact fusionPass_honest an
  obtain ⟨out, b, h⟩ := pipeline_terminates (deadCodePipeline D K V) Seq.amount dec le (root, cache)
  obtain ⟨h1, h2, h3⟩ := pipeline_fixed_point an _ hh _ _ _ h hc
  have hd : D.run out.1 = out.1 := by
    obtain ⟨w, hw, hw'⟩ := h3 (deadCfgPass D K V) (by simp [deadCodePipeline])
    rw [(Pass.exec_prog hw).1] at hw'
    exact hw'
  have hf : out.1.fuse = out.1 := by
    obtain ⟨w, hw, hw'⟩ := h3 (fusionPass K V) (by simp [deadCodePipeline])
    rw [(Pass.exec_prog hw).1] at hw'
    exact hw'
  refine ⟨out, b, h, fun o' b' h' => pipeline_deterministic _ _ _ _ _ _ h' h, h1, h2, fun hb => ?_, hd, hf, ?_⟩
  · subst hb
    cases h with
    | more hs hq =>
      obtain ⟨y, b, g1, _, g3⟩ := Sweep.total _ Seq.amount dec le (root, cache)
      obtain ⟨rfl, rfl⟩ := hs.det g1
      have := (pipeline_keeps _ (fun _ => True) (fun a b => b.amount ≤ a.amount) (fun _ => Nat.le_refl _)
        (fun _ _ _ h h' => Nat.le_trans h' h) (fun p hp s c _ => ⟨trivial, le p hp s c⟩) _ _ _ hq trivial).2
      have := g3 rfl
      simp only at *
      omega
  · rw [← hf]; exact out.1.fuse_flat

/-! ### the pipeline keeps the executions -/

mutual
theorem Node.fuse_noTrivial (D : DCE) : (n : Node) → n.noTrivial D → n.fuse.noTrivial D
  | .block _, _ => trivial
  | .seq s, h => s.fuse_noTrivial D h
  | .ifElse b, h => b.fuse_noTrivial D h
  | .whileL s, h => s.fuse_noTrivial D h
  | .loop _ _ _ _ _ s, h => ⟨h.1, s.fuse_noTrivial D h.2⟩
  | .brk, _ => trivial
  | .cont, _ => trivial
  | .ret _ _, _ => trivial
theorem Seq.fuse_noTrivial (D : DCE) : (s : Seq) → s.noTrivial D → s.fuse.noTrivial D
  | .nil, _ => trivial
  | .cons n t r, h => by
    have hr := r.fuse_noTrivial D h.2
    have hn := n.fuse_noTrivial D h.1
    by_cases hs : ∃ q, n = .seq q
    · obtain ⟨q, rfl⟩ := hs
      rw [Seq.fuse]
      exact ((okS_append (D := D) (b := false) q.fuse r.fuse).2 ⟨⟨hn, by simp⟩, ⟨hr, by simp⟩⟩).1
    · have e : (Seq.cons n t r).fuse = .cons n.fuse t r.fuse := by
        rw [Seq.fuse]; intro q hq; exact hs ⟨q, hq⟩
      rw [e]
      exact ⟨hn, hr⟩
theorem Brs.fuse_noTrivial (D : DCE) : (b : Brs) → b.noTrivial D → b.fuse.noTrivial D
  | .nil, _ => trivial
  | .cons _ s r, h => ⟨s.fuse_noTrivial D h.1, r.fuse_noTrivial D h.2⟩
end

mutual
theorem Node.flat_plain : (n : Node) → n.flat → n.plainSubs
  | .block _, _ => trivial
  | .seq s, h => s.flat_plain h
  | .ifElse b, h => b.flat_plain h
  | .whileL s, h => s.flat_plain h
  | .loop _ _ _ _ _ s, h => s.flat_plain h
  | .brk, _ => trivial
  | .cont, _ => trivial
  | .ret _ _, _ => trivial
theorem Seq.flat_plain : (s : Seq) → s.flat → s.plainSubs
  | .nil, _ => trivial
  | .cons n t r, h => ⟨fun hs => by rw [h.1] at hs; simp at hs, n.flat_plain h.2.1, r.flat_plain h.2.2⟩
theorem Brs.flat_plain : (b : Brs) → b.flat → b.plainSubs
  | .nil, _ => trivial
  | .cons _ s r, h => ⟨s.flat_plain h.1, r.flat_plain h.2⟩
end

theorem Seq.plain_append (a b : Seq) (ha : a.plainSubs) (hb : b.plainSubs) : (a ++ b).plainSubs := by
  match a with
  | .nil => exact hb
  | .cons n t r => exact ⟨ha.1, ha.2.1, Seq.plain_append r b ha.2.2 hb⟩

theorem DCE.seq1_plain (D : DCE) (s : Seq) (hT : s.noTrivial D) (hs : s.plainSubs) : (D.seq1 s).plainSubs := by
  induction hn : s.w using Nat.strongRecOn generalizing s with
  | ind k ih =>
  subst hn
  rw [DCE.seq1.eq_def]
  split
  · trivial
  · exact ⟨fun _ => rfl, trivial, trivial⟩
  · rename_i n t r _
    have hr := ih r.w (by simp only [Seq.w]; omega) r hT.2 hs.2.2 rfl
    have keep : (Seq.cons n [] (D.seq1 r)).plainSubs := ⟨fun _ => rfl, hs.2.1, hr⟩
    split
    · exact ⟨fun h => by rw [hs.1 h]; rfl, hs.2.1, hr⟩
    · split
      · exact hr
      · split
        · rename_i c s b _ _
          split
          · refine ih (s ++ r).w (by simp only [Seq.w, Node.w, Brs.w, Seq.w_append]; omega) _ ?_ ?_ rfl
            · exact ((okS_append (D := D) (b := false) s r).2 ⟨⟨hT.1.1, by simp⟩, ⟨hT.2, by simp⟩⟩).1
            · exact Seq.plain_append _ _ hs.2.1.1 hs.2.2
          · exact keep
        · rename_i i a c u s _ _
          split
          · rename_i ht
            have := hT.1.1 rfl
            rw [ht] at this; cases this
          · exact keep
        · exact keep

theorem Brs.plain_dropFalse : (b : Brs) → b.plainSubs → b.dropFalse.plainSubs
  | .nil, _ => trivial
  | .cons c s r, h => by
    rw [Brs.dropFalse]
    split
    · exact r.plain_dropFalse h.2
    · exact ⟨h.1, r.plain_dropFalse h.2⟩

theorem Brs.plain_dropLast : (b : Brs) → b.plainSubs → b.dropLast.plainSubs
  | .nil, _ => trivial
  | .cons c s .nil, h => by
    rw [Brs.dropLast]
    split
    · trivial
    · exact h
  | .cons c s (.cons c' s' r), h => by
    rw [Brs.dropLast]
    · exact ⟨h.1, Brs.plain_dropLast _ h.2⟩
    · simp

theorem Brs.plain_simple (b : Brs) (h : b.plainSubs) : b.simple.plainSubs := by
  unfold Brs.simple
  split
  · split
    · split
      · exact ⟨h.1, trivial⟩
      · split
        · exact h.2
        · exact h
    · exact h
  · exact h

/-- what DeadCFGElimination and SequenceFusion need -/
def Node.Clean (D : DCE) (n : Node) : Prop := n.noTrivial D ∧ n.plainSubs
/-- the same for a sequence -/
def Seq.Clean (D : DCE) (s : Seq) : Prop := s.noTrivial D ∧ s.plainSubs
/-- the same for cases -/
def Brs.Clean (D : DCE) (b : Brs) : Prop := b.noTrivial D ∧ b.plainSubs

theorem DCE.node_seq? (D : DCE) (n : Node) : (D.node n).seq?.isSome = n.seq?.isSome := by
  cases n <;> rw [DCE.node] <;> first | rfl | (intros; simp_all)

theorem DCE.clean_all (D : DCE) (hp : D.permissive = false) (E : Env) (k : Nat) :
    (∀ n : Node, n.w < k → n.Clean D → (D.node n).Clean D) ∧
    (∀ s : Seq, s.w < k → s.Clean D → (D.kids s).Clean D) ∧
    (∀ b : Brs, b.w < k → b.Clean D → (D.cases b).Clean D) := by
  induction k with
  | zero => exact ⟨fun _ h => absurd h (by omega), fun _ h => absurd h (by omega), fun _ h => absurd h (by omega)⟩
  | succ k ih =>
    obtain ⟨hN, hS, hB⟩ := ih
    have both : ∀ s : Seq, s.w < k → s.Clean D → (D.kids (D.seq1 s)).Clean D := fun s hs hc =>
      hS _ (Nat.lt_of_le_of_lt (D.w_seq1 s) hs) ⟨(seq1_ref E D hp false s ⟨hc.1, by simp⟩).2.1, D.seq1_plain s hc.1 hc.2⟩
    refine ⟨fun n hn hc => ?_, fun s hs hc => ?_, fun b hb hc => ?_⟩
    · match n with
      | .block l => rw [DCE.node] <;> first | exact hc | simp
      | .brk => rw [DCE.node] <;> first | exact hc | simp
      | .cont => rw [DCE.node] <;> first | exact hc | simp
      | .ret d q => rw [DCE.node] <;> first | exact hc | simp
      | .seq s => rw [DCE.node]; exact both s (by simp only [Node.w] at hn; omega) hc
      | .whileL s => rw [DCE.node]; exact both s (by simp only [Node.w] at hn; omega) hc
      | .loop m i a c u s =>
        rw [DCE.node]
        have := both s (by simp only [Node.w] at hn; omega) ⟨hc.1.2, hc.2⟩
        exact ⟨⟨hc.1.1, this.1⟩, this.2⟩
      | .ifElse b =>
        rw [DCE.node]
        exact hB _ (by have := Brs.w_dce b; simp only [Node.w] at hn; omega)
          ⟨(dce_den E D false b ⟨hc.1, by simp⟩).2.1, b.dropFalse.dropLast.plain_simple (Brs.plain_dropLast _ (Brs.plain_dropFalse _ hc.2))⟩
    · match s with
      | .nil => rw [DCE.kids]; exact ⟨trivial, trivial⟩
      | .cons n t r =>
        rw [DCE.kids]
        simp only [Seq.w] at hs
        have h1 := hN n (by omega) ⟨hc.1.1, hc.2.2.1⟩
        have h2 := hS r (by omega) ⟨hc.1.2, hc.2.2.2⟩
        exact ⟨⟨h1.1, h2.1⟩, ⟨fun h => hc.2.1 (by rw [← D.node_seq? n]; exact h), h1.2, h2.2⟩⟩
    · match b with
      | .nil => rw [DCE.cases]; exact ⟨trivial, trivial⟩
      | .cons c s r =>
        rw [DCE.cases]
        simp only [Brs.w] at hb
        have h1 := both s (by omega) ⟨hc.1.1, hc.2.1⟩
        have h2 := hB r (by omega) ⟨hc.1.2, hc.2.2⟩
        exact ⟨⟨h1.1, h2.1⟩, ⟨h1.2, h2.2⟩⟩

theorem DCE.clean_run (D : DCE) (hp : D.permissive = false) (s : Seq) (h : s.Clean D) : (D.run s).Clean D :=
  (D.clean_all hp exEnv ((D.seq1 s).w + 1)).2.1 _ (Nat.lt_succ_self _)
    ⟨(seq1_ref exEnv D hp false s ⟨h.1, by simp⟩).2.1, D.seq1_plain s h.1 h.2⟩

/-- **C88 (partial: the passes themselves are correct only then, C14 and C15).** If the program has no trivial Maps, no child sequence with
assignments on its transition, and DeadCFGElimination is not permissive, every execution of the program is an execution of what the
pipeline DeadCodeElimination makes of it. -/
theorem dead_code_pipeline_partial (E : Env) (D : DCE) (hp : D.permissive = false) (root : Seq) (hT : root.noTrivial D) (hq : root.plainSubs)
    (cache : K → Option V) (out : Seq × (K → Option V)) (b : Bool) (h : Pipe (deadCodePipeline D K V) (root, cache) out b)
    (σ : St) (c : Ctl) (σ' : St) (hr : root.den E σ c σ') : out.1.den E σ c σ' := by
  refine (pipeline_keeps (deadCodePipeline D K V) (Seq.Clean D) (fun a b => ∀ σ c σ', a.den E σ c σ' → b.den E σ c σ')
    (fun _ _ _ _ h => h) (fun _ _ _ h1 h2 σ c σ' h => h2 _ _ _ (h1 _ _ _ h)) ?_ _ _ _ h ⟨hT, hq⟩).2 σ c σ' hr
  intro p hp' s c hs
  simp only [deadCodePipeline, List.mem_cons, List.not_mem_nil, or_false] at hp'
  rcases hp' with rfl | rfl
  · exact ⟨D.clean_run hp s hs, dce_preserves_partial E D hp s hs.1⟩
  · refine ⟨⟨s.fuse_noTrivial D hs.1, s.fuse.flat_plain s.fuse_flat⟩, fun σ c σ' h => ?_⟩
    show s.fuse.den E σ c σ'
    rw [s.fuse_den E hs.2]; exact h

/-- Non-vacuity: `if (true) { { block; if (false) {..} } }`: DeadCFGElimination has to be run twice. -/
example : let p : Seq := .cons (.ifElse (.cons .tt (.cons (.seq (.cons (.block [.tasklet "one" [] "A" []]) [] (.cons (.ifElse (.cons .ff
      (.cons .brk [] .nil) .nil)) [] .nil))) [] .nil) .nil)) [] .nil
    p.noTrivial exDCE ∧ p.plainSubs ∧
    ∃ out, Pipe (deadCodePipeline exDCE Unit Unit) (p, fun _ => none) out true ∧ out.1 = .cons (.block [.tasklet "one" [] "A" []]) [] .nil := by
  refine ⟨by simp [Seq.noTrivial, Node.noTrivial, Brs.noTrivial], by simp [Seq.plainSubs, Node.plainSubs, Brs.plainSubs, Node.seq?], ?_⟩
  let blk : Node := .block [.tasklet "one" [] "A" []]
  let none' : Unit → Option Unit := fun _ => none
  have d : ∀ (s s' : Seq) (b : Bool), exDCE.run s = s' → exDCE.applied s = b → (deadCfgPass exDCE Unit Unit).exec (s, none') = ((s', none'), b) := by
    intro s s' b h1 h2
    subst h1 h2
    unfold Pass.exec deadCfgPass
    simp only
    cases exDCE.applied s <;> rfl
  have f : ∀ (s s' : Seq) (b : Bool), s.fuse = s' → s.fuseA = b → (fusionPass Unit Unit).exec (s, none') = ((s', none'), b) := by
    intro s s' b h1 h2
    subst h1 h2
    unfold Pass.exec fusionPass
    simp only
    cases s.fuseA <;> rfl
  have d1 := d (.cons (.ifElse (.cons .tt (.cons (.seq (.cons blk [] (.cons (.ifElse (.cons .ff (.cons .brk [] .nil) .nil)) [] .nil))) [] .nil)
    .nil)) [] .nil) (.cons (.seq (.cons blk [] (.cons (.ifElse .nil) [] .nil))) [] .nil) true
    (by simp [blk, DCE.run, DCE.seq1, DCE.kids, DCE.node, DCE.cases, dropSelf, DCE.isDead, Brs.isNil, Cond.isTT, Cond.isFF, Brs.dce, Brs.dropFalse,
      Brs.dropLast, Brs.simple, Seq.isNil])
    (by simp [DCE.applied, DCE.seq1A, dropSelf, DCE.isDead, DCE.opened, Brs.isNil, Cond.isTT])
  have d2 := d (.cons (.seq (.cons blk [] (.cons (.ifElse .nil) [] .nil))) [] .nil) (.cons (.seq (.cons blk [] .nil)) [] .nil) true
    (by simp [blk, DCE.run, DCE.seq1, DCE.kids, DCE.node, dropSelf, DCE.isDead, Brs.isNil, Seq.isNil])
    (by simp [blk, DCE.applied, DCE.seq1, DCE.kidsA, DCE.nodeA, DCE.seq1A, dropSelf, DCE.isDead, DCE.opened, Brs.isNil, Seq.isNil])
  have d3 := d (.cons (.seq (.cons blk [] .nil)) [] .nil) (.cons (.seq (.cons blk [] .nil)) [] .nil) false
    (by simp [blk, DCE.run, DCE.seq1, DCE.kids, DCE.node, dropSelf, DCE.isDead, Seq.isNil])
    (by simp [blk, DCE.applied, DCE.seq1, DCE.kidsA, DCE.nodeA, DCE.seq1A, dropSelf, DCE.isDead, DCE.opened, Seq.isNil])
  have f1 := f (.cons (.seq (.cons blk [] .nil)) [] .nil) (.cons blk [] .nil) true rfl rfl
  have f2 := f (.cons blk [] .nil) (.cons blk [] .nil) false rfl rfl
  have d4 := d (.cons blk [] .nil) (.cons blk [] .nil) false
    (by simp [blk, DCE.run, DCE.seq1, DCE.kids, DCE.node, dropSelf, DCE.isDead])
    (by simp [blk, DCE.applied, DCE.seq1, DCE.kidsA, DCE.nodeA, DCE.seq1A, dropSelf, DCE.isDead, DCE.opened])
  exact ⟨(.cons blk [] .nil, none'), .more (.cons (.more d1 (.more d2 (.done d3))) (.cons (.more f1 (.done f2)) .nil))
    (.done (.cons (.done d4) (.cons (.done f2) .nil))), rfl⟩

end Docc.IR
