import Verif.Struct.Unify
import Verif.Struct.Nested
import Verif.Struct.Viol

/-
C79: unifying loop exits.
-/
namespace Docc.Struct
open Docc.Sym Docc.IR

/-! ### the states of the loop -/

/-- From state `k` a path leads to `s` that meets `e` at most at its beginning. -/
inductive Mach.LoopPath (M : Mach) (s e : Nat) : Nat → Prop
  | last : LoopPath M s e s
  | step {k : Nat} {f : MEdge} : f ∈ (M.at k).out → f.dst ≠ e → LoopPath M s e f.dst → LoopPath M s e k

theorem at_lt {M : Mach} {k : Nat} {f : MEdge} (h : f ∈ (M.at k).out) : k < M.states.length := by
  rcases Nat.lt_or_ge k M.states.length with h' | h'
  · exact h'
  · unfold Mach.at at h
    rw [List.getD_eq_getElem?_getD, List.getElem?_eq_none h'] at h
    cases h

theorem mem_inE {M : Mach} {k p : Nat} : (∃ x ∈ M.inE k, x.1.1 = p) ↔ ∃ f ∈ (M.at p).out, f.dst = k := by
  constructor
  · rintro ⟨x, hx, rfl⟩
    unfold Mach.inE at hx
    obtain ⟨h1, h2⟩ := List.mem_filter.1 hx
    obtain ⟨j, _, hj⟩ := List.mem_flatMap.1 h1
    have := outE_src hj
    subst this
    exact ⟨x.2, mem_out hj, by simpa using h2⟩
  · rintro ⟨f, hf, hk⟩
    obtain ⟨x, hx, rfl⟩ := out_mem hf
    exact ⟨x, List.mem_filter.2 ⟨mem_edges hx, by simpa using hk⟩, outE_src hx⟩

/-- nothing is added to the states of the loop any more -/
def LoopDone (M : Mach) (e : Nat) (l : List Nat) : Prop := ∀ k ∈ l, k ≠ e → ∀ p, ∀ f ∈ (M.at p).out, f.dst = k → p ∈ l

theorem mem_backRound {M : Mach} {e : Nat} {l : List Nat} {p : Nat} :
    p ∈ backRound M e l ↔ p ∈ l ∨ ∃ k ∈ l, k ≠ e ∧ ∃ f ∈ (M.at p).out, f.dst = k := by
  unfold backRound
  rw [List.mem_append]
  constructor
  · rintro (h | h)
    · exact Or.inl h
    · obtain ⟨h1, _⟩ := List.mem_filter.1 h
      obtain ⟨k, hk, h2⟩ := List.mem_flatMap.1 h1
      obtain ⟨x, hx, rfl⟩ := List.mem_map.1 h2
      obtain ⟨hk1, hk2⟩ := List.mem_filter.1 hk
      exact Or.inr ⟨k, hk1, by simpa using hk2, mem_inE.1 ⟨x, hx, rfl⟩⟩
  · rintro (h | ⟨k, hk, hke, hf⟩)
    · exact Or.inl h
    · by_cases hp : p ∈ l
      · exact Or.inl hp
      · refine Or.inr (List.mem_filter.2 ⟨List.mem_flatMap.2 ⟨k, List.mem_filter.2 ⟨hk, by simpa using hke⟩, ?_⟩, by simpa using hp⟩)
        obtain ⟨x, hx, rfl⟩ := mem_inE.2 hf
        exact List.mem_map.2 ⟨x, hx, rfl⟩

theorem loopDone_round {M : Mach} {e : Nat} {l : List Nat} (h : LoopDone M e l) : LoopDone M e (backRound M e l) := by
  have : ∀ p, p ∈ backRound M e l → p ∈ l := by
    intro p hp
    rcases mem_backRound.1 hp with h' | ⟨k, hk, hke, f, hf, hd⟩
    · exact h'
    · exact h k hk hke p f hf hd
  intro k hk hke p f hf hd
  exact mem_backRound.2 (Or.inl (h k (this k hk) hke p f hf hd))

theorem loopDone_rounds {M : Mach} {e : Nat} : ∀ n l, LoopDone M e l → LoopDone M e (rounds (backRound M e) n l)
  | 0, _, h => h
  | n + 1, _, h => loopDone_rounds n _ (loopDone_round h)

theorem loopDone_natural_aux {M : Mach} {e : Nat} : ∀ n l,
    ((List.range M.states.length).filter fun k => !l.contains k).length ≤ n → LoopDone M e (rounds (backRound M e) n l)
  | 0, l, h => by
    intro k _ _ p f hf _
    have h0 : (List.range M.states.length).filter (fun k => !l.contains k) = [] := List.length_eq_zero_iff.1 (Nat.le_zero.1 h)
    rw [List.filter_eq_nil_iff] at h0
    have := h0 p (List.mem_range.2 (at_lt hf))
    simpa [rounds] using this
  | n + 1, l, h => by
    rw [rounds]
    by_cases hd : LoopDone M e l
    · exact loopDone_rounds n _ (loopDone_round hd)
    · refine loopDone_natural_aux n _ ?_
      unfold LoopDone at hd
      simp only [Classical.not_forall] at hd
      obtain ⟨k, hk, hke, p, f, hf, hdst, hp⟩ := hd
      have hp' : p ∈ backRound M e l := mem_backRound.2 (Or.inr ⟨k, hk, hke, f, hf, hdst⟩)
      have hlt : ((List.range M.states.length).filter fun k => !(backRound M e l).contains k).length <
          ((List.range M.states.length).filter fun k => !l.contains k).length := by
        have hsub : (List.range M.states.length).filter (fun k => !(backRound M e l).contains k) =
            ((List.range M.states.length).filter (fun k => !l.contains k)).filter (fun k => !(backRound M e l).contains k) := by
          rw [List.filter_filter]
          refine List.filter_congr fun k _ => ?_
          by_cases h1 : k ∈ l
          · have : k ∈ backRound M e l := mem_backRound.2 (Or.inl h1)
            simp [this]
          · simp [h1]
        rw [hsub]
        refine List.length_filter_lt_length_iff_exists.2 ⟨p, ?_, by simpa using hp'⟩
        exact List.mem_filter.2 ⟨List.mem_range.2 (at_lt hf), by simpa using hp⟩
      omega

theorem natural_done (M : Mach) (s e : Nat) : LoopDone M e (natural M s e) :=
  loopDone_natural_aux _ _ (by simpa using List.length_filter_le (fun k => !([s] : List Nat).contains k) (List.range M.states.length))

theorem natural_sound {M : Mach} {s e : Nat} : ∀ n l, (∀ k ∈ l, M.LoopPath s e k) → ∀ k ∈ rounds (backRound M e) n l, M.LoopPath s e k
  | 0, _, h => h
  | n + 1, l, h => natural_sound n _ fun k hk => by
    rcases mem_backRound.1 hk with h' | ⟨j, hj, hje, f, hf, rfl⟩
    · exact h k h'
    · exact .step hf hje (h _ hj)

/-- the search finds exactly the states of the loop -/
theorem mem_natural {M : Mach} {s e k : Nat} : k ∈ natural M s e ↔ M.LoopPath s e k := by
  constructor
  · exact natural_sound _ _ (fun k hk => by simp at hk; subst hk; exact .last) k
  · intro h
    induction h with
    | last => exact rounds_mono (fun l x h => mem_backRound.2 (Or.inl h)) _ _ _ (by simp)
    | step hf hne _ ih => exact natural_done M s e _ ih hne _ _ hf rfl

/-! ### the new machine -/

theorem nodup_eraseDups' : ∀ (n : Nat) (l : List Nat), l.length ≤ n → l.eraseDups.Nodup
  | _, [], _ => by simp
  | 0, _ :: _, h => by simp at h
  | n + 1, a :: r, h => by
    rw [List.eraseDups_cons, List.nodup_cons]
    refine ⟨?_, nodup_eraseDups' n _ (Nat.le_trans (List.length_filter_le _ _) (by simpa using h))⟩
    rw [List.mem_eraseDups]
    simp

theorem exitStates_nodup (M : Mach) (loop : List Nat) : (exitStates M loop).Nodup := nodup_eraseDups' _ _ (Nat.le_refl _)

section
variable {M : Mach} {loop : List Nat} {x : String} {ord : List Nat}

theorem merge_old {k : Nat} (hk : k < M.states.length) : (mergeExits M loop x ord).at k =
    if loop.contains k then (M.at k).unify loop M.states.length x ord else M.at k := by
  unfold Mach.at mergeExits
  rw [List.getD_eq_getElem?_getD, List.getD_eq_getElem?_getD, List.getElem?_append_left (by simpa using hk)]
  rw [List.getElem?_mapIdx, List.getElem?_eq_getElem hk]
  rfl

theorem merge_new : (mergeExits M loop x ord).at M.states.length = mergedState x ord := by
  unfold Mach.at mergeExits
  rw [List.getD_eq_getElem?_getD, List.getElem?_append_right (by simp)]
  simp

theorem merge_stmts {k : Nat} (hk : k < M.states.length) : ((mergeExits M loop x ord).at k).stmts = (M.at k).stmts := by
  rw [merge_old hk]; split <;> rfl

theorem merge_ret {k : Nat} (hk : k < M.states.length) : ((mergeExits M loop x ord).at k).ret = (M.at k).ret := by
  rw [merge_old hk]; split <;> rfl

theorem mem_exitStates {d : Nat} : d ∈ exitStates M loop ↔ ∃ k ∈ loop, ∃ f ∈ (M.at k).out, f.dst ∉ loop ∧ f.dst = d := by
  unfold exitStates leaving
  rw [List.mem_eraseDups, List.mem_map]
  constructor
  · rintro ⟨y, hy, rfl⟩
    obtain ⟨k, hk, h1⟩ := List.mem_flatMap.1 hy
    obtain ⟨h2, h3⟩ := List.mem_filter.1 h1
    exact ⟨k, hk, y.2, mem_out h2, by simpa using h3, rfl⟩
  · rintro ⟨k, hk, f, hf, hn, rfl⟩
    obtain ⟨y, hy, rfl⟩ := out_mem hf
    exact ⟨y, List.mem_flatMap.2 ⟨k, hk, List.mem_filter.2 ⟨hy, by simpa using hn⟩⟩, rfl⟩

/-- the edges of an old state -/
theorem mem_merge_out (hO : ∀ d, d ∈ ord ↔ d ∈ exitStates M loop) {k : Nat} (hk : k < M.states.length) {f : MEdge} :
    f ∈ ((mergeExits M loop x ord).at k).out ↔
      (f ∈ (M.at k).out ∧ (k ∈ loop → f.dst ∈ loop)) ∨
      ∃ e ∈ (M.at k).out, k ∈ loop ∧ e.dst ∉ loop ∧ f = redirect M.states.length x ord e := by
  rw [merge_old hk]
  by_cases hl : k ∈ loop
  · rw [if_pos (by simpa using hl)]
    unfold MState.unify
    simp only [List.mem_append, List.mem_filter, List.mem_flatMap, List.mem_map, Bool.and_eq_true, beq_iff_eq,
      List.contains_eq_mem, decide_eq_true_eq, Bool.not_eq_eq_eq_not, Bool.not_true, decide_eq_false_iff_not]
    constructor
    · rintro (⟨h1, h2⟩ | ⟨d, hd, e, ⟨he, hn, hed⟩, rfl⟩)
      · exact Or.inl ⟨h1, fun _ => h2⟩
      · exact Or.inr ⟨e, he, hl, hn, rfl⟩
    · rintro (⟨h1, h2⟩ | ⟨e, he, _, hn, rfl⟩)
      · exact Or.inl ⟨h1, h2 hl⟩
      · exact Or.inr ⟨e.dst, (hO _).2 (mem_exitStates.2 ⟨k, hl, e, he, hn, rfl⟩), e, ⟨he, hn, rfl⟩, rfl⟩
  · rw [if_neg (by simpa using hl)]
    constructor
    · exact fun h => Or.inl ⟨h, fun h' => absurd h' hl⟩
    · rintro (⟨h1, _⟩ | ⟨_, _, h, _⟩)
      · exact h1
      · exact absurd h hl

theorem mem_merged {f : MEdge} : f ∈ (mergedState x ord).out ↔ ∃ (i d : Nat), ord[i]? = some d ∧ f = ⟨d, .eq (.sym x) (.int i), []⟩ := by
  unfold mergedState
  simp only [List.mem_map, Prod.exists]
  constructor
  · rintro ⟨d, i, h, rfl⟩
    exact ⟨i, d, List.mem_zipIdx_iff_getElem?.1 h, rfl⟩
  · rintro ⟨i, d, h, rfl⟩
    exact ⟨d, i, List.mem_zipIdx_iff_getElem?.2 h, rfl⟩

theorem merge_out_nil (hO : ∀ d, d ∈ ord ↔ d ∈ exitStates M loop) {k : Nat} (hk : k < M.states.length) :
    ((mergeExits M loop x ord).at k).out = [] ↔ (M.at k).out = [] := by
  constructor
  · intro h
    rw [List.eq_nil_iff_forall_not_mem] at h ⊢
    intro e he
    by_cases hc : k ∈ loop ∧ e.dst ∉ loop
    · exact h _ ((mem_merge_out hO hk).2 (Or.inr ⟨e, he, hc.1, hc.2, rfl⟩))
    · refine h e ((mem_merge_out hO hk).2 (Or.inl ⟨he, fun hl => ?_⟩))
      exact Classical.byContradiction fun hn => hc ⟨hl, hn⟩
  · intro h
    rw [List.eq_nil_iff_forall_not_mem]
    intro f hf
    rcases (mem_merge_out hO hk).1 hf with ⟨h1, _⟩ | ⟨e, he, _⟩
    · rw [h] at h1; cases h1
    · rw [h] at he; cases he

/-! ### executions -/

variable {E : Env}

theorem Mach.Unused.at (hU : M.Unused x) (k : Nat) :
    (∀ y, y = x → ¬ reads ((M.at k).stmts.flatMap Stmt.users) y) ∧
      (∀ e ∈ (M.at k).out, (∀ y ∈ e.cond.atoms, ¬ y = x) ∧ ∀ y, y = x → ¬ reads (transUsers e.asg) y) := by
  have hm : (M.at k) = {} ∨ M.at k ∈ M.states := by
    unfold Mach.at
    rw [List.getD_eq_getElem?_getD]
    cases h : M.states[k]? with
    | none => exact Or.inl rfl
    | some s => exact Or.inr (List.mem_of_getElem? h)
  rcases hm with h | h
  · rw [h]; exact ⟨fun y _ hr => by simp [reads] at hr, fun e he => by cases he⟩
  · obtain ⟨h1, h2, _⟩ := hU _ h
    refine ⟨?_, fun e he => ⟨fun y hy hyx => (h2 e he).1 (hyx ▸ hy), ?_⟩⟩
    · rintro y rfl hr
      unfold reads at hr
      simp only [List.mem_flatMap] at hr
      obtain ⟨st, hs, hu⟩ := hr
      exact h1 st hs _ hu rfl
    · rintro y rfl hr
      unfold reads at hr
      exact (h2 e he).2 _ hr rfl

theorem step_forward (hM : M.Closed) (hU : M.Unused x) (hO : ∀ d, d ∈ ord ↔ d ∈ exitStates M loop)
    {d : String} {q : Bool} {τ : St} {n k : Nat} {σ : St} (h : M.EndsIn E d q τ n k σ) : ∀ {σ' : St}, k < M.states.length → AgreeOff (· = x) σ σ' →
    ∃ m τ', (mergeExits M loop x ord).EndsIn E d q τ' m k σ' ∧ AgreeOff (· = x) τ τ' := by
  induction h with
  | @ret k σ h1 h2 h3 =>
    intro σ' hk hA
    refine ⟨0, _, .ret ((merge_out_nil hO hk).2 h1) (by rw [merge_ret hk]; exact h2) rfl, ?_⟩
    rw [h3, merge_stmts hk]
    exact runBlock_agree E _ _ (hU.at k).1 _ _ hA
  | @step n k σ k1 σ1 h1 _ ih =>
    intro σ' hk hA
    obtain ⟨e, he, hc, rfl, rfl⟩ := h1
    have hB := runBlock_agree E _ _ (hU.at k).1 _ _ hA
    have hcond := hB.cond E ((hU.at k).2 e he).1
    have hT := runTrans_agree E _ _ ((hU.at k).2 e he).2 _ _ hB
    have hd := hM.dst k e he
    by_cases hx : k ∈ loop ∧ e.dst ∉ loop
    · have hmem : e.dst ∈ ord := (hO _).2 (mem_exitStates.2 ⟨k, hx.1, e, he, hx.2, rfl⟩)
      obtain ⟨m, τ', h2, h3⟩ := @ih ((runTrans E e.asg (runBlock E (M.at k).stmts σ')).setS x (ord.idxOf e.dst)) hd (by
        exact ((hT.symm).setS_left rfl _).symm)
      refine ⟨m + 1 + 1, τ', .step ⟨redirect M.states.length x ord e, (mem_merge_out hO hk).2 (Or.inr ⟨e, he, hx.1, hx.2, rfl⟩), ?_, rfl, rfl⟩
        (.step ⟨⟨e.dst, .eq (.sym x) (.int (ord.idxOf e.dst)), []⟩, ?_, ?_, rfl, ?_⟩ h2), h3⟩
      · rw [merge_stmts hk]; exact hcond ▸ hc
      · show _ ∈ ((mergeExits M loop x ord).at M.states.length).out
        rw [merge_new]
        exact mem_merged.2 ⟨_, _, by rw [List.getElem?_eq_getElem (List.idxOf_lt_length_iff.2 hmem), List.getElem_idxOf], rfl⟩
      · show St.cond E _ _ = true
        have : ((mergeExits M loop x ord).at (redirect M.states.length x ord e).dst).stmts = [] := by
          show ((mergeExits M loop x ord).at M.states.length).stmts = []
          rw [merge_new]; rfl
        rw [this, merge_stmts hk]
        simp [St.cond, Cond.eval, redirect, runTrans, runBlock, St.ev_sym, St.ev_int, St.setS, St.set]
      · have : ((mergeExits M loop x ord).at (redirect M.states.length x ord e).dst).stmts = [] := by
          show ((mergeExits M loop x ord).at M.states.length).stmts = []
          rw [merge_new]; rfl
        rw [this, merge_stmts hk]
        simp [redirect, runTrans, runBlock, St.ev_int]
    · obtain ⟨m, τ', h2, h3⟩ := ih hd hT
      refine ⟨m + 1, τ', .step ⟨e, (mem_merge_out hO hk).2 (Or.inl ⟨he, fun hl => Classical.byContradiction fun hn => hx ⟨hl, hn⟩⟩), ?_, rfl, ?_⟩ h2, h3⟩
      · rw [merge_stmts hk]; exact hcond ▸ hc
      · rw [merge_stmts hk]

theorem step_backward (hM : M.Closed) (hU : M.Unused x) (hO : ∀ d, d ∈ ord ↔ d ∈ exitStates M loop)
    {d : String} {q : Bool} {τ' : St} (m : Nat) : ∀ k σ' σ, (mergeExits M loop x ord).EndsIn E d q τ' m k σ' → k < M.states.length →
    AgreeOff (· = x) σ σ' → ∃ n τ, M.EndsIn E d q τ n k σ ∧ AgreeOff (· = x) τ τ' := by
  induction m using Nat.strongRecOn with
  | _ m ih =>
    intro k σ' σ h hk hA
    have hB := runBlock_agree E _ _ (hU.at k).1 _ _ hA
    cases h with
    | ret h1 h2 h3 =>
      refine ⟨0, _, .ret ((merge_out_nil hO hk).1 h1) (by rw [← merge_ret hk]; exact h2) rfl, ?_⟩
      rw [h3, merge_stmts hk]
      exact hB
    | @step m k σ' k1 σ1 h1 h2 =>
      obtain ⟨f, hf, hc, rfl, rfl⟩ := h1
      rw [merge_stmts hk] at hc h2
      rcases (mem_merge_out hO hk).1 hf with ⟨hf', _⟩ | ⟨e, he, hl, hn, rfl⟩
      · have hcond := hB.cond E ((hU.at k).2 f hf').1
        have hT := runTrans_agree E _ _ ((hU.at k).2 f hf').2 _ _ hB
        obtain ⟨n, τ, h3, h4⟩ := ih m (by omega) _ _ _ h2 (hM.dst k f hf') hT
        exact ⟨n + 1, τ, .step ⟨f, hf', hcond ▸ hc, rfl, rfl⟩ h3, h4⟩
      · have hcond := hB.cond E ((hU.at k).2 e he).1
        have hT := runTrans_agree E _ _ ((hU.at k).2 e he).2 _ _ hB
        have hmem : e.dst ∈ ord := (hO _).2 (mem_exitStates.2 ⟨k, hl, e, he, hn, rfl⟩)
        have hst : ((mergeExits M loop x ord).at (redirect M.states.length x ord e).dst) = mergedState x ord := merge_new
        cases h2 with
        | ret h5 h6 _ => rw [hst] at h6; cases h6
        | @step m _ _ k2 σ2 h5 h6 =>
          obtain ⟨f, hf2, hc2, rfl, rfl⟩ := h5
          rw [hst] at hf2 hc2 h6
          obtain ⟨i, d', hi, rfl⟩ := mem_merged.1 hf2
          have hii : ord.idxOf e.dst = i := by
            simp only [St.cond, Cond.eval, redirect, mergedState, runTrans, runBlock, List.foldl_append, List.foldl_cons,
              List.foldl_nil, St.ev_sym, St.ev_int, beq_iff_eq] at hc2
            simpa [St.setS, St.set] using hc2
          subst hii
          rw [List.getElem?_eq_getElem (List.idxOf_lt_length_iff.2 hmem), List.getElem_idxOf] at hi
          cases hi
          have e1 : runTrans E [] (runBlock E (mergedState x ord).stmts (runTrans E (redirect M.states.length x ord e).asg (runBlock E (M.at k).stmts σ'))) =
              (runTrans E e.asg (runBlock E (M.at k).stmts σ')).setS x (ord.idxOf e.dst) := by
            simp [redirect, mergedState, runTrans, runBlock, St.ev_int]
          rw [e1] at h6
          obtain ⟨n, τ, h3, h4⟩ := ih m (by omega) _ _ (runTrans E e.asg (runBlock E (M.at k).stmts σ)) h6 (hM.dst k e he)
            ((hT.symm).setS_left rfl _).symm
          exact ⟨n + 1, τ, .step ⟨e, he, hcond ▸ hc, rfl, rfl⟩ h3, h4⟩

end

/-- the iteration order of a set lists its elements -/
def IsOrder (ord : List Nat → List Nat) : Prop := ∀ l d, d ∈ ord l ↔ d ∈ l

/-- **C79 (behaviour).** Unifying the exits of the loops does not change what an unstructured SDFG computes: for every
environment and every initial memory, the machines before and after the pass return the same data with the same memory but
for the new container, and one returns exactly if the other does.  This holds for every list of back edges and every
iteration order of the set of exit states; no assumption on the conditions of the edges is needed. -/
theorem unify_exits_same {M : Mach} (hM : M.Closed) {x : String} (hU : M.Unused x) (back : List EdgeId) {ord : List Nat → List Nat}
    (hO : IsOrder ord) (E : Env) : SameButFor E x M (unifyExits M back ord x).1 := by
  intro σ d q
  unfold unifyExits
  cases hb : back.find? fun b => decide (1 < (exitStates M (loopOf M b)).length) with
  | none => exact ⟨fun τ h => ⟨τ, h, fun _ _ => rfl⟩, fun τ h => ⟨τ, h, fun _ _ => rfl⟩⟩
  | some b =>
    have hmem := hO (exitStates M (loopOf M b))
    constructor
    · rintro τ ⟨n, h⟩
      obtain ⟨m, τ', h1, h2⟩ := step_forward hM hU hmem h hM.start (AgreeOff.refl _ σ)
      exact ⟨τ', ⟨m, h1⟩, fun y hy => (h2 y hy).symm⟩
    · rintro τ' ⟨m, h⟩
      obtain ⟨n, τ, h1, h2⟩ := step_backward hM hU hmem m _ _ σ h hM.start (AgreeOff.refl _ σ)
      exact ⟨τ, ⟨n, h1⟩, fun y hy => (h2 y hy).symm⟩

/-! ### the exits afterwards -/

/-- A loop with last state `s` and header `e`: all edges that leave it lead to the same state. -/
def OneExit (M : Mach) (s e : Nat) : Prop :=
  ∀ j k, M.LoopPath s e j → M.LoopPath s e k → ∀ f ∈ (M.at j).out, ∀ g ∈ (M.at k).out,
    ¬ M.LoopPath s e f.dst → ¬ M.LoopPath s e g.dst → f.dst = g.dst

theorem oneExit_iff {M : Mach} {s e : Nat} : OneExit M s e ↔ (exitStates M (natural M s e)).length ≤ 1 := by
  constructor
  · intro h
    have hn : (exitStates M (natural M s e)).Nodup := exitStates_nodup _ _
    have hm : ∀ a ∈ exitStates M (natural M s e), ∀ b ∈ exitStates M (natural M s e), a = b := by
      intro a ha b hb
      obtain ⟨j, hj, f, hf, hfn, rfl⟩ := mem_exitStates.1 ha
      obtain ⟨k, hk, g, hg, hgn, rfl⟩ := mem_exitStates.1 hb
      exact h j k (mem_natural.1 hj) (mem_natural.1 hk) f hf g hg (fun h => hfn (mem_natural.2 h)) (fun h => hgn (mem_natural.2 h))
    generalize exitStates M (natural M s e) = l at hn hm
    match l, hn, hm with
    | [], _, _ => simp
    | [_], _, _ => simp
    | a :: b :: r, hn, hm =>
      have := hm a (by simp) b (by simp)
      subst this
      simp at hn
  · intro h j k hj hk f hf g hg hfn hgn
    have h1 : f.dst ∈ exitStates M (natural M s e) := mem_exitStates.2 ⟨j, mem_natural.2 hj, f, hf, fun h => hfn (mem_natural.1 h), rfl⟩
    have h2 : g.dst ∈ exitStates M (natural M s e) := mem_exitStates.2 ⟨k, mem_natural.2 hk, g, hg, fun h => hgn (mem_natural.1 h), rfl⟩
    generalize exitStates M (natural M s e) = l at h1 h2 h
    match l, h with
    | [], _ => cases h1
    | [a], _ => simp at h1 h2; rw [h1, h2]
    | a :: b :: r, h => simp at h

section
variable {M : Mach} {x : String} {ord : List Nat} {s e : Nat}

theorem merge_loop (hs : s < M.states.length) (hO : ∀ d, d ∈ ord ↔ d ∈ exitStates M (natural M s e)) (k : Nat) :
    (mergeExits M (natural M s e) x ord).LoopPath s e k ↔ M.LoopPath s e k := by
  have hlt : ∀ {k}, M.LoopPath s e k → k < M.states.length := by
    intro k h
    cases h with
    | last => exact hs
    | step hf _ _ => exact at_lt hf
  constructor
  · intro h
    induction h with
    | last => exact .last
    | @step k f hf hne _ ih =>
      rcases Nat.lt_or_ge k M.states.length with hk | hk
      · rcases (mem_merge_out hO hk).1 hf with ⟨h1, _⟩ | ⟨g, _, _, _, rfl⟩
        · exact .step h1 hne ih
        · exact absurd (hlt ih) (Nat.lt_irrefl _)
      · have hk' : k < M.states.length + 1 := by simpa [mergeExits] using at_lt hf
        have : k = M.states.length := by omega
        subst this
        rw [merge_new] at hf
        obtain ⟨i, d, hi, rfl⟩ := mem_merged.1 hf
        obtain ⟨j, _, g, _, hn, rfl⟩ := mem_exitStates.1 ((hO d).1 (List.mem_of_getElem? hi))
        exact absurd (mem_natural.2 ih) hn
  · intro h
    induction h with
    | last => exact .last
    | @step k f hf hne hp ih =>
      exact .step ((mem_merge_out hO (at_lt hf)).2 (Or.inl ⟨hf, fun _ => mem_natural.2 hp⟩)) hne ih

/-- all edges that leave the loop lead to the new state -/
theorem merge_exit (hs : s < M.states.length) (hO : ∀ d, d ∈ ord ↔ d ∈ exitStates M (natural M s e)) {k : Nat}
    (hk : M.LoopPath s e k) {f : MEdge} (hf : f ∈ ((mergeExits M (natural M s e) x ord).at k).out) (hn : ¬ M.LoopPath s e f.dst) :
    f.dst = M.states.length := by
  have hlt : k < M.states.length := by
    cases hk with
    | last => exact hs
    | step hf _ _ => exact at_lt hf
  rcases (mem_merge_out hO hlt).1 hf with ⟨_, h⟩ | ⟨g, _, _, _, rfl⟩
  · exact absurd (mem_natural.1 (h (mem_natural.2 hk))) hn
  · rfl

end

/-- **C79 (exits).** If the pass applies, then there is a back edge in the list whose loop was left to several states; in the new
machine this loop consists of the same states and is left to one state only, the new one. -/
theorem unify_exits_single {M : Mach} (x : String) {back : List EdgeId} (hback : ∀ b ∈ back, b.1 < M.states.length)
    {ord : List Nat → List Nat} (hO : IsOrder ord) (ha : (unifyExits M back ord x).2 = true) :
    ∃ b ∈ back, ¬ OneExit M b.1 (M.dstOf b) ∧ OneExit (unifyExits M back ord x).1 b.1 (M.dstOf b) ∧
      (∀ k, (unifyExits M back ord x).1.LoopPath b.1 (M.dstOf b) k ↔ M.LoopPath b.1 (M.dstOf b) k) ∧
      ∀ k, M.LoopPath b.1 (M.dstOf b) k → ∀ f ∈ ((unifyExits M back ord x).1.at k).out, ¬ M.LoopPath b.1 (M.dstOf b) f.dst →
        f.dst = M.states.length := by
  unfold unifyExits at ha ⊢
  cases hb : back.find? fun b => decide (1 < (exitStates M (loopOf M b)).length) with
  | none => rw [hb] at ha; cases ha
  | some b =>
    have hbm := List.mem_of_find?_eq_some hb
    have hp := List.find?_some hb
    have hmem : ∀ d, d ∈ ord (exitStates M (loopOf M b)) ↔ d ∈ exitStates M (loopOf M b) := hO _
    refine ⟨b, hbm, ?_, ?_, fun k => merge_loop (hback b hbm) hmem k, fun k hk f hf hn => merge_exit (hback b hbm) hmem hk hf hn⟩
    · rw [oneExit_iff]
      simp only [decide_eq_true_eq] at hp
      unfold loopOf at hp
      omega
    · intro j k hj hk f hf g hg hfn hgn
      have hml := fun k => merge_loop (x := x) (hback b hbm) hmem k
      rw [merge_exit (hback b hbm) hmem ((hml _).1 hj) hf (fun h => hfn ((hml _).2 h)),
        merge_exit (hback b hbm) hmem ((hml _).1 hk) hg (fun h => hgn ((hml _).2 h))]

/-- **C79 (completion).** If the pass reports that it did nothing, the machine is unchanged and the loop of every back edge is
left to at most one state. -/
theorem unify_exits_done {M : Mach} {x : String} {back : List EdgeId} {ord : List Nat → List Nat}
    (ha : (unifyExits M back ord x).2 = false) :
    (unifyExits M back ord x).1 = M ∧ ∀ b ∈ back, OneExit M b.1 (M.dstOf b) := by
  unfold unifyExits at ha ⊢
  cases hb : back.find? fun b => decide (1 < (exitStates M (loopOf M b)).length) with
  | some b => rw [hb] at ha; cases ha
  | none =>
    refine ⟨rfl, fun b hbm => oneExit_iff.2 ?_⟩
    have := List.find?_eq_none.1 hb b hbm
    simp only [decide_eq_true_eq] at this
    unfold loopOf at this
    omega

/-! ### the hypotheses can be met -/

/-- `while (x < 5) { if (y = 1) goto A; x++ } B` -/
def exTwoExits : Mach := ⟨[sw (.lt (.sym "x") (.int 5)) (1, []) (3, []), sw (is "y" 1) (4, []) (2, []), goto (0, [("x", .add [.sym "x", .int 1])]),
  ret "x", ret "y"], 0⟩

theorem exTwoExits_closed : exTwoExits.Closed := by
  refine ⟨by decide, fun k e he => ?_⟩
  have hk := at_lt he
  have : k = 0 ∨ k = 1 ∨ k = 2 ∨ k = 3 ∨ k = 4 := by
    have : exTwoExits.states.length = 5 := rfl
    omega
  rcases this with rfl | rfl | rfl | rfl | rfl <;> simp [exTwoExits, Mach.at, sw, goto, ret] at he <;>
    first | (rcases he with rfl | rfl <;> decide) | (subst he; decide) | cases he

theorem exTwoExits_unused : exTwoExits.Unused "daisy_jump_0" := by
  intro s hs
  simp only [exTwoExits, List.mem_cons, List.not_mem_nil, or_false] at hs
  rcases hs with rfl | rfl | rfl | rfl | rfl <;>
    simp [sw, goto, ret, is, Cond.atoms, Expr.atoms, Expr.atomsL, transUsers, readsOf]
  rintro a b (⟨rfl, _⟩ | ⟨rfl, _⟩) <;> decide

example : (boost exTwoExits).back = [(2, 0)] := by decide
example : (unifyExits exTwoExits [(2, 0)] id "daisy_jump_0").2 = true := by decide
example : IsOrder id := fun _ _ => Iff.rfl
/-- both exits are taken by runs of the example, before and after -/
example : (exTwoExits.exec exEnv 40 0 (fun _ _ => 0)).map (·.1) = some "x" := by decide
example : ((unifyExits exTwoExits [(2, 0)] id "daisy_jump_0").1.exec exEnv 40 0 (fun _ _ => 0)).map (·.1) = some "x" := by decide
example : ((unifyExits exTwoExits [(2, 0)] id "daisy_jump_0").1.exec exEnv 40 0 (fun y _ => if y = "y" then 1 else 0)).map (·.1) = some "y" := by decide

end Docc.Struct
