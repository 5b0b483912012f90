import Verif.Struct.Main

namespace Docc.Struct
open Docc.Sym Docc.IR

/-- Loops that a structured language can express.  `loopBody` is the set of states the loop with a given header consists of
and `loopAt` additionally the state behind the loop.
* `head`: a header belongs to its loop (the target of a back edge reaches its source);
* `entry`, `start`: a loop is entered through its header only;
* `nest`, `meet`: loops are disjoint or nested;
* `single`: a loop is left to one state only, the state behind it;
* `back`: no back edge leads from a loop to the header of an enclosing loop;
* `behind`: the state behind an inner loop belongs to the enclosing loop. -/
structure WellNested (M : Mach) (T : Trees) : Prop where
  head : ∀ h, isHeader M T h = true → h ∈ loopBody M T h
  entry : ∀ h, isHeader M T h = true → ∀ k, k ∉ loopBody M T h → ∀ e ∈ M.outE k, e.2.dst ∈ loopBody M T h → e.2.dst = h
  start : ∀ h, isHeader M T h = true → M.start ∈ loopBody M T h → M.start = h
  nest : ∀ h t, isHeader M T h = true → isHeader M T t = true → t ∈ loopBody M T h → t ≠ h → ∀ k ∈ loopBody M T t, k ∈ loopBody M T h
  meet : ∀ h t k, isHeader M T h = true → isHeader M T t = true → k ∈ loopBody M T h → k ∈ loopBody M T t →
    h ∈ loopBody M T t ∨ t ∈ loopBody M T h
  single : ∀ h I, isHeader M T h = true → loopAt M T h = some I → ∀ k ∈ loopBody M T h, ∀ e ∈ M.outE k, e.1 ∉ T.back →
    e.2.dst ∉ loopBody M T h → e.2.dst = I.exit
  back : ∀ h, isHeader M T h = true → ∀ k ∈ loopBody M T h, ∀ e ∈ M.outE k, e.1 ∈ T.back → e.2.dst ∈ loopBody M T h
  behind : ∀ h t I, isHeader M T h = true → isHeader M T t = true → loopAt M T t = some I → t ∈ loopBody M T h → t ≠ h →
    I.exit ∈ loopBody M T h

theorem mem_edges {M : Mach} {k : Nat} {e : EdgeId × MEdge} (h : e ∈ M.outE k) : e ∈ M.edges := by
  unfold Mach.edges
  refine List.mem_flatMap.mpr ⟨k, List.mem_range.mpr ?_, h⟩
  rcases Nat.lt_or_ge k M.states.length with h' | h'
  · exact h'
  · have : M.at k = {} := by unfold Mach.at; rw [List.getD_eq_getElem?_getD, List.getElem?_eq_none h']; rfl
    rw [Mach.outE, this] at h
    simp at h

theorem outE_src {M : Mach} {k : Nat} {e : EdgeId × MEdge} (h : e ∈ M.outE k) : e.1.1 = k := by
  unfold Mach.outE at h
  obtain ⟨p, _, rfl⟩ := List.mem_map.mp h
  rfl

theorem outE_inj {M : Mach} {k k' : Nat} {e e' : EdgeId × MEdge} (h : e ∈ M.outE k) (h' : e' ∈ M.outE k') (he : e.1 = e'.1) : e = e' := by
  have hk : k = k' := by rw [← outE_src h, ← outE_src h', he]
  subst hk
  unfold Mach.outE at h h'
  obtain ⟨p, hp, rfl⟩ := List.mem_map.mp h
  obtain ⟨p', hp', rfl⟩ := List.mem_map.mp h'
  simp only [Prod.mk.injEq, true_and] at he
  have h1 := (List.mem_zipIdx_iff_getElem? (x := p)).mp hp
  have h2 := (List.mem_zipIdx_iff_getElem? (x := p')).mp hp'
  rw [he] at h1
  rw [h1] at h2
  simp only [Option.some.injEq] at h2
  simp only [h2, he]

theorem header_of_back {M : Mach} {T : Trees} {k : Nat} {e : EdgeId × MEdge} (h : e ∈ M.outE k) (hb : e.1 ∈ T.back) :
    isHeader M T e.2.dst = true := by
  unfold isHeader
  rw [List.any_eq_true]
  exact ⟨e, List.mem_filter.mpr ⟨mem_edges h, by simp⟩, by simpa using hb⟩

theorem rounds_mono {f : List Nat → List Nat} (hf : ∀ l, ∀ x ∈ l, x ∈ f l) : ∀ n l, ∀ x ∈ l, x ∈ rounds f n l
  | 0, _, _, h => h
  | n + 1, l, x, h => rounds_mono hf n _ x (hf l x h)

theorem loopNodes_start (M : Mach) (T : Trees) (s e : Nat) : s ∈ loopNodes M T s e := by
  unfold loopNodes
  refine rounds_mono (fun l x h => by unfold extRound; exact List.mem_append_left _ h) _ _ _ ?_
  unfold natural
  exact rounds_mono (fun l x h => by unfold backRound; exact List.mem_append_left _ h) _ _ _ (by simp)

/-- the source of a back edge belongs to the loop -/
theorem back_src {M : Mach} {T : Trees} {k : Nat} {e : EdgeId × MEdge} (h : e ∈ M.outE k) (hb : e.1 ∈ T.back) :
    k ∈ loopBody M T e.2.dst := by
  unfold loopBody
  rw [List.mem_eraseDups]
  refine List.mem_flatMap.mpr ⟨e, List.mem_filter.mpr ⟨List.mem_filter.mpr ⟨mem_edges h, by simp⟩, by simpa using hb⟩, ?_⟩
  have := loopNodes_start M T e.1.1 e.2.dst
  rw [outE_src h] at this ⊢
  exact this

/-! ### the loops around a state -/

/-- `S` are the headers of the loops that are being structured, `L` the innermost one, `brks` the edges leaving them -/
structure Stack (M : Mach) (T : Trees) (brks : List EdgeId) (L : Option LoopCtx) (S : List Nat) : Prop where
  top : ∀ l, L = some l → l.header ∈ S ∧ isHeader M T l.header = true ∧ l.body = loopBody M T l.header ∧
    ∃ I, loopAt M T l.header = some I ∧ l.exit = I.exit
  out : ∀ s ∈ S, ∃ l, L = some l ∧ l.header ∈ loopBody M T s ∧ isHeader M T s = true
  brk : ∀ x ∈ brks, ∃ s ∈ S, ∃ I, loopAt M T s = some I ∧ x ∈ I.exits

/-- the state lies in the loops of the stack, and other loops around it start there -/
def Good (M : Mach) (T : Trees) (L : Option LoopCtx) (S : List Nat) (c : Nat) : Prop :=
  (∀ l, L = some l → c ∈ l.body) ∧ ∀ t, isHeader M T t = true → c ∈ loopBody M T t → t = c ∨ t ∈ S

theorem Stack.sub {M : Mach} {T : Trees} {brks : List EdgeId} {L : Option LoopCtx} {S : List Nat} (hS : Stack M T brks L S)
    (hW : WellNested M T) {l : LoopCtx} (hl : L = some l) {s : Nat} (hs : s ∈ S) : ∀ k ∈ l.body, k ∈ loopBody M T s := by
  intro k hk
  obtain ⟨l', hl', h1, h2⟩ := hS.out s hs
  rw [hl] at hl'; cases hl'
  obtain ⟨_, h4, h5, _⟩ := hS.top l hl
  rw [h5] at hk
  by_cases h : l.header = s
  · rw [← h]; exact hk
  · exact hW.nest s l.header h2 h4 h1 h k hk

/-- an edge to outside the innermost loop -/
theorem Stack.leave {M : Mach} {T : Trees} {brks : List EdgeId} {L : Option LoopCtx} {S : List Nat} (hS : Stack M T brks L S)
    (hW : WellNested M T) {l : LoopCtx} (hl : L = some l) {c : Nat} (hc : c ∈ l.body) {e : EdgeId × MEdge} (he : e ∈ M.outE c)
    (hb : e.1 ∈ brks) (hnb : e.1 ∉ T.back) : e.2.dst = l.exit := by
  obtain ⟨s, hs, I, hI, hx⟩ := hS.brk _ hb
  obtain ⟨k, hk, e', he', h1, h2, h3⟩ := (loopAt_spec hI).2.2.2.2 _ hx
  have := outE_inj he he' h1.symm
  subst this
  obtain ⟨_, h4, h5, J, hJ, h6⟩ := hS.top l hl
  rw [h6]
  refine hW.single l.header J h4 hJ c (h5 ▸ hc) e he hnb ?_
  intro hd
  apply h3
  rw [(loopAt_spec hI).1]
  exact hS.sub hW hl hs _ (h5 ▸ hd)

/-- good states are closed -/
theorem Stack.inside {M : Mach} {T : Trees} {brks : List EdgeId} {L : Option LoopCtx} {S : List Nat} (hS : Stack M T brks L S)
    (hW : WellNested M T) (hbr : ∀ l, L = some l → ∀ I, loopAt M T l.header = some I → ∀ x ∈ I.exits, x ∈ brks) :
    Inside M T brks L (Good M T L S) where
  edge := by
    intro k hk hh e he hnb hnk
    refine ⟨fun l hl => ?_, fun t ht hd => ?_⟩
    · obtain ⟨_, h4, h5, J, hJ, _⟩ := hS.top l hl
      by_cases hd : e.2.dst ∈ l.body
      · exact hd
      · exfalso
        apply hnk
        refine hbr l hl J hJ _ ((loopAt_spec hJ).2.2.2.1 k ?_ e he hnb ?_)
        · rw [(loopAt_spec hJ).1, ← h5]; exact hk.1 l hl
        · rw [(loopAt_spec hJ).1, ← h5]; exact hd
    · by_cases hkt : k ∈ loopBody M T t
      · rcases hk.2 t ht hkt with rfl | h
        · rcases hh with hh | ⟨l, hl, rfl⟩
          · rw [hh] at ht; cases ht
          · exact Or.inr (hS.top l hl).1
        · exact Or.inr h
      · exact Or.inl (hW.entry t ht k hkt e he hd).symm
  inner := by
    intro c I hc hh hne hI hx
    refine ⟨hx, fun t ht hd => ?_⟩
    obtain ⟨hbd, ⟨k, hk, e, he, hnb, hex⟩, hni, _⟩ := loopAt_spec hI
    rw [hbd] at hk hni
    by_cases hkt : k ∈ loopBody M T t
    · right
      have htc : t ≠ c := by intro h; subst h; exact hni hd
      have hct : c ∈ loopBody M T t := by
        rcases hW.meet c t k hh ht hk hkt with h | h
        · exact h
        · exact absurd (hW.nest c t hh ht h htc _ hd) hni
      rcases hc.2 t ht hct with h | h
      · exact absurd h htc
      · exact h
    · left
      rw [← hex] at hd ⊢
      exact (hW.entry t ht k hkt e he hd).symm

/-- the stack inside a loop -/
theorem Stack.push {M : Mach} {T : Trees} {brks : List EdgeId} {L : Option LoopCtx} {S : List Nat} (hS : Stack M T brks L S)
    (hW : WellNested M T) {c : Nat} (hc : Good M T L S c) (hh : isHeader M T c = true) {I : LoopInfo} (hI : loopAt M T c = some I) :
    Stack M T (I.exits ++ brks) (some ⟨c, I.body, I.exit⟩) (c :: S) where
  top := by
    intro l hl; cases hl
    exact ⟨by simp, hh, (loopAt_spec hI).1, I, hI, rfl⟩
  out := by
    intro s hs
    rcases List.mem_cons.mp hs with rfl | hs
    · exact ⟨_, rfl, hW.head _ hh, hh⟩
    · obtain ⟨l, hl, _, h2⟩ := hS.out s hs
      exact ⟨_, rfl, hS.sub hW hl hs _ (hc.1 l hl), h2⟩
  brk := by
    intro x hx
    rcases List.mem_append.mp hx with h | h
    · exact ⟨c, by simp, I, hI, h⟩
    · obtain ⟨s, hs, r⟩ := hS.brk x h
      exact ⟨s, by simp [hs], r⟩

theorem Good.push {M : Mach} {T : Trees} {L : Option LoopCtx} {S : List Nat} (hW : WellNested M T) {c : Nat} (hc : Good M T L S c)
    (hh : isHeader M T c = true) {I : LoopInfo} (hI : loopAt M T c = some I) : Good M T (some ⟨c, I.body, I.exit⟩) (c :: S) c := by
  refine ⟨fun l hl => ?_, fun t ht htc => ?_⟩
  · cases hl; show c ∈ I.body; rw [(loopAt_spec hI).1]; exact hW.head _ hh
  · rcases hc.2 t ht htc with h | h
    · exact Or.inl h
    · exact Or.inr (by simp [h])

/-- a back edge from a good state leads to the innermost header -/
theorem Stack.jump {M : Mach} {T : Trees} {brks : List EdgeId} {l : LoopCtx} {S : List Nat} (hS : Stack M T brks (some l) S)
    (hW : WellNested M T) {c : Nat} (hc : Good M T (some l) S c) (hh : isHeader M T c = false ∨ l.header = c) {e : EdgeId × MEdge}
    (he : e ∈ M.outE c) (hb : e.1 ∈ T.back) : e.2.dst = l.header := by
  obtain ⟨_, h4, h5, J, hJ, h6⟩ := hS.top l rfl
  have ht := header_of_back he hb
  have hin : e.2.dst ∈ loopBody M T l.header := hW.back _ h4 c (h5 ▸ hc.1 l rfl) e he hb
  by_cases heq : e.2.dst = l.header
  · exact heq
  · exfalso
    rcases hc.2 _ ht (back_src he hb) with h | h
    · rcases hh with hh | hh
      · rw [h] at ht; rw [hh] at ht; cases ht
      · exact heq (by rw [h, hh])
    · obtain ⟨l', hl', h1, _⟩ := hS.out _ h
      cases hl'
      have hx := hW.behind _ _ J ht h4 hJ h1 (fun h' => heq h'.symm)
      have := hW.nest _ _ h4 ht hin heq _ hx
      exact (loopAt_spec hJ).2.2.1 (by rw [(loopAt_spec hJ).1]; exact this)

mutual
theorem reg_ok {M : Mach} {T : Trees} (hW : WellNested M T) : ∀ {exit brks L cur s ev}, Reg M T exit brks L cur s ev →
    (∀ l, L = some l → ∀ I, loopAt M T l.header = some I → ∀ x ∈ I.exits, x ∈ brks) →
    ∀ S c, Stack M T brks L S → cur = some c → Good M T L S c → ∀ x ∈ ev, x.Ok
  | _, _, _, _, _, _, .stop, _, _, _, _, _, _ => by simp
  | _, brks, L, _, _, _, .loop (c := c) (I := I) _ hh hne hI h1 h2, hbr, S, c', hS, hcc, hc => by
    cases hcc
    have hbody := reg_ok hW h1 (by
      intro l hl J hJ x hx
      cases hl
      have hJ : loopAt M T c = some J := hJ
      rw [hI] at hJ; cases hJ
      simp [hx]) (c :: S) c (hS.push hW hc hh hI) rfl (hc.push hW hh hI)
    have hex : ∀ l, L = some l → I.exit ∈ l.body := by
      intro l hl
      obtain ⟨_, h4, h5, _⟩ := hS.top l hl
      rw [h5]
      exact hW.behind _ c I h4 hh hI (h5 ▸ hc.1 l hl) (hne l hl)
    have hrest := reg_ok hW h2 hbr S I.exit hS rfl ((hS.inside hW hbr).inner c I hc hh hne hI hex)
    intro x hx
    simp only [List.mem_append, Option.mem_toList, Option.map_eq_some_iff] at hx
    rcases hx with (hx | ⟨l, hl, rfl⟩) | hx
    · exact hbody x hx
    · exact hex l hl
    · exact hrest x hx
  | _, _, _, _, _, _, .sink _ _ _ _, _, _, _, _, _, _ => by simp
  | _, _, _, _, _, _, .cont (c := c) (l := l) (e := e) _ hh he _ hb, _, S, c', hS, hcc, hc => by
    cases hcc
    intro x hx
    simp only [List.mem_singleton] at hx; subst hx
    exact hS.jump hW hc hh (by rw [he]; simp) hb
  | _, _, _, _, _, _, .brk (c := c) (l := l) (e := e) _ hh he _ hb hk, _, S, c', hS, hcc, hc => by
    cases hcc
    intro x hx
    simp only [List.mem_singleton] at hx; subst hx
    exact hS.leave hW rfl (hc.1 l rfl) (by rw [he]; simp) hk hb
  | _, _, _, _, _, _, .next (c := c) (e := e) _ hh he _ hb hk hr, hbr, S, c', hS, hcc, hc => by
    cases hcc
    exact reg_ok hW hr hbr S _ hS rfl ((hS.inside hW hbr).edge c hc hh e (by rw [he]; simp) hb hk)
  | _, _, L, _, _, _, .branch (c := c) (m := m) (bs := bs) (er := er) _ hh _ hb hr, hbr, S, c', hS, hcc, hc => by
    cases hcc
    have hB := regB_ok hW hb hbr S c hS (fun e he => he) hc hh
    intro x hx
    rcases List.mem_append.mp hx with hx | hx
    · exact hB x hx
    · split at hx
      · rename_i hf
        cases hm : m with
        | none =>
          subst hm
          cases hr
          cases hx
        | some p =>
          have hp : Good M T L S p := by
            apply Classical.byContradiction
            intro hn
            rw [regB_falls hb hB _ (hS.inside hW hbr) (fun e he => (hS.inside hW hbr).edge c hc hh e he)
              (by intro x h'; rw [hm] at h'; cases h'; exact hn)] at hf
            cases hf
          exact reg_ok hW hr hbr S p hS hm hp x hx
      · cases hx
theorem regB_ok {M : Mach} {T : Trees} (hW : WellNested M T) : ∀ {m brks L es bs ev}, RegB M T m brks L es bs ev →
    (∀ l, L = some l → ∀ I, loopAt M T l.header = some I → ∀ x ∈ I.exits, x ∈ brks) →
    ∀ S c, Stack M T brks L S → (∀ e ∈ es, e ∈ M.outE c) → Good M T L S c → (isHeader M T c = false ∨ ∃ l, L = some l ∧ l.header = c) →
    ∀ x ∈ ev, x.Ok
  | _, _, _, _, _, _, .nil, _, _, _, _, _, _, _ => by simp
  | _, _, _, _, _, _, .cont (e := e) (l := l) hb hr, hbr, S, c, hS, hes, hc, hh => by
    intro x hx
    rcases List.mem_cons.mp hx with rfl | hx
    · exact hS.jump hW hc (by simpa using hh) (hes e (by simp)) hb
    · exact regB_ok hW hr hbr S c hS (fun e he => hes e (by simp [he])) hc hh x hx
  | _, _, _, _, _, _, .brk (e := e) (l := l) hb hk hr, hbr, S, c, hS, hes, hc, hh => by
    intro x hx
    rcases List.mem_cons.mp hx with rfl | hx
    · exact hS.leave hW rfl (hc.1 l rfl) (hes e (by simp)) hk hb
    · exact regB_ok hW hr hbr S c hS (fun e he => hes e (by simp [he])) hc hh x hx
  | _, _, _, _, _, _, .sub (e := e) hb hk hs hr, hbr, S, c, hS, hes, hc, hh => by
    intro x hx
    rcases List.mem_append.mp hx with hx | hx
    · exact reg_ok hW hs hbr S _ hS rfl ((hS.inside hW hbr).edge c hc hh e (hes e (by simp)) hb hk) x hx
    · exact regB_ok hW hr hbr S c hS (fun e he => hes e (by simp [he])) hc hh x hx
end

/-! ### main theorems -/

theorem WellNested.inside {M : Mach} {T : Trees} (hW : WellNested M T) : HeadersInside M T := by
  intro c I hh hI
  rw [(loopAt_spec hI).1]; exact hW.head c hh

/-- **C70.** Structuring a machine whose loops are well nested keeps its behaviour: the structured program, started in any
memory, terminates exactly if the machine returns, and then by returning the same data with the same final memory. -/
theorem structure_correct_partial {E : Env} {M : Mach} {T : Trees} (hD : M.Deterministic E) (hW : WellNested M T) {fuel : Nat} {s : Seq}
    {ev : List Ev} (h : structure' M T fuel = some (s, ev)) (σ : St) (k : Ctl) (τ : St) :
    s.den E σ k τ ↔ ∃ d q, k = .ret d q ∧ M.Returns E σ d q τ := by
  refine structure_correct_of_events hD hW.inside h ?_ σ k τ
  refine reg_ok hW (region_reg M T fuel (by simp) (by simp) (by simp) h) (by simp) [] M.start ⟨by simp, by simp, by simp⟩ rfl ⟨by simp, ?_⟩
  intro t ht hs
  exact Or.inl (hW.start t ht hs).symm

/-- without back edges the loops are well nested -/
theorem wellNested_of_acyclic {M : Mach} {T : Trees} (h : T.back = []) : WellNested M T := by
  have : ∀ c, isHeader M T c = false := by
    intro c
    unfold isHeader
    rw [h]; simp
  constructor <;> intros <;> simp_all

/-- **C70 (no loops).** Structuring a machine without loops keeps its behaviour. -/
theorem structure_acyclic {E : Env} {M : Mach} {T : Trees} (hD : M.Deterministic E) (hT : T.back = []) {fuel : Nat} {s : Seq}
    {ev : List Ev} (h : structure' M T fuel = some (s, ev)) (σ : St) (k : Ctl) (τ : St) :
    s.den E σ k τ ↔ ∃ d q, k = .ret d q ∧ M.Returns E σ d q τ :=
  structure_correct_partial hD (wellNested_of_acyclic hT) h σ k τ

end Docc.Struct
