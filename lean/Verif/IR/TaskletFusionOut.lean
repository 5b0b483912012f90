import Verif.IR.TaskletFusionIn

/-! C78: fusing assignments of a result ("output" assignments). -/
namespace Docc.IR
open Docc.Sym
open Docc.Flow (Gr Kind Edge Before)

/-- what the criterion establishes -/
structure OutF (g : DF) (n : Nat) (i e m : Edge × List Expr) : Prop where
  wf : g.Wf
  val : g.Valid
  acc : g.isAccess n = true
  tsk : g.isTasklet i.1.src = true
  asg : g.isAssign e.1.dst = true
  insn : g.ins n = [i]
  outsn : g.outs n = [e]
  insa : g.ins e.1.dst = [e]
  outa : g.outs e.1.dst = [m]
  outT : g.outs i.1.src = [i]
  isub : i.2 = []
  esub : e.2 = []
  only : ∀ m ∈ g.gr.vs, g.isAccess m = true → g.name m = g.name n → m = n
  sub : g.name n ∉ g.subsetSyms

theorem OutF.of {g : DF} {n : Nat} {i e m : Edge × List Expr} (hw : g.Wf) (hv : g.Valid) (h : tfOutAccepts g n i e m = true) : OutF g n i e m := by
  simp only [tfOutAccepts, DF.onlyHere, Bool.and_eq_true, decide_eq_true_eq, List.all_eq_true, Bool.or_eq_true, Bool.not_eq_true',
    decide_eq_false_iff_not, bne_iff_ne, beq_iff_eq] at h
  obtain ⟨⟨⟨⟨⟨⟨⟨⟨h1, h2⟩, h3⟩, h4⟩, h5⟩, h6⟩, h7⟩, h8⟩, h9, h10⟩ := h
  have hins : g.ins e.1.dst = [e] := by
    obtain ⟨is, os, hk⟩ := isAssign_kind h7
    have hl := hv.inDeg _ 0 is os hk
    rw [hv.arity _ is os hk] at hl
    have hm : e ∈ g.ins e.1.dst := List.mem_filter.mpr ⟨(filter_single h3).1, by simp⟩
    match ho : g.ins e.1.dst with
    | [] => rw [ho] at hm; cases hm
    | [x] => rw [ho] at hm; simp at hm; rw [hm]
    | x :: y :: r => rw [ho] at hl; simp at hl
  refine ⟨hw, hv, h1, h6, h7, h2, h3, hins, h8, tasklet_out hv h6 (filter_single h2).1 rfl, h4, h5, ?_, h10⟩
  intro m hm hma hmn
  rcases h9 m hm with (h | h) | h
  · rw [hma] at h; cases h
  · exact absurd hmn h
  · exact h

namespace OutF
variable {g : DF} {n : Nat} {i e m : Edge × List Expr} (F : OutF g n i e m)
include F

theorem memi : i ∈ g.edges := (filter_single F.insn).1
theorem meme : e ∈ g.edges := (filter_single F.outsn).1
theorem memm : m ∈ g.edges := (filter_single F.outa).1
theorem idst : i.1.dst = n := by simpa using (filter_single F.insn).2.1
theorem esrc : e.1.src = n := by simpa using (filter_single F.outsn).2.1
theorem msrc : m.1.src = e.1.dst := by simpa using (filter_single F.outa).2.1
theorem toN {x : Edge × List Expr} (he : x ∈ g.edges) (h : x.1.dst = n) : x = i := (filter_single F.insn).2.2 x he (by simp [h])
theorem fromN {x : Edge × List Expr} (he : x ∈ g.edges) (h : x.1.src = n) : x = e := (filter_single F.outsn).2.2 x he (by simp [h])
theorem toA {x : Edge × List Expr} (he : x ∈ g.edges) (h : x.1.dst = e.1.dst) : x = e := (filter_single F.insa).2.2 x he (by simp [h])
theorem fromA {x : Edge × List Expr} (he : x ∈ g.edges) (h : x.1.src = e.1.dst) : x = m := (filter_single F.outa).2.2 x he (by simp [h])
theorem fromT {x : Edge × List Expr} (he : x ∈ g.edges) (h : x.1.src = i.1.src) : x = i := (filter_single F.outT).2.2 x he (by simp [h])

theorem accM : g.isAccess m.1.dst = true := by
  have := F.wf.bip _ (DF.mem_gr F.memm)
  rw [F.msrc, isAssign_code F.asg] at this
  simpa using this.symm

theorem befores {o : List Nat} (ho : Order g.gr o) : Before o i.1.src n ∧ Before o n e.1.dst ∧ Before o e.1.dst m.1.dst := by
  have h1 := ho.arcs _ _ (DF.arc_of F.memi)
  have h2 := ho.arcs _ _ (DF.arc_of F.meme)
  have h3 := ho.arcs _ _ (DF.arc_of F.memm)
  rw [F.idst] at h1
  rw [F.esrc] at h2
  rw [F.msrc] at h3
  exact ⟨h1, h2, h3⟩

theorem T_ne {o : List Nat} (ho : Order g.gr o) : i.1.src ≠ e.1.dst := by
  obtain ⟨h1, h2, _⟩ := F.befores ho
  intro h
  rw [h] at h1
  exact h1.asymm ho.nodup h2

theorem m_ne_n {o : List Nat} (ho : Order g.gr o) : m.1.dst ≠ n := by
  obtain ⟨_, h2, h3⟩ := F.befores ho
  intro h
  rw [h] at h3
  exact h3.asymm ho.nodup h2

theorem m_ne_a : m.1.dst ≠ e.1.dst := by
  intro h
  have := F.accM
  rw [h, isAssign_code F.asg] at this; cases this

theorem n_ne {v : Nat} (hc : g.isAccess v = false) : v ≠ n := by
  rintro rfl; rw [F.acc] at hc; cases hc

theorem stmtA : g.stmt e.1.dst = some (.tasklet (toString 0) [(g.name n, [])] (g.name m.1.dst) m.2) := by
  rw [assign_stmt F.wf F.val F.asg F.insa F.outa, F.esrc, F.esub]

theorem nodup' : (tfOut g n e m).gr.vs.Nodup := by
  unfold Gr.vs DF.gr tfOut
  exact List.Nodup.sublist (List.Sublist.map _ List.filter_sublist) F.wf.ids

omit F in
theorem vs' {v : Nat} : v ∈ (tfOut g n e m).gr.vs ↔ v ∈ g.gr.vs ∧ v ≠ n ∧ v ≠ e.1.dst := by
  show v ∈ List.map _ (List.filter _ _) ↔ v ∈ List.map _ _ ∧ _
  simp only [List.mem_map, List.mem_filter, Bool.and_eq_true, bne_iff_ne]
  constructor
  · rintro ⟨x, ⟨h1, h2, h3⟩, rfl⟩; exact ⟨⟨x, h1, rfl⟩, h2, h3⟩
  · rintro ⟨⟨x, h1, rfl⟩, h2, h3⟩; exact ⟨x, ⟨h1, h2, h3⟩, rfl⟩

theorem kind' {v : Nat} (hv : v ∈ (tfOut g n e m).gr.vs) : (tfOut g n e m).gr.kind v = g.gr.kind v := by
  obtain ⟨x, hx, rfl⟩ := List.mem_map.mp hv
  rw [kind_of_mem F.nodup' hx, kind_of_mem F.wf.ids]
  have hx : x ∈ g.nodes.filter _ := hx
  exact (List.mem_filter.mp hx).1

theorem stmt_none {v : Nat} (hv : v ∉ (tfOut g n e m).gr.vs) : (tfOut g n e m).stmt v = none := by
  unfold DF.stmt
  rw [kind_notMem hv]

omit F in
theorem mem_edges {x' : Edge × List Expr} : x' ∈ (tfOut g n e m).edges ↔ ∃ x ∈ g.edges, x.1.src ≠ n ∧ x.1.src ≠ e.1.dst ∧
    (if x.1.dst = n then ({ x.1 with dst := m.1.dst, dc := m.1.dc }, m.2) else x) = x' := by
  show x' ∈ List.map _ (List.filter _ _) ↔ _
  simp only [List.mem_map, List.mem_filter, Bool.and_eq_true, bne_iff_ne]
  constructor
  · rintro ⟨e, ⟨h1, h2, h3⟩, h4⟩; exact ⟨e, h1, h2, h3, h4⟩
  · rintro ⟨e, h1, h2, h3, h4⟩; exact ⟨e, ⟨h1, h2, h3⟩, h4⟩

theorem opd' {v : Nat} (hc : g.isAccess v = false) (ha : v ≠ e.1.dst) (c : String) : (tfOut g n e m).opd v c = g.opd v c := by
  have hvn := F.n_ne hc
  have hf : (tfOut g n e m).edges.find? (fun x => x.1.dst == v && x.1.dc == c) = (g.edges.find? fun x => x.1.dst == v && x.1.dc == c).map
      fun x => if x.1.dst = n then ({ x.1 with dst := m.1.dst, dc := m.1.dc }, m.2) else x := by
    show (List.map _ (List.filter _ _)).find? _ = _
    refine find_filter_map ?_ ?_
    · intro x hx h
      simp only [Bool.and_eq_true, beq_iff_eq] at h
      have h1 : x.1.src ≠ n := by
        intro h'
        have := F.fromN hx h'
        rw [this] at h
        exact ha h.1.symm
      have h2 : x.1.src ≠ e.1.dst := by
        intro h'
        have := F.wf.bip _ (DF.mem_gr hx)
        rw [h', isAssign_code F.asg, h.1, hc] at this; cases this
      simp [h1, h2]
    · intro x hx _
      by_cases hd : x.1.dst = n
      · have h1 : (n == v) = false := beq_eq_false_iff_ne.mpr hvn.symm
        have h2 : (m.1.dst == v) = false := beq_eq_false_iff_ne.mpr (by rintro rfl; rw [F.accM] at hc; cases hc)
        simp only [if_pos hd]
        rw [h2, hd, h1]; rfl
      · rw [if_neg hd]
  unfold DF.opd
  rw [hf]
  cases hfd : g.edges.find? (fun x => x.1.dst == v && x.1.dc == c) with
  | none => rfl
  | some x =>
    have hx := List.mem_of_find?_eq_some hfd
    have hd := List.find?_some hfd
    simp only [Bool.and_eq_true, beq_iff_eq] at hd
    have h1 : x.1.src ≠ n := by
      intro h'
      have := F.fromN hx h'
      rw [this] at hd
      exact ha hd.1.symm
    have h2 : x.1.src ≠ e.1.dst := by
      intro h'
      have := F.wf.bip _ (DF.mem_gr hx)
      rw [h', isAssign_code F.asg, hd.1, hc] at this; cases this
    have hv' : x.1.src ∈ (tfOut g n e m).gr.vs := vs'.mpr ⟨(F.wf.ends _ (DF.mem_gr hx)).1, h1, h2⟩
    simp only [Option.map_some, hd.1, if_neg hvn]
    unfold DF.name; rw [F.kind' hv']

theorem res' {v : Nat} {o : List Nat} (ho : Order g.gr o) (hc : g.isAccess v = false) (ha : v ≠ e.1.dst) (c : String) :
    (tfOut g n e m).res v c = if v = i.1.src ∧ (g.edges.find? fun x => x.1.src == v && x.1.sc == c).isSome then (g.name m.1.dst, m.2) else g.res v c := by
  have hvn := F.n_ne hc
  have hf : (tfOut g n e m).edges.find? (fun x => x.1.src == v && x.1.sc == c) = (g.edges.find? fun x => x.1.src == v && x.1.sc == c).map
      fun x => if x.1.dst = n then ({ x.1 with dst := m.1.dst, dc := m.1.dc }, m.2) else x := by
    show (List.map _ (List.filter _ _)).find? _ = _
    refine find_filter_map ?_ ?_
    · intro x hx h
      simp only [Bool.and_eq_true, beq_iff_eq] at h
      simp [h.1, hvn, ha]
    · intro x hx _
      by_cases hd : x.1.dst = n
      · simp only [if_pos hd]
      · rw [if_neg hd]
  unfold DF.res
  rw [hf]
  cases hfd : g.edges.find? (fun x => x.1.src == v && x.1.sc == c) with
  | none => simp
  | some x =>
    have hx := List.mem_of_find?_eq_some hfd
    have hd := List.find?_some hfd
    simp only [Bool.and_eq_true, beq_iff_eq] at hd
    simp only [Option.map_some, Option.isSome_some, and_true]
    by_cases hdn : x.1.dst = n
    · have hxi := F.toN hx hdn
      have hv' : m.1.dst ∈ (tfOut g n e m).gr.vs := vs'.mpr ⟨(F.wf.ends _ (DF.mem_gr F.memm)).2, F.m_ne_n ho, F.m_ne_a⟩
      rw [if_pos hdn, if_pos (by rw [← hd.1, hxi])]
      unfold DF.name; rw [F.kind' hv']
    · have hdc : g.isAccess x.1.dst = true := by
        have := F.wf.bip _ (DF.mem_gr hx)
        rw [hd.1, hc] at this; simpa using this.symm
      have hv' : x.1.dst ∈ (tfOut g n e m).gr.vs := vs'.mpr ⟨(F.wf.ends _ (DF.mem_gr hx)).2, hdn, by
        intro h; rw [h, isAssign_code F.asg] at hdc; cases hdc⟩
      have hvT : v ≠ i.1.src := by
        rintro rfl
        have := F.fromT hx hd.1
        rw [this, F.idst] at hdn
        exact hdn rfl
      rw [if_neg hdn, if_neg hvT]
      unfold DF.name; rw [F.kind' hv']

/-- other computations stay the same -/
theorem stmtO {o : List Nat} (ho : Order g.gr o) {v : Nat} (ha : v ≠ e.1.dst) (hT : v ≠ i.1.src) : (tfOut g n e m).stmt v = g.stmt v := by
  by_cases hc : g.isAccess v = true
  · have h1 : g.stmt v = none := by
      cases hs : g.stmt v with
      | none => rfl
      | some s => rw [(stmt_code hs).1] at hc; cases hc
    rw [h1]
    by_cases hv : v ∈ (tfOut g n e m).gr.vs
    · unfold DF.stmt at h1 ⊢
      rw [F.kind' hv]
      cases hk : g.gr.kind v with
      | access d => rfl
      | tasklet c i o => rw [hk] at h1; cases h1
      | lib c i o => rw [hk] at h1; cases h1
    · exact F.stmt_none hv
  · have hc : g.isAccess v = false := by simpa using hc
    by_cases hv : v ∈ g.gr.vs
    · have hv' : v ∈ (tfOut g n e m).gr.vs := vs'.mpr ⟨hv, F.n_ne hc, ha⟩
      unfold DF.stmt
      rw [F.kind' hv']
      have hr : ∀ c, (tfOut g n e m).res v c = g.res v c := fun c => by
        rw [F.res' ho hc ha, if_neg (by rintro ⟨h, _⟩; exact hT h)]
      cases hk : g.gr.kind v with
      | access d => rfl
      | tasklet c i o => simp only [hr, funext fun c => F.opd' hc ha c]
      | lib c i o => simp only [hr, F.opd' hc ha]
    · rw [F.stmt_none (fun h => hv (vs'.mp h).1)]
      unfold DF.stmt
      rw [kind_notMem hv]

theorem stmtA' : (tfOut g n e m).stmt e.1.dst = none := F.stmt_none fun h => (vs'.mp h).2.2 rfl

/-- the computation that wrote the fused container -/
theorem stmtT {o : List Nat} (ho : Order g.gr o) : ∃ code ins, g.stmt i.1.src = some (.tasklet code ins (g.name n) []) ∧
    (tfOut g n e m).stmt i.1.src = some (.tasklet code ins (g.name m.1.dst) m.2) := by
  obtain ⟨c, is, os, hk⟩ := isTasklet_kind F.tsk
  have hc := isTasklet_code F.tsk
  have hv : i.1.src ∈ g.gr.vs := (F.wf.ends _ (DF.mem_gr F.memi)).1
  have hv' : i.1.src ∈ (tfOut g n e m).gr.vs := vs'.mpr ⟨hv, F.n_ne hc, F.T_ne ho⟩
  have hlo := (F.val.outDeg _ c is os hk).2
  match os, hlo with
  | [d], _ =>
    obtain ⟨x, hx, h1, h2⟩ := (F.wf.outs _ hv is [d] (by rw [hk]; rfl)).2 d (by simp)
    obtain ⟨x', hx', rfl⟩ := List.mem_map.mp hx
    have hxi := F.fromT hx' h1
    subst hxi
    have hfd : g.edges.find? (fun y => y.1.src == x'.1.src && y.1.sc == d) = some x' :=
      find_single (filter_single F.outT).2.2 F.memi (by simp [h2]) (fun y hy => by simp at hy ⊢; exact hy.1)
    refine ⟨toString c, is.map (g.opd x'.1.src), ?_, ?_⟩
    · unfold DF.stmt
      rw [hk]
      simp only [List.headD_cons, DF.res, hfd, F.idst, F.isub]
    · unfold DF.stmt
      rw [F.kind' hv', hk]
      simp only [List.headD_cons]
      rw [F.res' ho hc (F.T_ne ho) d, if_pos ⟨rfl, by rw [hfd]; rfl⟩]
      simp only [funext fun c => F.opd' hc (F.T_ne ho) c]

theorem y0_ne {o : List Nat} (ho : Order g.gr o) : g.name m.1.dst ≠ g.name n := fun h =>
  F.m_ne_n ho (F.only _ (F.wf.ends _ (DF.mem_gr F.memm)).2 F.accM h)

theorem subM {y : String} (h : y ∈ Expr.atomsL m.2) : y ≠ g.name n := by
  rintro rfl
  exact F.sub (List.mem_flatMap.mpr ⟨m, F.memm, h⟩)

theorem not_reads {v : Nat} {st : Stmt} (h : g.stmt v = some st) (ha : v ≠ e.1.dst) : ¬ reads st.users (g.name n) := by
  intro hr
  rcases stmt_reads F.wf h hr with ⟨x, hx, hxa, hxn⟩ | hs
  · have := F.only x (arc_mem F.wf hx).1 hxa hxn
    subst this
    obtain ⟨y, hy, h1, h2⟩ := DF.arc_iff.mp hx
    have := F.fromN hy h1
    rw [this] at h2
    exact ha h2.symm
  · exact F.sub hs

/-- nodes other than the two computations -/
theorem same {E : Env} {o : List Nat} (ho : Order g.gr o) : ∀ (l : List Nat) (σ σ' : St), e.1.dst ∉ l → i.1.src ∉ l → (∀ y, y ≠ g.name n → σ y = σ' y) →
    ∀ y, y ≠ g.name n → runOrder E g.stmt l σ y = runOrder E (tfOut g n e m).stmt l σ' y
  | [], σ, σ', _, _, hR, y, hy => hR y hy
  | v :: l, σ, σ', h1, h2, hR, y, hy => by
    have hcons : ∀ f σ, runOrder E f (v :: l) σ = runOrder E f l (runOrder E f [v] σ) := fun f σ => runOrder_append E f [v] l σ
    have ha : v ≠ e.1.dst := by rintro rfl; exact h1 (by simp)
    have hT : v ≠ i.1.src := by rintro rfl; exact h2 (by simp)
    rw [hcons, hcons]
    refine same ho l _ _ (fun h => h1 (by simp [h])) (fun h => h2 (by simp [h])) (fun z hz => ?_) y hy
    have hs' := F.stmtO ho ha hT
    cases hs : g.stmt v with
    | none => rw [runOrder_skip E hs, runOrder_skip E (hs'.trans hs)]; exact hR z hz
    | some st =>
      rw [runOrder_one E hs, runOrder_one E (hs'.trans hs)]
      exact Stmt.run_congr E st (fun w hw => hR w (by rintro rfl; exact F.not_reads hs ha hw)) z (hR z hz)

/-- the two computations become one -/
theorem pair {E : Env} (hE : ∀ v, E.op (toString 0) [v] = v) {o : List Nat} (ho : Order g.gr o) (σ σ' : St) (hR : ∀ y, y ≠ g.name n → σ y = σ' y) (y : String)
    (hy : y ≠ g.name n) : runOrder E g.stmt [i.1.src, e.1.dst] σ y = runOrder E (tfOut g n e m).stmt [i.1.src] σ' y := by
  obtain ⟨code, ins, hs, hs'⟩ := F.stmtT ho
  rw [show [i.1.src, e.1.dst] = [i.1.src] ++ [e.1.dst] from rfl, runOrder_append, runOrder_one E hs, runOrder_one E F.stmtA, runOrder_one E hs']
  have hnr := F.not_reads hs (F.T_ne ho)
  have hval : (ins.map fun r => σ r.1 (r.2.map (σ.ev E))) = ins.map fun r => σ' r.1 (r.2.map (σ'.ev E)) := by
    refine List.map_congr_left fun r hr => ?_
    have h1 : r.1 ≠ g.name n := by
      intro h
      refine hnr ?_
      simp only [Stmt.users, reads, readsOf, List.mem_append, List.mem_map]
      exact Or.inl (Or.inl (Or.inl ⟨_, ⟨_, hr, rfl⟩, by rw [h]⟩))
    have h2 : ∀ z ∈ Expr.atomsL r.2, z ≠ g.name n := by
      rintro z hz rfl
      refine hnr ?_
      simp only [Stmt.users, reads, readsOf, List.mem_append, List.mem_map, List.mem_flatMap]
      exact Or.inl (Or.inl (Or.inr ⟨_, ⟨_, hr, hz⟩, rfl⟩))
    rw [hR _ h1, evs_at (τ := σ') fun z hz => hR z (h2 z hz)]
  simp only [Stmt.run, List.map_nil, List.map_cons, hval]
  have hoff : ∀ v z, z ≠ g.name n → (σ.set (g.name n) [] v) z = σ' z := fun v z hz => by
    funext j; simp only [St.set, hz, false_and, if_false]; rw [hR z hz]
  rw [show ∀ v, (σ.set (g.name n) [] v) (g.name n) [] = v from fun v => by simp [St.set], hE, evs_at (τ := σ') fun z hz => hoff _ z (F.subM hz)]
  funext j
  simp only [St.set, hy, false_and, if_false]
  rw [hR y hy]

/-- no computation between the two conflicts with the assignment -/
theorem between {o : List Nat} (ho : Order g.gr o) (hr : RaceFree g) {p q r : List Nat} (h : o = p ++ i.1.src :: q ++ e.1.dst :: r) :
    ∀ b ∈ q, ¬ ConflictAt g.stmt b e.1.dst := by
  intro b hb hc
  obtain ⟨q1, q2, hq⟩ := List.append_of_mem hb
  have b1 : Before o i.1.src b := ⟨p, q1, q2 ++ e.1.dst :: r, by rw [h, hq]; simp⟩
  have b2 : Before o b e.1.dst := ⟨p ++ i.1.src :: q1, q2, r, by rw [h, hq]; simp⟩
  have hbc : g.isAccess b = false := by obtain ⟨s, t, hs, _⟩ := hc; exact (stmt_code hs).1
  have hne : b ≠ e.1.dst := by
    intro h'
    rw [h'] at b2
    exact b2.asymm ho.nodup b2
  rcases hr b ((ho.mem _).1 b2.mem.1) _ ((ho.mem _).1 b2.mem.2) hne hc with hp | hp
  · obtain ⟨d, hd, hbd⟩ := hp.lastStep
    obtain ⟨x, hx, h1, h2⟩ := DF.arc_iff.mp hd
    have hdn : d = n := by rw [← h1, F.toA hx h2, F.esrc]
    rcases hbd with hbd | hbd
    · exact F.n_ne hbc (hbd ▸ hdn)
    · rw [hdn] at hbd
      obtain ⟨c, hc', hbc'⟩ := hbd.lastStep
      obtain ⟨x, hx, h1, h2⟩ := DF.arc_iff.mp hc'
      have hcT : c = i.1.src := by rw [← h1, F.toN hx h2]
      rcases hbc' with hbc' | hbc'
      · rw [← hbc', hcT] at b1
        exact b1.asymm ho.nodup b1
      · rw [hcT] at hbc'
        exact b1.asymm ho.nodup (ho.before hbc')
  · exact b2.asymm ho.nodup (ho.before hp)

/-- the same order, without the assignment -/
theorem same_order {E : Env} (hE : ∀ v, E.op (toString 0) [v] = v) {o : List Nat} (ho : Order g.gr o) (hr : RaceFree g) (σ : St) (y : String) (hy : y ≠ g.name n) :
    runOrder E g.stmt o σ y = runOrder E (tfOut g n e m).stmt o σ y := by
  obtain ⟨h1, h2, _⟩ := F.befores ho
  obtain ⟨p, q, r, h⟩ := h1.trans' ho.nodup h2
  have h : o = p ++ i.1.src :: q ++ e.1.dst :: r := by rw [h]; simp
  have hb := F.between ho hr h
  have hnd := ho.nodup
  have e1 : runOrder E g.stmt o σ = runOrder E g.stmt (q ++ r) (runOrder E g.stmt [i.1.src, e.1.dst] (runOrder E g.stmt p σ)) := by
    rw [h, show p ++ i.1.src :: q ++ e.1.dst :: r = p ++ ([i.1.src] ++ (q ++ e.1.dst :: r)) by simp, runOrder_append, runOrder_append,
      move_front q r _ hb, show e.1.dst :: (q ++ r) = [e.1.dst] ++ (q ++ r) from rfl, runOrder_append, ← runOrder_append E g.stmt [i.1.src]]
    rfl
  have e2 : runOrder E (tfOut g n e m).stmt o σ = runOrder E (tfOut g n e m).stmt (q ++ r) (runOrder E (tfOut g n e m).stmt [i.1.src] (runOrder E (tfOut g n e m).stmt p σ)) := by
    rw [h, show p ++ i.1.src :: q ++ e.1.dst :: r = p ++ ([i.1.src] ++ (q ++ ([e.1.dst] ++ r))) by simp, runOrder_append, runOrder_append,
      runOrder_append, runOrder_append, runOrder_skip E F.stmtA', ← runOrder_append]
  rw [h] at hnd
  have hn : (i.1.src :: e.1.dst :: (p ++ (q ++ r))).Nodup := by
    refine (List.Perm.nodup_iff ?_).mp hnd
    have h1 : List.Perm (p ++ i.1.src :: q ++ e.1.dst :: r) (i.1.src :: (p ++ (q ++ e.1.dst :: r))) := by
      rw [show p ++ i.1.src :: q ++ e.1.dst :: r = p ++ i.1.src :: (q ++ e.1.dst :: r) by simp]
      exact List.perm_middle
    have h2 : List.Perm (p ++ (q ++ e.1.dst :: r)) (e.1.dst :: (p ++ (q ++ r))) := by
      rw [show p ++ (q ++ e.1.dst :: r) = (p ++ q) ++ e.1.dst :: r by simp, show p ++ (q ++ r) = (p ++ q) ++ r by simp]
      exact List.perm_middle
    exact h1.trans (List.Perm.cons _ h2)
  simp only [List.nodup_cons, List.mem_cons, List.mem_append, not_or] at hn
  obtain ⟨⟨_, hTp, hTq, hTr⟩, ⟨hap, haq, har⟩, _⟩ := hn
  rw [e1, e2]
  refine F.same ho (q ++ r) _ _ (by simp [haq, har]) (by simp [hTq, hTr]) (fun z hz => ?_) y hy
  refine F.pair hE ho _ _ (fun w hw => ?_) z hz
  exact F.same ho p _ _ hap hTp (fun _ _ => rfl) w hw

theorem order' {o : List Nat} (ho : Order g.gr o) : Order (tfOut g n e m).gr (o.filter fun v => decide (v ∈ (tfOut g n e m).gr.vs)) := by
  refine ⟨ho.nodup.filter _, fun v => ?_, fun a b hab => ?_⟩
  · simp only [List.mem_filter, decide_eq_true_eq, ho.mem]
    exact ⟨fun h => h.2, fun h => ⟨(vs'.mp h).1, h⟩⟩
  · obtain ⟨x', hx', h1, h2⟩ := DF.arc_iff.mp hab
    obtain ⟨x, hx, hs, hs', rfl⟩ := mem_edges.mp hx'
    obtain ⟨b1, b2, b3⟩ := F.befores ho
    have hb := ho.arcs _ _ (DF.arc_of hx)
    split at h1
    · rename_i hd
      rw [if_pos hd] at h2
      subst h1; subst h2
      refine Flow.Before.filter ?_ (by simpa using vs'.mpr ⟨(F.wf.ends _ (DF.mem_gr hx)).1, hs, hs'⟩)
        (by simpa using vs'.mpr ⟨(F.wf.ends _ (DF.mem_gr F.memm)).2, F.m_ne_n ho, F.m_ne_a⟩)
      rw [hd] at hb
      exact hb.trans' ho.nodup (b2.trans' ho.nodup b3)
    · rename_i hd
      rw [if_neg hd] at h2
      subst h1; subst h2
      have hda : x.1.dst ≠ e.1.dst := by
        intro h
        have := F.toA hx h
        rw [this] at hs
        exact hs F.esrc
      exact hb.filter (by simpa using vs'.mpr ⟨(F.wf.ends _ (DF.mem_gr hx)).1, hs, hs'⟩)
        (by simpa using vs'.mpr ⟨(F.wf.ends _ (DF.mem_gr hx)).2, hd, hda⟩)

theorem arcT {o : List Nat} (ho : Order g.gr o) : (tfOut g n e m).gr.Arc i.1.src m.1.dst := by
  refine DF.arc_iff.mpr ⟨_, mem_edges.mpr ⟨i, F.memi, F.n_ne (isTasklet_code F.tsk), F.T_ne ho, rfl⟩, ?_, ?_⟩ <;> rw [if_pos F.idst]

/-- paths; the removed nodes are represented by the computation -/
theorem path {o : List Nat} (ho : Order g.gr o) {u v : Nat} (h : Reaches g.gr u v) (hvn : v ≠ n) (hva : v ≠ e.1.dst) :
    Reaches (tfOut g n e m).gr (if u = n ∨ u = e.1.dst then i.1.src else u) v := by
  have arc : ∀ {a b}, g.gr.Arc a b → a ≠ n → a ≠ e.1.dst → a ≠ i.1.src → b ≠ n ∧ b ≠ e.1.dst ∧ (tfOut g n e m).gr.Arc a b := by
    intro a b hab h1 h2 h3
    obtain ⟨x, hx, k1, k2⟩ := DF.arc_iff.mp hab
    have hbn : b ≠ n := by
      intro h
      have := F.toN hx (k2.trans h)
      rw [this] at k1; exact h3 k1.symm
    have hba : b ≠ e.1.dst := by
      intro h
      have := F.toA hx (k2.trans h)
      rw [this, F.esrc] at k1; exact h1 k1.symm
    refine ⟨hbn, hba, DF.arc_iff.mpr ⟨x, mem_edges.mpr ⟨x, hx, by rw [k1]; exact h1, by rw [k1]; exact h2, ?_⟩, k1, k2⟩⟩
    rw [if_neg (by rw [k2]; exact hbn)]
  have fromN : ∀ {b}, g.gr.Arc n b → b = e.1.dst := fun hab => by
    obtain ⟨x, hx, k1, k2⟩ := DF.arc_iff.mp hab
    rw [← k2, F.fromN hx k1]
  have fromA : ∀ {b}, g.gr.Arc e.1.dst b → b = m.1.dst := fun hab => by
    obtain ⟨x, hx, k1, k2⟩ := DF.arc_iff.mp hab
    rw [← k2, F.fromA hx k1]
  have fromT : ∀ {b}, g.gr.Arc i.1.src b → b = n := fun hab => by
    obtain ⟨x, hx, k1, k2⟩ := DF.arc_iff.mp hab
    rw [← k2, F.fromT hx k1, F.idst]
  have ane : e.1.dst ≠ n := F.n_ne (isAssign_code F.asg)
  have Tne : i.1.src ≠ n := F.n_ne (isTasklet_code F.tsk)
  induction h with
  | @one a b hab =>
    by_cases h1 : a = n
    · rw [h1] at hab; exact absurd (fromN hab) hva
    by_cases h2 : a = e.1.dst
    · rw [h2] at hab
      rw [if_pos (Or.inr h2), fromA hab]
      exact .one (F.arcT ho)
    by_cases h3 : a = i.1.src
    · rw [h3] at hab; exact absurd (fromT hab) hvn
    · rw [if_neg (by simp [h1, h2])]
      exact .one (arc hab h1 h2 h3).2.2
  | @step a b c hab _ ih =>
    have ih := ih hvn hva
    by_cases h1 : a = n
    · rw [h1] at hab
      rw [if_pos (Or.inr (fromN hab))] at ih
      rw [if_pos (Or.inl h1)]; exact ih
    by_cases h2 : a = e.1.dst
    · rw [h2] at hab
      rw [if_neg (by rw [fromA hab]; simp [F.m_ne_n ho, F.m_ne_a]), fromA hab] at ih
      rw [if_pos (Or.inr h2)]
      exact .step (F.arcT ho) ih
    by_cases h3 : a = i.1.src
    · rw [h3] at hab
      rw [if_pos (Or.inl (fromT hab))] at ih
      rw [if_neg (by simp [h1, h2]), h3]
      exact ih
    · obtain ⟨k1, k2, k3⟩ := arc hab h1 h2 h3
      rw [if_neg (by simp [k1, k2])] at ih
      rw [if_neg (by simp [h1, h2])]
      exact .step k3 ih

/-- what leads to the assignment leads to the computation -/
theorem before_a {b : Nat} (hb : g.isAccess b = false) (h : Reaches g.gr b e.1.dst) : b = i.1.src ∨ Reaches g.gr b i.1.src := by
  obtain ⟨d, hd, hbd⟩ := h.lastStep
  obtain ⟨x, hx, h1, h2⟩ := DF.arc_iff.mp hd
  have hdn : d = n := by rw [← h1, F.toA hx h2, F.esrc]
  rcases hbd with hbd | hbd
  · exact absurd (hbd ▸ hdn) (F.n_ne hb)
  · rw [hdn] at hbd
    obtain ⟨c, hc', hbc'⟩ := hbd.lastStep
    obtain ⟨x, hx, h1, h2⟩ := DF.arc_iff.mp hc'
    have hcT : c = i.1.src := by rw [← h1, F.toN hx h2]
    rcases hbc' with hbc' | hbc'
    · exact Or.inl (hbc' ▸ hcT)
    · exact Or.inr (hcT ▸ hbc')

theorem raceFree' {o : List Nat} (ho : Order g.gr o) (hr : RaceFree g) : RaceFree (tfOut g n e m) := by
  have hTv : i.1.src ∈ g.gr.vs := (F.wf.ends _ (DF.mem_gr F.memi)).1
  have hav : e.1.dst ∈ g.gr.vs := (F.wf.ends _ (DF.mem_gr F.meme)).2
  have old : ∀ {u v}, u ∈ (tfOut g n e m).gr.vs → v ∈ (tfOut g n e m).gr.vs → u ≠ v → ConflictAt g.stmt u v →
      Reaches (tfOut g n e m).gr u v ∨ Reaches (tfOut g n e m).gr v u := by
    intro u v hu hv huv hc
    have hu := vs'.mp hu
    have hv := vs'.mp hv
    rcases hr u hu.1 v hv.1 huv hc with h | h
    · have := F.path ho h hv.2.1 hv.2.2
      rw [if_neg (by simp [hu.2])] at this
      exact Or.inl this
    · have := F.path ho h hu.2.1 hu.2.2
      rw [if_neg (by simp [hv.2])] at this
      exact Or.inr this
  obtain ⟨code, ins, hsT, hsT'⟩ := F.stmtT ho
  -- conflicts of the fused computation
  have key : ∀ {v sv}, v ∈ (tfOut g n e m).gr.vs → v ≠ i.1.src → g.stmt v = some sv → (Stmt.tasklet code ins (g.name m.1.dst) m.2).Conflict sv →
      Reaches (tfOut g n e m).gr i.1.src v ∨ Reaches (tfOut g n e m).gr v i.1.src := by
    intro v sv hv hne hsv hc
    have hv2 := vs'.mp hv
    have viaA : ConflictAt g.stmt e.1.dst v → Reaches (tfOut g n e m).gr i.1.src v ∨ Reaches (tfOut g n e m).gr v i.1.src := by
      intro hc
      rcases hr _ hav v hv2.1 (Ne.symm hv2.2.2) hc with h | h
      · have := F.path ho h hv2.2.1 hv2.2.2
        rw [if_pos (Or.inr rfl)] at this
        exact Or.inl this
      · rcases F.before_a (stmt_code hsv).1 h with h | h
        · exact absurd h hne
        · have := F.path ho h (F.n_ne (isTasklet_code F.tsk)) (F.T_ne ho)
          rw [if_neg (by simp [hv2.2])] at this
          exact Or.inr this
    have viaT : ConflictAt g.stmt i.1.src v → _ := fun hc => old (vs'.mpr ⟨hTv, F.n_ne (isTasklet_code F.tsk), F.T_ne ho⟩) hv (Ne.symm hne) hc
    obtain ⟨y, ⟨h1, h2⟩ | ⟨h1, h2⟩⟩ := hc
    · refine viaA ⟨_, _, F.stmtA, hsv, y, Or.inl ⟨?_, h2⟩⟩
      simp [Stmt.users, writes, readsOf] at h1 ⊢
      exact h1
    · simp only [Stmt.users, reads, readsOf, List.mem_append] at h1
      rcases h1 with (h1 | h1) | h1
      · refine viaT ⟨_, _, hsT, hsv, y, Or.inr ⟨?_, h2⟩⟩
        simp only [Stmt.users, reads, readsOf, List.mem_append]
        exact Or.inl (Or.inl h1)
      · refine viaA ⟨_, _, F.stmtA, hsv, y, Or.inr ⟨?_, h2⟩⟩
        simp only [Stmt.users, reads, readsOf, List.mem_append]
        exact Or.inl (Or.inr h1)
      · simp at h1
  intro u hu v hv huv hc
  obtain ⟨su', sv', hsu', hsv', hc⟩ := hc
  have hu2 := vs'.mp hu
  have hv2 := vs'.mp hv
  by_cases huT : u = i.1.src
  · subst huT
    have hvT : v ≠ i.1.src := Ne.symm huv
    rw [hsT'] at hsu'
    cases hsu'
    rw [F.stmtO ho hv2.2.2 hvT] at hsv'
    exact key hv hvT hsv' hc
  · by_cases hvT : v = i.1.src
    · subst hvT
      rw [hsT'] at hsv'
      cases hsv'
      rw [F.stmtO ho hu2.2.2 huT] at hsu'
      exact (key hu huT hsu' hc.symm).symm
    · rw [F.stmtO ho hu2.2.2 huT] at hsu'
      rw [F.stmtO ho hv2.2.2 hvT] at hsv'
      exact old hu hv huv ⟨su', sv', hsu', hsv', hc⟩

end OutF

/-- **C78, "output" assignments.** `t = ...; y[sub] = t` becomes `y[sub] = ...`: in a block without races the result is the same, whatever the order, except for the
container `t` that nothing else accesses. -/
theorem tasklet_fusion_output {E : Env} (hE : ∀ v, E.op (toString 0) [v] = v) {g : DF} {n : Nat} {i e m : Edge × List Expr} (hw : g.Wf)
    (hv : g.Valid) (hacc : tfOutAccepts g n i e m = true) (hr : RaceFree g) {o o' : List Nat} (ho : Order g.gr o) (ho' : Order (tfOut g n e m).gr o')
    (σ : St) (y : String) (hy : y ≠ g.name n) : runOrder E (tfOut g n e m).stmt o' σ y = runOrder E g.stmt o σ y := by
  have F := OutF.of hw hv hacc
  rw [F.same_order hE ho hr σ y hy, race_free_order (F.raceFree' ho hr) ho' (F.order' ho)]
  rw [runOrder_drop E (fun v hv => F.stmt_none (by simpa using hv))]

end Docc.IR
