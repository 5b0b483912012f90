import Verif.IR.TaskletFusion
import Verif.IR.BlockFusionCrit

/-! C78: fusing assignments. -/
namespace Docc.IR
open Docc.Sym
open Docc.Flow (Gr Kind Edge Before)

theorem filter_single {α : Type} {p : α → Bool} {l : List α} {x : α} (h : l.filter p = [x]) : x ∈ l ∧ p x = true ∧ ∀ e ∈ l, p e = true → e = x := by
  have hx : x ∈ l.filter p := by rw [h]; simp
  rw [List.mem_filter] at hx
  refine ⟨hx.1, hx.2, fun e he hp => ?_⟩
  have : e ∈ l.filter p := List.mem_filter.mpr ⟨he, hp⟩
  rw [h] at this
  simpa using this

theorem find_single {α : Type} {p q : α → Bool} {l : List α} {x : α} (h : ∀ e ∈ l, p e = true → e = x) (hx : x ∈ l) (hq : q x = true)
    (hqp : ∀ e, q e = true → p e = true) : l.find? q = some x := by
  cases hf : l.find? q with
  | none => exact absurd hq (by simpa using List.find?_eq_none.mp hf x hx)
  | some y => rw [h y (List.mem_of_find?_eq_some hf) (hqp y (List.find?_some hf))]

theorem find_filter_map {α β : Type} {p : α → Bool} {f : α → β} {q' : β → Bool} {q : α → Bool} : ∀ {l : List α}, (∀ e ∈ l, q e = true → p e = true) →
    (∀ e ∈ l, p e = true → q' (f e) = q e) → ((l.filter p).map f).find? q' = (l.find? q).map f
  | [], _, _ => rfl
  | e :: l, h1, h2 => by
    have ih := find_filter_map (l := l) (fun x hx => h1 x (by simp [hx])) (fun x hx => h2 x (by simp [hx]))
    by_cases hp : p e = true
    · rw [List.filter_cons_of_pos hp, List.map_cons, List.find?_cons, List.find?_cons, h2 e (by simp) hp]
      cases q e with
      | true => rfl
      | false => exact ih
    · have hq : q e = false := by
        cases hq : q e with
        | true => exact absurd (h1 e (by simp) hq) hp
        | false => rfl
      rw [List.filter_cons_of_neg hp, List.find?_cons, hq]
      exact ih

theorem runOrder_one (E : Env) {f : Nat → Option Stmt} {v : Nat} {st : Stmt} (h : f v = some st) (σ : St) : runOrder E f [v] σ = st.run E σ := by
  unfold runOrder; simp [h, runBlock]

theorem runOrder_skip (E : Env) {f : Nat → Option Stmt} {v : Nat} (h : f v = none) (σ : St) : runOrder E f [v] σ = σ := by
  unfold runOrder; simp [h, runBlock]

theorem DF.mem_gr {g : DF} {e : Edge × List Expr} (h : e ∈ g.edges) : e.1 ∈ g.gr.edges := List.mem_map.mpr ⟨e, h, rfl⟩

theorem DF.arc_of {g : DF} {e : Edge × List Expr} (h : e ∈ g.edges) : g.gr.Arc e.1.src e.1.dst := ⟨e.1, DF.mem_gr h, rfl, rfl⟩

theorem DF.arc_iff {g : DF} {a b : Nat} : g.gr.Arc a b ↔ ∃ e ∈ g.edges, e.1.src = a ∧ e.1.dst = b := by
  constructor
  · rintro ⟨e, he, h⟩
    obtain ⟨e', he', rfl⟩ := List.mem_map.mp he
    exact ⟨e', he', h⟩
  · rintro ⟨e, he, rfl, rfl⟩
    exact DF.arc_of he

theorem isAssign_kind {g : DF} {v : Nat} (h : g.isAssign v = true) : ∃ i o, g.gr.kind v = .tasklet 0 i o := by
  unfold DF.isAssign at h
  cases hk : g.gr.kind v with
  | access d => rw [hk] at h; cases h
  | tasklet c i o => rw [hk] at h; simp at h; exact ⟨i, o, by rw [h]⟩
  | lib c i o => rw [hk] at h; cases h

theorem isTasklet_kind {g : DF} {v : Nat} (h : g.isTasklet v = true) : ∃ c i o, g.gr.kind v = .tasklet c i o := by
  unfold DF.isTasklet at h
  cases hk : g.gr.kind v with
  | access d => rw [hk] at h; cases h
  | tasklet c i o => exact ⟨c, i, o, rfl⟩
  | lib c i o => rw [hk] at h; cases h

theorem isTasklet_code {g : DF} {v : Nat} (h : g.isTasklet v = true) : g.isAccess v = false := by
  obtain ⟨c, i, o, hk⟩ := isTasklet_kind h
  unfold DF.isAccess; rw [hk]

theorem isAssign_code {g : DF} {v : Nat} (h : g.isAssign v = true) : g.isAccess v = false := by
  obtain ⟨i, o, hk⟩ := isAssign_kind h
  unfold DF.isAccess; rw [hk]

/-- the only out-edge of a tasklet -/
theorem tasklet_out {g : DF} (hv : g.Valid) {v : Nat} (h : g.isTasklet v = true) {e : Edge × List Expr} (he : e ∈ g.edges) (hs : e.1.src = v) : g.outs v = [e] := by
  obtain ⟨c, i, o, hk⟩ := isTasklet_kind h
  have hl := (hv.outDeg v c i o hk).1
  have hm : e ∈ g.outs v := List.mem_filter.mpr ⟨he, by simp [hs]⟩
  match ho : g.outs v with
  | [] => rw [ho] at hm; cases hm
  | [x] => rw [ho] at hm; simp at hm; rw [hm]
  | x :: y :: r => rw [ho] at hl; simp at hl

/-- the computation of an assignment -/
theorem assign_stmt {g : DF} (hw : g.Wf) (hv : g.Valid) {a : Nat} (ha : g.isAssign a = true) {e0 i : Edge × List Expr} (h0 : g.ins a = [e0])
    (hi : g.outs a = [i]) : g.stmt a = some (.tasklet (toString 0) [(g.name e0.1.src, e0.2)] (g.name i.1.dst) i.2) := by
  obtain ⟨is, os, hk⟩ := isAssign_kind ha
  obtain ⟨hm0, hp0, hu0⟩ := filter_single h0
  obtain ⟨hm1, hp1, hu1⟩ := filter_single hi
  have hva : a ∈ g.gr.vs := (hw.ends _ (DF.mem_gr hm1)).1 |> fun h => by simpa using (show i.1.src = a by simpa using hp1) ▸ h
  have hli : is.length = 1 := hv.arity a is os hk
  have hlo : os.length = 1 := (hv.outDeg a 0 is os hk).2
  match is, os, hli, hlo with
  | [c], [d], _, _ =>
    unfold DF.stmt
    rw [hk]
    have e1 : g.opd a c = (g.name e0.1.src, e0.2) := by
      obtain ⟨x, hx, h1, h2⟩ := hw.ins a hva [c] [d] (by rw [hk]; rfl) c (by simp)
      obtain ⟨x', hx', rfl⟩ := List.mem_map.mp hx
      have : x' = e0 := hu0 x' hx' (by simp [h1])
      subst this
      unfold DF.opd
      rw [find_single hu0 hm0 (by simp [h1, h2]) (fun e he => by simp at he ⊢; exact he.1)]
    have e2 : g.res a d = (g.name i.1.dst, i.2) := by
      obtain ⟨x, hx, h1, h2⟩ := (hw.outs a hva [c] [d] (by rw [hk]; rfl)).2 d (by simp)
      obtain ⟨x', hx', rfl⟩ := List.mem_map.mp hx
      have : x' = i := hu1 x' hx' (by simp [h1])
      subst this
      unfold DF.res
      rw [find_single hu1 hm1 (by simp [h1, h2]) (fun e he => by simp at he ⊢; exact he.1)]
    simp [e1, e2]

theorem Reaches.lastStep {g : Gr} {a b : Nat} (h : Reaches g a b) : ∃ c, g.Arc c b ∧ (c = a ∨ Reaches g a c) := by
  induction h with
  | one h => exact ⟨_, h, Or.inl rfl⟩
  | step h _ ih =>
    obtain ⟨c, hc, rfl | hr⟩ := ih
    · exact ⟨_, hc, Or.inr (.one h)⟩
    · exact ⟨c, hc, Or.inr (.step h hr)⟩

/-! ### "input" assignments -/

/-- what the criterion establishes -/
structure InF (g : DF) (n : Nat) (i e0 : Edge × List Expr) : Prop where
  wf : g.Wf
  val : g.Valid
  acc : g.isAccess n = true
  asg : g.isAssign e0.1.dst = true
  isrc : i.1.src = e0.1.dst
  insn : g.ins n = [i]
  insa : g.ins e0.1.dst = [e0]
  outa : g.outs e0.1.dst = [i]
  isub : i.2 = []
  cons : ∀ e ∈ g.edges, e.1.src = n → g.isTasklet e.1.dst = true ∧ e.2 = []
  only : ∀ m ∈ g.gr.vs, g.isAccess m = true → g.name m = g.name n → m = n
  sub : g.name n ∉ g.subsetSyms

theorem InF.of {g : DF} {n : Nat} {i e0 : Edge × List Expr} (hw : g.Wf) (hv : g.Valid) (h : tfInAccepts g n i e0 = true) : InF g n i e0 := by
  simp only [tfInAccepts, DF.onlyHere, Bool.and_eq_true, decide_eq_true_eq, List.all_eq_true, Bool.or_eq_true, Bool.not_eq_true',
    decide_eq_false_iff_not, bne_iff_ne, beq_iff_eq] at h
  obtain ⟨⟨⟨⟨⟨⟨⟨h1, h2⟩, h3⟩, h4⟩, h5⟩, h6⟩, h7⟩, h8, h9⟩ := h
  have hd : e0.1.dst = i.1.src := by simpa using (filter_single h6).2.1
  rw [← hd] at h5 h6
  have ha : g.isTasklet e0.1.dst = true := by
    obtain ⟨a, b, hk⟩ := isAssign_kind h5
    unfold DF.isTasklet; rw [hk]
  refine ⟨hw, hv, h1, h5, hd.symm, h2, h6, tasklet_out hv ha (filter_single h2).1 hd.symm, h4, fun e he hs => h7 e (List.mem_filter.mpr ⟨he, by simp [hs]⟩), ?_, h9⟩
  intro m hm hma hmn
  rcases h8 m hm with (h | h) | h
  · rw [hma] at h; cases h
  · exact absurd hmn h
  · exact h

namespace InF
variable {g : DF} {cst : Nat → Bool} {n : Nat} {i e0 : Edge × List Expr} (F : InF g n i e0)
include F

theorem mem0 : e0 ∈ g.edges := (filter_single F.insa).1
theorem memi : i ∈ g.edges := (filter_single F.insn).1
theorem idst : i.1.dst = n := by simpa using (filter_single F.insn).2.1
theorem toN {e : Edge × List Expr} (he : e ∈ g.edges) (h : e.1.dst = n) : e = i := (filter_single F.insn).2.2 e he (by simp [h])
theorem toA {e : Edge × List Expr} (he : e ∈ g.edges) (h : e.1.dst = e0.1.dst) : e = e0 := (filter_single F.insa).2.2 e he (by simp [h])
theorem fromA {e : Edge × List Expr} (he : e ∈ g.edges) (h : e.1.src = e0.1.dst) : e = i := (filter_single F.outa).2.2 e he (by simp [h])
theorem accS : g.isAccess e0.1.src = true := by
  have := F.wf.bip _ (DF.mem_gr F.mem0)
  rw [isAssign_code F.asg] at this
  simpa using this

theorem stmtA : g.stmt e0.1.dst = some (.tasklet (toString 0) [(g.name e0.1.src, e0.2)] (g.name n) []) := by
  have := assign_stmt F.wf F.val F.asg F.insa F.outa
  rw [this, F.idst, F.isub]

theorem s_ne_n {o : List Nat} (ho : Order g.gr o) : e0.1.src ≠ n := by
  intro h
  have h1 := ho.arcs _ _ (DF.arc_of F.mem0)
  have h2 := ho.arcs _ _ (DF.arc_of F.memi)
  rw [F.isrc, F.idst] at h2
  rw [h] at h1
  exact h1.asymm ho.nodup h2

theorem a_ne_n : e0.1.dst ≠ n := by
  intro h
  have := isAssign_code F.asg
  rw [h, F.acc] at this; cases this

theorem nodup' : (tfIn g cst n e0).gr.vs.Nodup := by
  unfold Gr.vs DF.gr tfIn
  exact List.Nodup.sublist (List.Sublist.map _ List.filter_sublist) F.wf.ids

theorem vs_sub {v : Nat} (hv : v ∈ (tfIn g cst n e0).gr.vs) : v ∈ g.gr.vs ∧ v ≠ e0.1.dst ∧ v ≠ n := by
  obtain ⟨m, hm, rfl⟩ := List.mem_map.mp hv
  have hm : m ∈ g.nodes.filter _ := hm
  rw [List.mem_filter] at hm
  simp only [Bool.and_eq_true, bne_iff_ne] at hm
  exact ⟨List.mem_map.mpr ⟨m, hm.1, rfl⟩, hm.2.1.1, hm.2.1.2⟩

theorem vs_of {v : Nat} (hv : v ∈ g.gr.vs) (ha : v ≠ e0.1.dst) (hn : v ≠ n)
    (hc : g.isAccess v = false ∨ ∃ e ∈ (tfIn g cst n e0).edges, e.1.src = v ∨ e.1.dst = v) : v ∈ (tfIn g cst n e0).gr.vs := by
  obtain ⟨m, hm, rfl⟩ := List.mem_map.mp hv
  refine List.mem_map.mpr ⟨m, ?_, rfl⟩
  show m ∈ g.nodes.filter _
  rw [List.mem_filter]
  refine ⟨hm, ?_⟩
  simp only [Bool.and_eq_true, bne_iff_ne, Bool.not_eq_true', Bool.and_eq_false_iff]
  refine ⟨⟨ha, hn⟩, ?_⟩
  rcases hc with hc | ⟨e, he, hs⟩
  · left
    rw [List.any_eq_false]
    intro e he
    intro h
    simp only [tfOther, Bool.and_eq_true, beq_iff_eq] at h
    obtain ⟨h1, ⟨⟨⟨_, _⟩, h3⟩, _⟩, _⟩ := h
    rw [h1, hc] at h3; cases h3
  · right
    rw [List.all_eq_false]
    refine ⟨e, he, ?_⟩
    rcases hs with hs | hs <;> simp [hs]

theorem kind' {v : Nat} (hv : v ∈ (tfIn g cst n e0).gr.vs) : (tfIn g cst n e0).gr.kind v = g.gr.kind v := by
  obtain ⟨m, hm, rfl⟩ := List.mem_map.mp hv
  rw [kind_of_mem F.nodup' hm, kind_of_mem F.wf.ids]
  have hm : m ∈ g.nodes.filter _ := hm
  exact (List.mem_filter.mp hm).1

theorem stmt_none {v : Nat} (hv : v ∉ (tfIn g cst n e0).gr.vs) : (tfIn g cst n e0).stmt v = none := by
  unfold DF.stmt
  rw [kind_notMem hv]

theorem mem_edges {e' : Edge × List Expr} : e' ∈ (tfIn g cst n e0).edges ↔ ∃ e ∈ g.edges, e.1.dst ≠ e0.1.dst ∧ e.1.dst ≠ n ∧ tfMove g cst n e0 e = e' := by
  show e' ∈ List.map _ (List.filter _ _) ↔ _
  simp only [List.mem_map, List.mem_filter, Bool.and_eq_true, bne_iff_ne]
  constructor
  · rintro ⟨e, ⟨h1, h2, h3⟩, h4⟩; exact ⟨e, h1, h2, h3, h4⟩
  · rintro ⟨e, h1, h2, h3, h4⟩; exact ⟨e, ⟨h1, h2, h3⟩, h4⟩

omit F in
theorem move_dst (e : Edge × List Expr) : (tfMove g cst n e0 e).1.dst = e.1.dst ∧ (tfMove g cst n e0 e).1.dc = e.1.dc := by
  unfold tfMove
  split
  · exact ⟨rfl, rfl⟩
  · split <;> exact ⟨rfl, rfl⟩

/-- memlets from code nodes are not changed -/
theorem move_code {e : Edge × List Expr} (h : g.isAccess e.1.src = false) : tfMove g cst n e0 e = e := by
  have hn : e.1.src ≠ n := by
    rintro h'; rw [h', F.acc] at h; cases h
  unfold tfMove tfOther
  rw [if_neg hn, h]
  simp

theorem move_name {o : List Nat} (ho : Order g.gr o) {e : Edge × List Expr} (he : e ∈ g.edges) (hd : e.1.dst ≠ e0.1.dst) (hd' : e.1.dst ≠ n) (hc : g.isAccess e.1.src = true) :
    (tfIn g cst n e0).name (tfMove g cst n e0 e).1.src = if e.1.src = n then g.name e0.1.src else g.name e.1.src := by
  have hm : tfMove g cst n e0 e ∈ (tfIn g cst n e0).edges := F.mem_edges.mpr ⟨e, he, hd, hd', rfl⟩
  have hs : (tfMove g cst n e0 e).1.src = e0.1.src ∨ (tfMove g cst n e0 e).1.src = e.1.src ∧ e.1.src ≠ n := by
    unfold tfMove
    split
    · exact Or.inl rfl
    · rename_i hne
      split
      · exact Or.inl rfl
      · exact Or.inr ⟨rfl, hne⟩
  have hsv : (tfMove g cst n e0 e).1.src ∈ (tfIn g cst n e0).gr.vs := by
    have hcode := isAssign_code F.asg
    rcases hs with hs | ⟨hs, hne⟩
    · refine F.vs_of ?_ ?_ ?_ (Or.inr ⟨_, hm, Or.inl rfl⟩)
      · rw [hs]; exact (F.wf.ends _ (DF.mem_gr F.mem0)).1
      · rw [hs]; intro h; have := F.accS; rw [h, hcode] at this; cases this
      · rw [hs]; exact F.s_ne_n ho
    · refine F.vs_of ?_ ?_ ?_ (Or.inr ⟨_, hm, Or.inl rfl⟩)
      · rw [hs]; exact (F.wf.ends _ (DF.mem_gr he)).1
      · rw [hs]; intro h; rw [h, hcode] at hc; cases hc
      · rw [hs]; exact hne
  have hnm : (tfIn g cst n e0).name (tfMove g cst n e0 e).1.src = g.name (tfMove g cst n e0 e).1.src := by
    unfold DF.name; rw [F.kind' hsv]
  rw [hnm]
  unfold tfMove
  split
  · rfl
  · split
    · rename_i h
      simp only [tfOther, Bool.and_eq_true, beq_iff_eq] at h
      exact h.2.symm
    · rfl

/-- the operand a tasklet reads in the fused graph -/
def opdF (g : DF) (n : Nat) (e0 : Edge × List Expr) (p : String × List Expr) : String × List Expr :=
  if p = (g.name n, []) then (g.name e0.1.src, e0.2) else p

theorem opd' {o : List Nat} (ho : Order g.gr o) {v : Nat} (hv : v ∈ g.gr.vs) (hc : g.isAccess v = false) (ha : v ≠ e0.1.dst) (c : String)
    (hex : ∃ e ∈ g.gr.edges, e.dst = v ∧ e.dc = c) : (tfIn g cst n e0).opd v c = opdF g n e0 (g.opd v c) ∧ (g.isTasklet v = false → (g.opd v c).1 ≠ g.name n) := by
  have hvn : v ≠ n := by rintro rfl; rw [F.acc] at hc; cases hc
  have hf : (tfIn g cst n e0).edges.find? (fun e => e.1.dst == v && e.1.dc == c) = (g.edges.find? fun e => e.1.dst == v && e.1.dc == c).map (tfMove g cst n e0) := by
    show (List.map _ (List.filter _ _)).find? _ = _
    refine find_filter_map ?_ ?_
    · intro e he h
      simp only [Bool.and_eq_true, beq_iff_eq] at h
      simp [h.1, ha, hvn]
    · intro e he _
      rw [(move_dst e).1, (move_dst e).2]
  unfold DF.opd
  rw [hf]
  cases hfd : g.edges.find? (fun e => e.1.dst == v && e.1.dc == c) with
  | none =>
    obtain ⟨x, hx, h1, h2⟩ := hex
    obtain ⟨x', hx', rfl⟩ := List.mem_map.mp hx
    have := List.find?_eq_none.mp hfd x' hx'
    simp [h1, h2] at this
  | some e =>
    have he := List.mem_of_find?_eq_some hfd
    have hd := List.find?_some hfd
    simp only [Bool.and_eq_true, beq_iff_eq] at hd
    have hsc : g.isAccess e.1.src = true := by
      have := F.wf.bip _ (DF.mem_gr he)
      rw [hd.1, hc] at this; simpa using this
    simp only [Option.map_some]
    rw [F.move_name ho he (by rw [hd.1]; exact ha) (by rw [hd.1]; exact hvn) hsc]
    unfold opdF
    by_cases hn : e.1.src = n
    · have := F.cons e he hn
      refine ⟨?_, fun ht => ?_⟩
      · rw [if_pos hn, hn, this.2, if_pos rfl]
        unfold tfMove; rw [if_pos hn]
      · rw [hd.1, ht] at this; cases this.1
    · have hne : g.name e.1.src ≠ g.name n := fun h => hn (F.only _ (F.wf.ends _ (DF.mem_gr he)).1 hsc h)
      refine ⟨?_, fun _ => hne⟩
      rw [if_neg hn, if_neg (by intro h; exact hne (Prod.mk.inj h).1)]
      unfold tfMove; rw [if_neg hn]
      split <;> rfl

theorem move_src {e : Edge × List Expr} {v : Nat} (hc : g.isAccess v = false) : (tfMove g cst n e0 e).1.src = v ↔ e.1.src = v := by
  have hn : n ≠ v := by rintro rfl; rw [F.acc] at hc; cases hc
  have hs : e0.1.src ≠ v := by rintro rfl; rw [F.accS] at hc; cases hc
  by_cases he : g.isAccess e.1.src = false
  · rw [F.move_code he]
  · have h2 : e.1.src ≠ v := by rintro rfl; exact he hc
    unfold tfMove
    split
    · simp [h2, hs]
    · split
      · simp [h2, hs]
      · exact Iff.rfl

theorem res' {v : Nat} (hc : g.isAccess v = false) (ha : v ≠ e0.1.dst) (c : String) : (tfIn g cst n e0).res v c = g.res v c := by
  have hdst : ∀ e ∈ g.edges, e.1.src = v → g.isAccess e.1.dst = true ∧ e.1.dst ≠ e0.1.dst ∧ e.1.dst ≠ n := by
    intro e he h
    have hd : g.isAccess e.1.dst = true := by
      have := F.wf.bip _ (DF.mem_gr he)
      rw [h, hc] at this; simpa using this.symm
    have h1 : e.1.dst ≠ e0.1.dst := by intro h'; rw [h', isAssign_code F.asg] at hd; cases hd
    have h2 : e.1.dst ≠ n := by
      intro h'
      have := F.toN he h'
      rw [this, F.isrc] at h
      exact ha h.symm
    exact ⟨hd, h1, h2⟩
  have hf : (tfIn g cst n e0).edges.find? (fun e => e.1.src == v && e.1.sc == c) = (g.edges.find? fun e => e.1.src == v && e.1.sc == c).map (tfMove g cst n e0) := by
    show (List.map _ (List.filter _ _)).find? _ = _
    refine find_filter_map ?_ ?_
    · intro e he h
      simp only [Bool.and_eq_true, beq_iff_eq] at h
      have := hdst e he h.1
      simp [this.2.1, this.2.2]
    · intro e he _
      by_cases hs : e.1.src = v
      · rw [F.move_code (by rw [hs]; exact hc)]
      · have h1 : (e.1.src == v) = false := beq_eq_false_iff_ne.mpr hs
        have h2 : ((tfMove g cst n e0 e).1.src == v) = false := beq_eq_false_iff_ne.mpr (mt (F.move_src hc).mp hs)
        rw [h1, h2]; rfl
  unfold DF.res
  rw [hf]
  cases hfd : g.edges.find? (fun e => e.1.src == v && e.1.sc == c) with
  | none => rfl
  | some e =>
    have he := List.mem_of_find?_eq_some hfd
    have hd := List.find?_some hfd
    simp only [Bool.and_eq_true, beq_iff_eq] at hd
    have := hdst e he hd.1
    have hmc : tfMove g cst n e0 e = e := F.move_code (by rw [hd.1]; exact hc)
    have hm : e ∈ (tfIn g cst n e0).edges := F.mem_edges.mpr ⟨e, he, this.2.1, this.2.2, hmc⟩
    have hv' := F.vs_of (cst := cst) (F.wf.ends _ (DF.mem_gr he)).2 this.2.1 this.2.2 (Or.inr ⟨e, hm, Or.inr rfl⟩)
    simp only [Option.map_some, hmc]
    unfold DF.name; rw [F.kind' hv']

/-- the computation of a tasklet in the fused graph -/
theorem stmtT {o : List Nat} (ho : Order g.gr o) {v : Nat} {code : String} {ins : List (String × List Expr)} {out : String} {sub : List Expr}
    (h : g.stmt v = some (.tasklet code ins out sub)) (ha : v ≠ e0.1.dst) :
    (tfIn g cst n e0).stmt v = some (.tasklet code (ins.map (opdF g n e0)) out sub) := by
  obtain ⟨hc, hv⟩ := stmt_code h
  have hvn : v ≠ n := by rintro rfl; rw [F.acc] at hc; cases hc
  have hv' : v ∈ (tfIn g cst n e0).gr.vs := F.vs_of hv ha hvn (Or.inl hc)
  unfold DF.stmt at h ⊢
  rw [F.kind' hv']
  cases hk : g.gr.kind v with
  | access d => rw [hk] at h; cases h
  | lib c i o => rw [hk] at h; cases h
  | tasklet c i o =>
    rw [hk] at h
    cases h
    simp only [F.res' hc ha, List.map_map]
    congr 2
    refine List.map_congr_left fun x hx => ?_
    exact (F.opd' ho hv hc ha x (F.wf.ins v hv i o (by rw [hk]; rfl) x hx)).1

/-- the computation of a library node in the fused graph -/
theorem stmtL {o : List Nat} (ho : Order g.gr o) {v : Nat} {code : String} {rs ws : List String}
    (h : g.stmt v = some (.lib code rs ws)) (ha : v ≠ e0.1.dst) : (tfIn g cst n e0).stmt v = some (.lib code rs ws) := by
  obtain ⟨hc, hv⟩ := stmt_code h
  have hvn : v ≠ n := by rintro rfl; rw [F.acc] at hc; cases hc
  have hv' : v ∈ (tfIn g cst n e0).gr.vs := F.vs_of hv ha hvn (Or.inl hc)
  unfold DF.stmt at h ⊢
  rw [F.kind' hv']
  cases hk : g.gr.kind v with
  | access d => rw [hk] at h; cases h
  | tasklet c i o => rw [hk] at h; cases h
  | lib c i o =>
    rw [hk] at h
    cases h
    simp only [F.res' hc ha]
    congr 2
    refine List.map_congr_left fun x hx => ?_
    have := F.opd' (cst := cst) ho hv hc ha x (F.wf.ins v hv i o (by rw [hk]; rfl) x hx)
    have ht : g.isTasklet v = false := by unfold DF.isTasklet; rw [hk]
    rw [this.1]
    unfold opdF
    rw [if_neg (by intro h'; exact this.2 ht (by rw [h']))]

theorem stmtN {v : Nat} (h : g.stmt v = none) : (tfIn g cst n e0).stmt v = none := by
  by_cases hv : v ∈ (tfIn g cst n e0).gr.vs
  · unfold DF.stmt at h ⊢
    rw [F.kind' hv]
    cases hk : g.gr.kind v with
    | access d => rfl
    | tasklet c i o => rw [hk] at h; cases h
    | lib c i o => rw [hk] at h; cases h
  · exact F.stmt_none hv

theorem stmtA' : (tfIn g cst n e0).stmt e0.1.dst = none := F.stmt_none fun h => (F.vs_sub h).2.1 rfl

theorem x_ne {o : List Nat} (ho : Order g.gr o) : g.name e0.1.src ≠ g.name n := fun h =>
  F.s_ne_n ho (F.only _ (F.wf.ends _ (DF.mem_gr F.mem0)).1 F.accS h)

theorem sub0 {y : String} (h : y ∈ Expr.atomsL e0.2) : y ≠ g.name n := by
  rintro rfl
  exact F.sub (List.mem_flatMap.mpr ⟨e0, F.mem0, h⟩)

theorem not_writes {v : Nat} {st : Stmt} (h : g.stmt v = some st) (ha : v ≠ e0.1.dst) : ¬ writes st.users (g.name n) := by
  intro hw
  obtain ⟨m, hm, hma, hmn⟩ := stmt_writes F.wf h hw
  have := F.only m (arc_mem F.wf hm).2 hma hmn
  subst this
  obtain ⟨e, he, h1, h2⟩ := DF.arc_iff.mp hm
  have := F.toN he h2
  rw [this, F.isrc] at h1
  exact ha h1.symm

theorem reads_arc {v : Nat} {st : Stmt} (h : g.stmt v = some st) (hr : reads st.users (g.name n)) : g.gr.Arc n v := by
  rcases stmt_reads F.wf h hr with ⟨m, hm, hma, hmn⟩ | hs
  · have := F.only m (arc_mem F.wf hm).1 hma hmn
    subst this
    exact hm
  · exact absurd hs F.sub

/-- the operands of a tasklet that are the fused container -/
theorem ins_t {v : Nat} {code : String} {ins : List (String × List Expr)} {out : String} {sub : List Expr}
    (h : g.stmt v = some (.tasklet code ins out sub)) {r : String × List Expr} (hr : r ∈ ins) (hn : r.1 = g.name n) : r = (g.name n, []) := by
  obtain ⟨hc, hv⟩ := stmt_code h
  unfold DF.stmt at h
  cases hk : g.gr.kind v with
  | access d => rw [hk] at h; cases h
  | lib c i o => rw [hk] at h; cases h
  | tasklet c i o =>
    rw [hk] at h
    cases h
    obtain ⟨x, hx, rfl⟩ := List.mem_map.mp hr
    obtain ⟨y, hy, h1, h2⟩ := F.wf.ins v hv i o (by rw [hk]; rfl) x hx
    obtain ⟨y', hy', rfl⟩ := List.mem_map.mp hy
    unfold DF.opd at hn ⊢
    cases hfd : g.edges.find? (fun e => e.1.dst == v && e.1.dc == x) with
    | none =>
      have := List.find?_eq_none.mp hfd y' hy'
      simp [h1, h2] at this
    | some e =>
      rw [hfd] at hn
      have he := List.mem_of_find?_eq_some hfd
      have hd := List.find?_some hfd
      simp only [Bool.and_eq_true, beq_iff_eq] at hd
      have hsc : g.isAccess e.1.src = true := by
        have := F.wf.bip _ (DF.mem_gr he)
        rw [hd.1, hc] at this; simpa using this
      have hen := F.only _ (F.wf.ends _ (DF.mem_gr he)).1 hsc hn
      simp only [hen, (F.cons e he hen).2]

/-- subsets do not use the fused container -/
theorem sub_t {v : Nat} {code : String} {ins : List (String × List Expr)} {out : String} {sub : List Expr}
    (h : g.stmt v = some (.tasklet code ins out sub)) : g.name n ∉ Expr.atomsL sub ∧ ∀ r ∈ ins, g.name n ∉ Expr.atomsL r.2 := by
  obtain ⟨hc, hv⟩ := stmt_code h
  unfold DF.stmt at h
  cases hk : g.gr.kind v with
  | access d => rw [hk] at h; cases h
  | lib c i o => rw [hk] at h; cases h
  | tasklet c i o =>
    rw [hk] at h
    cases h
    refine ⟨fun hy => F.sub ?_, fun r hr hy => F.sub ?_⟩
    · unfold DF.res at hy
      cases hfd : g.edges.find? (fun e => e.1.src == v && e.1.sc == o.headD "") with
      | none => rw [hfd] at hy; cases hy
      | some x => rw [hfd] at hy; exact List.mem_flatMap.mpr ⟨x, List.mem_of_find?_eq_some hfd, hy⟩
    · obtain ⟨x, hx, rfl⟩ := List.mem_map.mp hr
      unfold DF.opd at hy
      cases hfd : g.edges.find? (fun e => e.1.dst == v && e.1.dc == x) with
      | none => rw [hfd] at hy; cases hy
      | some x => rw [hfd] at hy; exact List.mem_flatMap.mpr ⟨x, List.mem_of_find?_eq_some hfd, hy⟩

/-- one computation -/
theorem step {E : Env} {o : List Nat} (ho : Order g.gr o) {v : Nat} {st : Stmt} (h : g.stmt v = some st) (ha : v ≠ e0.1.dst) :
    ∃ st', (tfIn g cst n e0).stmt v = some st' ∧ ∀ σ σ' : St, (∀ y, y ≠ g.name n → σ y = σ' y) →
      (reads st.users (g.name n) → σ (g.name n) [] = σ (g.name e0.1.src) (e0.2.map (σ.ev E))) →
      ∀ y, y ≠ g.name n → st.run E σ y = st'.run E σ' y := by
  cases hst : st with
  | lib code rs ws =>
    subst hst
    refine ⟨_, F.stmtL ho h ha, fun σ σ' hR hI y hy => ?_⟩
    refine Stmt.run_congr E _ (fun z hz => hR z ?_) y (hR y hy)
    rintro rfl
    have harc := F.reads_arc h hz
    obtain ⟨e, he, h1, h2⟩ := DF.arc_iff.mp harc
    have ht := (F.cons e he h1).1
    rw [h2] at ht
    obtain ⟨c, i, o, hk⟩ := isTasklet_kind ht
    unfold DF.stmt at h
    rw [hk] at h; cases h
  | tasklet code ins out sub =>
    subst hst
    refine ⟨_, F.stmtT ho h ha, fun σ σ' hR hI y hy => ?_⟩
    have hsub := F.sub_t h
    have h1 : sub.map (σ.ev E) = sub.map (σ'.ev E) := evs_at fun z hz => hR z fun hzn => hsub.1 (hzn ▸ hz)
    have h2 : (ins.map fun r => σ r.1 (r.2.map (σ.ev E))) = (ins.map (opdF g n e0)).map fun r => σ' r.1 (r.2.map (σ'.ev E)) := by
      rw [List.map_map]
      refine List.map_congr_left fun r hr => ?_
      simp only [Function.comp]
      by_cases hrt : r.1 = g.name n
      · have := F.ins_t h hr hrt
        subst this
        have hI := hI (by
          simp only [Stmt.users, reads, readsOf, List.mem_append, List.mem_map]
          exact Or.inl (Or.inl (Or.inl ⟨_, ⟨_, hr, rfl⟩, rfl⟩)))
        simp only [List.map_nil, hI, opdF, if_pos]
        rw [evs_at (τ := σ') fun z hz => hR z (F.sub0 hz), hR _ (F.x_ne ho)]
      · have : opdF g n e0 r = r := by
          unfold opdF; rw [if_neg (by intro h'; exact hrt (by rw [h']))]
        rw [this, hR _ hrt, evs_at (τ := σ') fun z hz => hR z fun hzn => hsub.2 r hr (hzn ▸ hz)]
    simp only [Stmt.run, h1, h2]
    funext j
    simp only [St.set, hR y hy]

/-- the operands of the assignment -/
def Opnd (g : DF) (e0 : Edge × List Expr) (y : String) : Prop := y = g.name e0.1.src ∨ y ∈ Expr.atomsL e0.2

/-- the same order, without the assignment -/
theorem same_order {E : Env} (hE : ∀ v, E.op (toString 0) [v] = v) {o : List Nat} (ho : Order g.gr o)
    (hlate : ∀ w d, g.gr.Arc w d → g.isAccess d = true → Opnd g e0 (g.name d) → Reaches g.gr w e0.1.dst) :
    ∀ (l pre : List Nat) (σ σ' : St), o = pre ++ l → (∀ y, y ≠ g.name n → σ y = σ' y) →
      (e0.1.dst ∈ pre → σ (g.name n) [] = σ (g.name e0.1.src) (e0.2.map (σ.ev E))) →
      ∀ y, y ≠ g.name n → runOrder E g.stmt l σ y = runOrder E (tfIn g cst n e0).stmt l σ' y
  | [], pre, σ, σ', _, hR, _, y, hy => hR y hy
  | v :: l, pre, σ, σ', he, hR, hI, y, hy => by
    have hcons : ∀ f σ, runOrder E f (v :: l) σ = runOrder E f l (runOrder E f [v] σ) := fun f σ => runOrder_append E f [v] l σ
    have he' : o = (pre ++ [v]) ++ l := by rw [he]; simp
    rw [hcons, hcons]
    by_cases ha : v = e0.1.dst
    · subst ha
      have h1 : runOrder E g.stmt [e0.1.dst] σ = σ.set (g.name n) [] (σ (g.name e0.1.src) (e0.2.map (σ.ev E))) := by
        rw [runOrder_one E F.stmtA]
        simp only [Stmt.run, List.map_cons, List.map_nil, hE]
      have h2 : runOrder E (tfIn g cst n e0).stmt [e0.1.dst] σ' = σ' := by
        unfold runOrder
        simp [F.stmtA', runBlock]
      rw [h1, h2]
      have hoff : ∀ z, z ≠ g.name n → (σ.set (g.name n) [] (σ (g.name e0.1.src) (e0.2.map (σ.ev E)))) z = σ z := fun z hz => by
        funext j; simp [St.set, hz]
      refine same_order hE ho hlate l _ _ _ he' (fun z hz => ?_) (fun _ => ?_) y hy
      · rw [hoff z hz]; exact hR z hz
      · rw [hoff _ (F.x_ne ho), evs_at (τ := σ) fun z hz => hoff z (F.sub0 hz)]
        simp [St.set]
    · cases hs : g.stmt v with
      | none =>
        have h1 : runOrder E g.stmt [v] σ = σ := by unfold runOrder; simp [hs, runBlock]
        have h2 : runOrder E (tfIn g cst n e0).stmt [v] σ' = σ' := by unfold runOrder; simp [F.stmtN hs, runBlock]
        rw [h1, h2]
        refine same_order hE ho hlate l _ _ _ he' hR (fun hm => hI ?_) y hy
        simpa [Ne.symm ha] using hm
      | some st =>
        obtain ⟨st', hs', hrun⟩ := F.step (E := E) (cst := cst) ho hs ha
        have h1 : runOrder E g.stmt [v] σ = st.run E σ := by unfold runOrder; simp [hs, runBlock]
        have h2 : runOrder E (tfIn g cst n e0).stmt [v] σ' = st'.run E σ' := by unfold runOrder; simp [hs', runBlock]
        rw [h1, h2]
        have hvl : v ∉ pre := by
          have := ho.nodup
          rw [he, List.nodup_append] at this
          intro hm; exact this.2.2 v hm v (by simp) rfl
        have hpre : ∀ w, Before o w v → w ∈ pre := by
          intro w hb
          rw [he] at hb
          rcases hb.of_append with h | ⟨h, _⟩ | h
          · exact h.mem.1
          · exact h
          · have hn := ho.nodup
            rw [he, List.nodup_append] at hn
            obtain ⟨x, y', z, hx⟩ := h
            have hn2 := hn.2.1
            cases x with
            | nil =>
              simp only [List.nil_append, List.cons.injEq] at hx
              rw [hx.2, List.nodup_cons] at hn2
              exact absurd (by simp) hn2.1
            | cons d x =>
              simp only [List.cons_append, List.cons.injEq] at hx
              rw [hx.2, List.nodup_cons] at hn2
              exact absurd (by simp) hn2.1
        refine same_order hE ho hlate l _ _ _ he' (fun z hz => hrun σ σ' hR (fun hr => hI (hpre _ ?_)) z hz) (fun hm => ?_) y hy
        · have h3 := ho.arcs _ _ (F.reads_arc hs hr)
          have h4 := ho.arcs _ _ (DF.arc_of F.memi)
          rw [F.isrc, F.idst] at h4
          exact h4.trans' ho.nodup h3
        · have hm : e0.1.dst ∈ pre := by simpa [Ne.symm ha] using hm
          have hkeep : ∀ z, Opnd g e0 z → st.run E σ z = σ z := fun z hz => Stmt.keepOff E st σ z fun hw => by
            obtain ⟨d, hd, hda, hdn⟩ := stmt_writes F.wf hs hw
            have hb := ho.before (hlate v d hd hda (hdn ▸ hz))
            obtain ⟨p, q, hpq⟩ := List.append_of_mem hm
            have hb' : Before o e0.1.dst v := by
              rw [he, hpq]
              exact ⟨p, q, l, by simp⟩
            exact hb.asymm ho.nodup hb'
          rw [Stmt.keepOff E st σ _ (F.not_writes hs ha), hkeep _ (Or.inl rfl), evs_at (τ := σ) fun z hz => hkeep z (Or.inr hz)]
          exact hI hm

theorem ends' {o : List Nat} (ho : Order g.gr o) {e : Edge × List Expr} (he : e ∈ g.edges) (hd : e.1.dst ≠ e0.1.dst) (hd' : e.1.dst ≠ n) :
    (tfMove g cst n e0 e).1.src ∈ (tfIn g cst n e0).gr.vs ∧ e.1.dst ∈ (tfIn g cst n e0).gr.vs ∧ Before o (tfMove g cst n e0 e).1.src e.1.dst := by
  have hm : tfMove g cst n e0 e ∈ (tfIn g cst n e0).edges := F.mem_edges.mpr ⟨e, he, hd, hd', rfl⟩
  have hcode := isAssign_code F.asg
  have hb := ho.arcs _ _ (DF.arc_of he)
  have hsn : Before o e0.1.src n := by
    have h1 := ho.arcs _ _ (DF.arc_of F.mem0)
    have h2 := ho.arcs _ _ (DF.arc_of F.memi)
    rw [F.isrc, F.idst] at h2
    exact h1.trans' ho.nodup h2
  have hs : (tfMove g cst n e0 e).1.src = e0.1.src ∧ Before o n e.1.dst ∨ (tfMove g cst n e0 e).1.src = e.1.src ∧ e.1.src ≠ n := by
    unfold tfMove
    split
    · rename_i h; exact Or.inl ⟨rfl, h ▸ hb⟩
    · rename_i hne
      split
      · rename_i h
        refine Or.inl ⟨rfl, ?_⟩
        simp only [tfOther, tfConsumer, Bool.and_eq_true, beq_iff_eq, List.any_eq_true] at h
        obtain ⟨⟨⟨⟨_, ⟨x, hx, hxd⟩⟩, _⟩, _⟩, _⟩ := h
        have hx := List.mem_filter.mp hx
        have := ho.arcs _ _ (DF.arc_of hx.1)
        rw [hxd, show x.1.src = n by simpa using hx.2] at this
        exact this
      · exact Or.inr ⟨rfl, hne⟩
  refine ⟨?_, F.vs_of (F.wf.ends _ (DF.mem_gr he)).2 hd hd' (Or.inr ⟨_, hm, Or.inr (move_dst e).1⟩), ?_⟩
  · rcases hs with ⟨hs, _⟩ | ⟨hs, hne⟩
    · refine F.vs_of ?_ ?_ ?_ (Or.inr ⟨_, hm, Or.inl rfl⟩)
      · rw [hs]; exact (F.wf.ends _ (DF.mem_gr F.mem0)).1
      · rw [hs]; intro h; have := F.accS; rw [h, hcode] at this; cases this
      · rw [hs]; exact F.s_ne_n ho
    · refine F.vs_of ?_ ?_ ?_ (Or.inr ⟨_, hm, Or.inl rfl⟩)
      · rw [hs]; exact (F.wf.ends _ (DF.mem_gr he)).1
      · rw [hs]; intro h
        have := F.fromA he h
        exact hd' (this ▸ F.idst)
      · rw [hs]; exact hne
  · rcases hs with ⟨hs, h⟩ | ⟨hs, _⟩
    · rw [hs]; exact hsn.trans' ho.nodup h
    · rw [hs]; exact hb

/-- the order without the removed nodes -/
theorem order' {o : List Nat} (ho : Order g.gr o) : Order (tfIn g cst n e0).gr (o.filter fun v => decide (v ∈ (tfIn g cst n e0).gr.vs)) := by
  refine ⟨ho.nodup.filter _, fun v => ?_, fun a b hab => ?_⟩
  · simp only [List.mem_filter, decide_eq_true_eq, ho.mem]
    exact ⟨fun h => h.2, fun h => ⟨(F.vs_sub h).1, h⟩⟩
  · obtain ⟨e', he', h1, h2⟩ := DF.arc_iff.mp hab
    obtain ⟨e, he, hd, hd', rfl⟩ := F.mem_edges.mp he'
    obtain ⟨k1, k2, k3⟩ := F.ends' ho he hd hd' (cst := cst)
    rw [(move_dst e).1] at h2
    subst h1; subst h2
    exact k3.filter (by simpa using k1) (by simpa using k2)

theorem arc_new {o : List Nat} (ho : Order g.gr o) {v : Nat} (h : g.gr.Arc n v) : v ≠ e0.1.dst ∧ (tfIn g cst n e0).gr.Arc e0.1.src v := by
  obtain ⟨e, he, h1, h2⟩ := DF.arc_iff.mp h
  have hva : v ≠ e0.1.dst := by
    rintro rfl
    have := F.toA he h2
    rw [this] at h1
    exact F.s_ne_n ho h1
  have hvn : v ≠ n := by
    rintro rfl
    have := F.wf.bip _ (DF.mem_gr he)
    rw [h1, h2, F.acc] at this; cases this
  refine ⟨hva, DF.arc_iff.mpr ⟨_, F.mem_edges.mpr ⟨e, he, by rw [h2]; exact hva, by rw [h2]; exact hvn, rfl⟩, ?_, ?_⟩⟩
  · unfold tfMove; rw [if_pos h1]
  · rw [(move_dst e).1, h2]

theorem path {o : List Nat} (ho : Order g.gr o)
    (hlate : ∀ w d, g.gr.Arc w d → g.isAccess d = true → Opnd g e0 (g.name d) → Reaches g.gr w e0.1.dst) :
    ∀ (k : Nat) (v u : Nat), o.idxOf v ≤ k → g.isAccess v = false → g.isAccess u = false → u ≠ e0.1.dst → Reaches g.gr u v →
      (v = e0.1.dst → Reaches (tfIn g cst n e0).gr u e0.1.src) ∧ (v ≠ e0.1.dst → Reaches (tfIn g cst n e0).gr u v)
  | k, v, u, hk, hv, hu, hua, hr => by
    have hidx : ∀ {x y}, g.gr.Arc x y → o.idxOf x < o.idxOf y := fun h => ((before_idx ho.nodup).mp (ho.arcs _ _ h)).2.2
    -- the last access node and the computation before it
    obtain ⟨d, hdv, hud⟩ := hr.lastStep
    obtain ⟨e1, he1, h1s, h1d⟩ := DF.arc_iff.mp hdv
    have hda : g.isAccess d = true := by
      have := F.wf.bip _ (DF.mem_gr he1)
      rw [h1s, h1d, hv] at this; simpa using this
    have hud : Reaches g.gr u d := by
      rcases hud with rfl | h
      · rw [hu] at hda; cases hda
      · exact h
    obtain ⟨w, hwd, huw⟩ := hud.lastStep
    obtain ⟨e2, he2, h2s, h2d⟩ := DF.arc_iff.mp hwd
    have hw : g.isAccess w = false := by
      have := F.wf.bip _ (DF.mem_gr he2)
      rw [h2s, h2d, hda] at this; simpa using this
    have ix1 := hidx hdv
    have ix2 := hidx hwd
    have hcons : ∀ {x}, g.gr.Arc n x → o.idxOf e0.1.dst < o.idxOf x := by
      intro x hx
      have i1 := hidx hx
      have i2 := hidx (DF.arc_of F.memi)
      rw [F.isrc, F.idst] at i2
      omega
    match k, hk with
    | 0, hk => omega
    | k + 1, hk =>
      by_cases hdn : d = n
      · have hdv : g.gr.Arc n v := hdn ▸ hdv
        have hwe : w = e0.1.dst := by
          have := F.toN he2 (h2d.trans hdn)
          rw [← h2s, this, F.isrc]
        have hur : Reaches g.gr u e0.1.dst := by
          rcases huw with rfl | h
          · exact absurd hwe hua
          · exact hwe ▸ h
        have hn := F.arc_new (cst := cst) ho hdv
        have := hcons hdv
        have ih := (path ho hlate k e0.1.dst u (by omega) (isAssign_code F.asg) hu hua hur).1 rfl
        exact ⟨fun h => absurd h hn.1, fun _ => ih.trans (.one hn.2)⟩
      · have hwa : w ≠ e0.1.dst := by
          intro hwe
          have := F.fromA he2 (h2s.trans hwe)
          rw [this, F.idst] at h2d
          exact hdn h2d.symm
        have hd0 : d ≠ e0.1.dst := by
          rintro rfl; rw [isAssign_code F.asg] at hda; cases hda
        have hwd' : (tfIn g cst n e0).gr.Arc w d :=
          DF.arc_iff.mpr ⟨e2, F.mem_edges.mpr ⟨e2, he2, by rw [h2d]; exact hd0, by rw [h2d]; exact hdn, F.move_code (by rw [h2s]; exact hw)⟩, h2s, h2d⟩
        have hud' : ∀ z, Reaches (tfIn g cst n e0).gr w z → Reaches (tfIn g cst n e0).gr u z := by
          intro z hz
          rcases huw with rfl | h
          · exact hz
          · exact ((path ho hlate k w u (by omega) hw hu hua h).2 hwa).trans hz
        refine ⟨fun hva => ?_, fun hva => ?_⟩
        · have := F.toA he1 (h1d.trans hva)
          rw [this] at h1s
          rw [h1s]
          exact hud' d (.one hwd')
        · have hvn : v ≠ n := by rintro rfl; rw [F.acc] at hv; cases hv
          by_cases hot : tfOther g cst n e0 e1 = true
          · have hot' := hot
            simp only [tfOther, tfConsumer, Bool.and_eq_true, beq_iff_eq, List.any_eq_true] at hot
            obtain ⟨⟨⟨⟨_, ⟨x, hx, hxd⟩⟩, _⟩, _⟩, hnm⟩ := hot
            have hx := List.mem_filter.mp hx
            have hnv : g.gr.Arc n v := DF.arc_iff.mpr ⟨x, hx.1, by simpa using hx.2, hxd.trans h1d⟩
            have hwa' : Reaches g.gr w e0.1.dst := hlate w d hwd hda (Or.inl (by rw [← h1s]; exact hnm))
            have := hcons hnv
            have ih := (path ho hlate k e0.1.dst w (by omega) (isAssign_code F.asg) hw hwa hwa').1 rfl
            exact hud' v (ih.trans (.one (F.arc_new ho hnv).2))
          · have hmv : tfMove g cst n e0 e1 = e1 := by
              unfold tfMove
              rw [if_neg (by rw [h1s]; exact hdn), if_neg hot]
            have hdv' : (tfIn g cst n e0).gr.Arc d v :=
              DF.arc_iff.mpr ⟨e1, F.mem_edges.mpr ⟨e1, he1, by rw [h1d]; exact hva, by rw [h1d]; exact hvn, hmv⟩, h1s, h1d⟩
            exact hud' v (.step hwd' (.one hdv'))

theorem users' {o : List Nat} (ho : Order g.gr o) {v : Nat} {st st' : Stmt} (h : g.stmt v = some st) (ha : v ≠ e0.1.dst) (h' : (tfIn g cst n e0).stmt v = some st')
    (y : String) : (writes st'.users y ↔ writes st.users y) ∧ (reads st'.users y → reads st.users y ∨ (g.gr.Arc n v ∧ Opnd g e0 y)) := by
  cases hst : st with
  | lib code rs ws =>
    subst hst
    rw [F.stmtL ho h ha] at h'
    cases h'
    exact ⟨Iff.rfl, Or.inl⟩
  | tasklet code ins out sub =>
    subst hst
    rw [F.stmtT ho h ha] at h'
    cases h'
    refine ⟨by simp [Stmt.users, writes, readsOf], fun hr => ?_⟩
    have hin : ∀ r ∈ ins, opdF g n e0 r = r ∨ (opdF g n e0 r = (g.name e0.1.src, e0.2) ∧ g.gr.Arc n v) := by
      intro r hr
      unfold opdF
      split
      · rename_i hrt
        subst hrt
        refine Or.inr ⟨rfl, F.reads_arc h ?_⟩
        simp only [Stmt.users, reads, readsOf, List.mem_append, List.mem_map]
        exact Or.inl (Or.inl (Or.inl ⟨_, ⟨_, hr, rfl⟩, rfl⟩))
      · exact Or.inl rfl
    simp only [Stmt.users, reads, readsOf, List.mem_append, List.mem_map, List.mem_flatMap] at hr ⊢
    rcases hr with ((⟨z, ⟨r, ⟨r0, hr0, rfl⟩, rfl⟩, hz⟩ | ⟨z, ⟨r, ⟨r0, hr0, rfl⟩, hz'⟩, hz⟩) | hr) | hr
    · rcases hin r0 hr0 with he | ⟨he, harc⟩
      · rw [he] at hz
        exact Or.inl (Or.inl (Or.inl (Or.inl ⟨_, ⟨r0, hr0, rfl⟩, hz⟩)))
      · rw [he] at hz
        cases hz
        exact Or.inr ⟨harc, Or.inl rfl⟩
    · rcases hin r0 hr0 with he | ⟨he, harc⟩
      · rw [he] at hz'
        exact Or.inl (Or.inl (Or.inl (Or.inr ⟨_, ⟨r0, hr0, hz'⟩, hz⟩)))
      · rw [he] at hz'
        cases hz
        exact Or.inr ⟨harc, Or.inr hz'⟩
    · exact Or.inl (Or.inl (Or.inr hr))
    · exact Or.inl (Or.inr hr)

theorem raceFree' {o : List Nat} (ho : Order g.gr o) (hr : RaceFree g)
    (hlate : ∀ w d, g.gr.Arc w d → g.isAccess d = true → Opnd g e0 (g.name d) → Reaches g.gr w e0.1.dst) : RaceFree (tfIn g cst n e0) := by
  intro u hu v hv huv hc
  obtain ⟨hu1, hu2, _⟩ := F.vs_sub hu
  obtain ⟨hv1, hv2, _⟩ := F.vs_sub hv
  obtain ⟨su', sv', hsu', hsv', y, hy⟩ := hc
  have some_of : ∀ {w sw'}, (tfIn g cst n e0).stmt w = some sw' → ∃ sw, g.stmt w = some sw := by
    intro w sw' h
    cases hs : g.stmt w with
    | none => rw [F.stmtN hs] at h; cases h
    | some sw => exact ⟨sw, rfl⟩
  obtain ⟨su, hsu⟩ := some_of hsu'
  obtain ⟨sv, hsv⟩ := some_of hsv'
  have cu := (stmt_code hsu).1
  have cv := (stmt_code hsv).1
  have ru := F.users' ho hsu hu2 hsu' y
  have rv := F.users' ho hsv hv2 hsv' y
  have old : ConflictAt g.stmt u v → Reaches (tfIn g cst n e0).gr u v ∨ Reaches (tfIn g cst n e0).gr v u := by
    intro hc
    rcases hr u hu1 v hv1 huv hc with h | h
    · exact Or.inl ((F.path ho hlate _ v u (Nat.le_refl _) cv cu hu2 h).2 hv2)
    · exact Or.inr ((F.path ho hlate _ u v (Nat.le_refl _) cu cv hv2 h).2 hu2)
  have new : ∀ {a b sb}, g.stmt b = some sb → g.isAccess b = false → b ≠ e0.1.dst → g.gr.Arc n a → Opnd g e0 y → writes sb.users y → Reaches (tfIn g cst n e0).gr b a := by
    intro a b sb hsb hb hba harc ho' hw
    obtain ⟨d, hd, hda, hdn⟩ := stmt_writes F.wf hsb hw
    have := hlate b d hd hda (hdn ▸ ho')
    exact ((F.path ho hlate _ _ b (Nat.le_refl _) (isAssign_code F.asg) hb hba this).1 rfl).trans (.one (F.arc_new ho harc).2)
  rcases hy with ⟨h1, h2 | h2⟩ | ⟨h1, h2⟩
  · rcases rv.2 h2 with h2 | ⟨harc, ho'⟩
    · exact old ⟨su, sv, hsu, hsv, y, Or.inl ⟨ru.1.mp h1, Or.inl h2⟩⟩
    · exact Or.inl (new hsu cu hu2 harc ho' (ru.1.mp h1))
  · exact old ⟨su, sv, hsu, hsv, y, Or.inl ⟨ru.1.mp h1, Or.inr (rv.1.mp h2)⟩⟩
  · rcases ru.2 h1 with h1 | ⟨harc, ho'⟩
    · exact old ⟨su, sv, hsu, hsv, y, Or.inr ⟨h1, rv.1.mp h2⟩⟩
    · exact Or.inr (new hsv cv hv2 harc ho' (rv.1.mp h2))

end InF

theorem runOrder_drop (E : Env) {f : Nat → Option Stmt} {p : Nat → Bool} (h : ∀ v, p v = false → f v = none) (l : List Nat) (σ : St) :
    runOrder E f (l.filter p) σ = runOrder E f l σ := by
  unfold runOrder
  congr 1
  rw [List.filterMap_filter]
  congr 1
  funext v
  cases hp : p v with
  | true => rfl
  | false => simp [h v hp]

/-- **C78, "input" assignments.** `t = x[sub]` is fused into the tasklets that read `t`: if whatever writes an operand of the assignment leads to the assignment,
the block computes the same, whatever the order, except for the container `t` that nothing else accesses. -/
theorem tasklet_fusion_input_partial {E : Env} (hE : ∀ v, E.op (toString 0) [v] = v) {g : DF} {cst : Nat → Bool} {n : Nat} {i e0 : Edge × List Expr} (hw : g.Wf)
    (hv : g.Valid) (hacc : tfInAccepts g n i e0 = true) (hr : RaceFree g) {o o' : List Nat} (ho : Order g.gr o) (ho' : Order (tfIn g cst n e0).gr o')
    (hlate : ∀ w d, g.gr.Arc w d → g.isAccess d = true → g.name d = g.name e0.1.src ∨ g.name d ∈ Expr.atomsL e0.2 → Reaches g.gr w e0.1.dst)
    (σ : St) (y : String) (hy : y ≠ g.name n) : runOrder E (tfIn g cst n e0).stmt o' σ y = runOrder E g.stmt o σ y := by
  have F := InF.of hw hv hacc
  rw [F.same_order (cst := cst) hE ho hlate o [] σ σ rfl (fun _ _ => rfl) (by simp) y hy,
    race_free_order (F.raceFree' ho hr hlate) ho' (F.order' ho)]
  rw [runOrder_drop E (fun v hv => F.stmt_none (by simpa using hv))]

end Docc.IR
