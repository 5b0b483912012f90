import Verif.IR.BlockFusion

/-! C77: fusing two blocks. -/
namespace Docc.IR
open Docc.Sym
open Docc.Flow (Gr Kind Edge Before)

theorem _root_.Docc.Flow.Before.mem {l : List Nat} {a b : Nat} (h : Before l a b) : a ∈ l ∧ b ∈ l := by
  obtain ⟨x, y, z, rfl⟩ := h
  constructor <;> simp

theorem before_idx {l : List Nat} (hn : l.Nodup) {a b : Nat} : Before l a b ↔ a ∈ l ∧ b ∈ l ∧ l.idxOf a < l.idxOf b := by
  induction l with
  | nil => constructor
           · intro h; exact absurd h.mem.1 (by simp)
           · rintro ⟨h, _⟩; cases h
  | cons c l ih =>
    have hc := List.nodup_cons.mp hn
    have ih := ih hc.2
    constructor
    · intro h
      refine ⟨h.mem.1, h.mem.2, ?_⟩
      obtain ⟨x, y, z, h⟩ := h
      cases x with
      | nil =>
        simp only [List.nil_append, List.cons.injEq] at h
        obtain ⟨rfl, rfl⟩ := h
        have : c ≠ b := by rintro rfl; exact hc.1 (by simp)
        simp only [List.idxOf_cons, beq_self_eq_true, cond_true, beq_eq_false_iff_ne.mpr this, cond_false]; omega
      | cons d x =>
        simp only [List.cons_append, List.cons.injEq] at h
        obtain ⟨rfl, rfl⟩ := h
        have h1 := ih.1 ⟨x, y, z, rfl⟩
        have ha : c ≠ a := by rintro rfl; exact hc.1 h1.1
        have hb : c ≠ b := by rintro rfl; exact hc.1 h1.2.1
        simp only [List.idxOf_cons, beq_eq_false_iff_ne.mpr ha, beq_eq_false_iff_ne.mpr hb, cond_false]; omega
    · rintro ⟨h1, h2, h3⟩
      by_cases ha : c = a
      · subst ha
        have hb : c ≠ b := by rintro rfl; omega
        rcases List.mem_cons.mp h2 with rfl | h2
        · exact absurd rfl hb
        · obtain ⟨y, z, rfl⟩ := List.append_of_mem h2
          exact ⟨[], y, z, rfl⟩
      · by_cases hb : c = b
        · subst hb; rw [List.idxOf_cons_self] at h3; omega
        · simp only [List.idxOf_cons, beq_eq_false_iff_ne.mpr ha, beq_eq_false_iff_ne.mpr hb, cond_false] at h3
          obtain ⟨x, y, z, rfl⟩ := ih.2 ⟨by simpa [Ne.symm ha] using h1, by simpa [Ne.symm hb] using h2, by omega⟩
          exact ⟨c :: x, y, z, rfl⟩

theorem _root_.Docc.Flow.Before.trans' {l : List Nat} (hn : l.Nodup) {a b c : Nat} (h : Before l a b) (h' : Before l b c) : Before l a c := by
  rw [before_idx hn] at *
  exact ⟨h.1, h'.2.1, by omega⟩

theorem _root_.Docc.Flow.Before.asymm {l : List Nat} (hn : l.Nodup) {a b : Nat} (h : Before l a b) (h' : Before l b a) : False := by
  rw [before_idx hn] at *
  omega

theorem Order.before {g : Gr} {o : List Nat} (ho : Order g o) {a b : Nat} (h : Reaches g a b) : Before o a b := by
  induction h with
  | one h => exact ho.arcs _ _ h
  | step h _ ih => exact (ho.arcs _ _ h).trans' ho.nodup ih

theorem Reaches.trans {g : Gr} {a b c : Nat} (h : Reaches g a b) (h' : Reaches g b c) : Reaches g a c := by
  induction h with
  | one h => exact .step h h'
  | step h _ ih => exact .step h (ih h')

theorem Reaches.map {g g' : Gr} {f : Nat → Nat} (hf : ∀ a b, g.Arc a b → g'.Arc (f a) (f b)) {a b : Nat} (h : Reaches g a b) : Reaches g' (f a) (f b) := by
  induction h with
  | one h => exact .one (hf _ _ h)
  | step h _ ih => exact .step (hf _ _ h) ih

theorem Reaches.lastArc {g : Gr} {a b : Nat} (h : Reaches g a b) : ∃ c, g.Arc c b := by
  induction h with
  | one h => exact ⟨_, h⟩
  | step _ _ ih => exact ih

theorem runOrder_filter (E : Env) (f : Nat → Option Stmt) (l : List Nat) (σ : St) :
    runOrder E f (l.filter fun v => (f v).isSome) σ = runOrder E f l σ := by
  unfold runOrder
  congr 1
  rw [List.filterMap_filter]
  congr 1
  funext v
  cases f v <;> simp

theorem runOrder_congr (E : Env) {f g : Nat → Option Stmt} {l : List Nat} (h : ∀ v ∈ l, f v = g v) (σ : St) : runOrder E f l σ = runOrder E g l σ := by
  unfold runOrder
  congr 1
  induction l with
  | nil => rfl
  | cons a l ih =>
    rw [List.filterMap_cons, List.filterMap_cons, h a (by simp), ih fun v hv => h v (by simp [hv])]

theorem runOrder_map (E : Env) {f g : Nat → Option Stmt} {m : Nat → Nat} {l : List Nat} (h : ∀ v ∈ l, f (m v) = g v) (σ : St) :
    runOrder E f (l.map m) σ = runOrder E g l σ := by
  unfold runOrder
  rw [List.filterMap_map]
  congr 1
  induction l with
  | nil => rfl
  | cons a l ih =>
    rw [List.filterMap_cons, List.filterMap_cons, ih fun v hv => h v (by simp [hv])]
    simp only [Function.comp, h a (by simp)]

/-- the order does not matter for a block without races -/
theorem race_free_order {E : Env} {g : DF} (h : RaceFree g) {o o' : List Nat} (ho : Order g.gr o) (ho' : Order g.gr o') (σ : St) :
    runOrder E g.stmt o σ = runOrder E g.stmt o' σ := by
  refine exchange o o' ((List.perm_ext_iff_of_nodup ho.nodup ho'.nodup).mpr fun v => (ho.mem v).trans (ho'.mem v).symm) ho.nodup
    (fun a b hab hc => ?_) σ
  have hne : a ≠ b := by rintro rfl; exact hab.asymm ho.nodup hab
  rcases h a ((ho.mem a).1 hab.mem.1) b ((ho.mem b).1 hab.mem.2) hne hc with h | h
  · exact ho'.before h
  · exact absurd (ho.before h) fun h => hab.asymm ho.nodup h

/-! ### the fused graph -/

theorem kind_of_mem {g : Gr} (hn : g.vs.Nodup) {n : Flow.Node} (h : n ∈ g.nodes) : g.kind n.v = n.kind := by
  unfold Gr.kind
  have : g.nodes.find? (fun m => m.v == n.v) = some n := by
    cases g with
    | mk nodes edges =>
      simp only [Gr.vs] at *
      induction nodes with
      | nil => cases h
      | cons m l ih =>
        rw [List.map_cons, List.nodup_cons] at hn
        rcases List.mem_cons.mp h with rfl | h
        · simp
        · have hne : m.v ≠ n.v := fun he => hn.1 (he ▸ List.mem_map.mpr ⟨n, h, rfl⟩)
          rw [List.find?_cons_of_neg (by simpa using hne)]
          exact ih hn.2 h
  rw [this]; rfl

theorem kind_notMem {g : Gr} {v : Nat} (h : v ∉ g.vs) : g.kind v = .access "" := by
  unfold Gr.kind
  rw [List.find?_eq_none.mpr]
  · rfl
  · intro n hn
    simp only [beq_iff_eq]
    rintro rfl
    exact h (List.mem_map.mpr ⟨n, hn, rfl⟩)

/-- the copied nodes get new vertices -/
structure FreshFor (g1 g2 : DF) (fr : Nat → Nat) : Prop where
  new : ∀ w ∈ g2.gr.vs, fr w ∉ g1.gr.vs
  inj : ∀ w ∈ g2.gr.vs, ∀ w' ∈ g2.gr.vs, fr w = fr w' → w = w'

section
variable {g1 g2 : DF} {o1 : List Nat} {fr ids : Nat → Nat}

theorem lastOf_some {g : DF} {o : List Nat} {d : String} {p : Nat} (h : g.lastOf o d = some p) : p ∈ o ∧ g.isAccess p = true ∧ g.name p = d := by
  have := List.mem_of_getLast? h
  simpa using this

theorem bfMap_fr {w : Nat} (h : bfCopied g1 g2 o1 w = true) : bfMap g1 g2 o1 fr w = fr w := by
  unfold bfMap
  unfold bfCopied at h
  split
  · rename_i hc
    rw [hc, Bool.true_and, Bool.not_eq_true'] at h
    cases hl : g1.lastOf o1 (g2.name w) with
    | none => rfl
    | some p => rw [hl] at h; cases h
  · rfl

theorem bfMap_conn {w : Nat} (h : bfCopied g1 g2 o1 w = false) : g1.lastOf o1 (g2.name w) = some (bfMap g1 g2 o1 fr w) ∧ g2.isAccess w = true := by
  unfold bfCopied at h
  simp only [Bool.not_eq_false', Bool.and_eq_true] at h
  unfold bfMap
  rw [h.1.1, h.1.2]
  simp only [Bool.and_self, if_true]
  cases hl : g1.lastOf o1 (g2.name w) with
  | none => rw [hl] at h; cases h.2
  | some p => exact ⟨rfl, trivial⟩

theorem code_copied {w : Nat} (h : g2.isAccess w = false) : bfCopied g1 g2 o1 w = true := by
  unfold bfCopied; simp [h]

theorem bfuse_vs : (bfuse g1 g2 o1 fr ids).gr.vs = g1.gr.vs ++ (g2.gr.vs.filter fun v => bfCopied g1 g2 o1 v).map fr := by
  unfold Gr.vs DF.gr bfuse
  simp only [List.map_append, List.map_map]
  congr 1
  rw [List.filter_map, List.map_map]
  rfl

theorem bfuse_nodup (h1 : g1.Wf) (h2 : g2.Wf) (hf : FreshFor g1 g2 fr) : (bfuse g1 g2 o1 fr ids).gr.vs.Nodup := by
  rw [bfuse_vs, List.nodup_append]
  refine ⟨h1.ids, ?_, ?_⟩
  · refine List.pairwise_map.mpr ?_
    refine List.Pairwise.imp_of_mem (R := (· ≠ ·)) ?_ (h2.ids.filter _)
    intro a b ha hb hne he
    exact hne (hf.inj a (List.mem_filter.mp ha).1 b (List.mem_filter.mp hb).1 he)
  · intro a ha b hb he
    subst he
    obtain ⟨w, hw, rfl⟩ := List.mem_map.mp hb
    exact hf.new w (List.mem_filter.mp hw).1 ha

theorem bfuse_kind1 (h1 : g1.Wf) (h2 : g2.Wf) (hf : FreshFor g1 g2 fr) {v : Nat} (hv : v ∈ g1.gr.vs) :
    (bfuse g1 g2 o1 fr ids).gr.kind v = g1.gr.kind v := by
  obtain ⟨n, hn, rfl⟩ := List.mem_map.mp hv
  rw [kind_of_mem h1.ids hn, kind_of_mem (bfuse_nodup h1 h2 hf) (n := n)]
  show n ∈ g1.nodes ++ _
  exact List.mem_append.mpr (Or.inl hn)

theorem bfuse_kind2 (h1 : g1.Wf) (h2 : g2.Wf) (hf : FreshFor g1 g2 fr) {w : Nat} (hw : w ∈ g2.gr.vs) (hc : bfCopied g1 g2 o1 w = true) :
    (bfuse g1 g2 o1 fr ids).gr.kind (fr w) = g2.gr.kind w := by
  obtain ⟨n, hn, rfl⟩ := List.mem_map.mp hw
  rw [kind_of_mem h2.ids hn]
  refine kind_of_mem (bfuse_nodup h1 h2 hf) (n := { n with v := fr n.v, eid := ids n.v }) ?_
  show _ ∈ g1.nodes ++ _
  refine List.mem_append.mpr (Or.inr (List.mem_map.mpr ⟨n, List.mem_filter.mpr ⟨hn, hc⟩, rfl⟩))

theorem bfuse_name1 (h1 : g1.Wf) (h2 : g2.Wf) (hf : FreshFor g1 g2 fr) {v : Nat} (hv : v ∈ g1.gr.vs) :
    (bfuse g1 g2 o1 fr ids).name v = g1.name v := by
  unfold DF.name; rw [bfuse_kind1 h1 h2 hf hv]

theorem bfuse_name2 (h1 : g1.Wf) (h2 : g2.Wf) (hf : FreshFor g1 g2 fr) (ho : Order g1.gr o1) {w : Nat} (hw : w ∈ g2.gr.vs) :
    (bfuse g1 g2 o1 fr ids).name (bfMap g1 g2 o1 fr w) = g2.name w := by
  cases hc : bfCopied g1 g2 o1 w with
  | true => rw [bfMap_fr hc]; unfold DF.name; rw [bfuse_kind2 h1 h2 hf hw hc]
  | false =>
    obtain ⟨hl, _⟩ := bfMap_conn (fr := fr) hc
    obtain ⟨hm, _, hd⟩ := lastOf_some hl
    rw [bfuse_name1 h1 h2 hf ((ho.mem _).1 hm), hd]

theorem bfMap_ne (hf : FreshFor g1 g2 fr) (ho : Order g1.gr o1) {w v : Nat} (hw : w ∈ g2.gr.vs) (hv : v ∈ g1.gr.vs) (hc : g1.isAccess v = false) :
    bfMap g1 g2 o1 fr w ≠ v := by
  rintro rfl
  cases hcc : bfCopied g1 g2 o1 w with
  | true => rw [bfMap_fr hcc] at hv; exact hf.new w hw hv
  | false =>
    obtain ⟨hl, _⟩ := bfMap_conn (fr := fr) hcc
    rw [(lastOf_some hl).2.1] at hc; cases hc

theorem bfMap_eq (hf : FreshFor g1 g2 fr) (ho : Order g1.gr o1) {w w' : Nat} (hw : w ∈ g2.gr.vs) (hw' : w' ∈ g2.gr.vs) (hc : g2.isAccess w = false) :
    bfMap g1 g2 o1 fr w' = fr w ↔ w' = w := by
  constructor
  · intro h
    cases hcc : bfCopied g1 g2 o1 w' with
    | true => rw [bfMap_fr hcc] at h; exact hf.inj _ hw' _ hw h
    | false =>
      obtain ⟨hl, _⟩ := bfMap_conn (fr := fr) hcc
      obtain ⟨hm, _⟩ := lastOf_some hl
      rw [h] at hm
      exact absurd ((ho.mem _).1 hm) (hf.new w hw)
  · rintro rfl
    exact bfMap_fr (code_copied hc)

theorem DF.edge_ends {g : DF} (h : g.Wf) {e : Edge × List Expr} (he : e ∈ g.edges) : e.1.src ∈ g.gr.vs ∧ e.1.dst ∈ g.gr.vs :=
  h.ends e.1 (List.mem_map.mpr ⟨e, he, rfl⟩)

theorem bfuse_opd1 (h1 : g1.Wf) (h2 : g2.Wf) (hf : FreshFor g1 g2 fr) (ho : Order g1.gr o1) {v : Nat} (hv : v ∈ g1.gr.vs)
    (hc : g1.isAccess v = false) (c : String) : (bfuse g1 g2 o1 fr ids).opd v c = g1.opd v c ∧ (bfuse g1 g2 o1 fr ids).res v c = g1.res v c := by
  have no2 : ∀ p : Edge → Bool, ∀ e ∈ g2.edges, bfMap g1 g2 o1 fr e.1.src ≠ v ∧ bfMap g1 g2 o1 fr e.1.dst ≠ v := fun _ e he =>
    ⟨bfMap_ne hf ho (DF.edge_ends h2 he).1 hv hc, bfMap_ne hf ho (DF.edge_ends h2 he).2 hv hc⟩
  constructor
  · unfold DF.opd
    have : (bfuse g1 g2 o1 fr ids).edges.find? (fun e => e.1.dst == v && e.1.dc == c) = g1.edges.find? (fun e => e.1.dst == v && e.1.dc == c) := by
      show (g1.edges ++ _).find? _ = _
      rw [List.find?_append, List.find?_eq_none (l := List.map _ _) |>.mpr, Option.or_none]
      intro e he
      obtain ⟨e', he', rfl⟩ := List.mem_map.mp he
      simp [(no2 (fun _ => true) e' he').2]
    rw [this]
    cases hfd : g1.edges.find? (fun e => e.1.dst == v && e.1.dc == c) with
    | none => rfl
    | some e => simp only [bfuse_name1 h1 h2 hf (DF.edge_ends h1 (List.mem_of_find?_eq_some hfd)).1]
  · unfold DF.res
    have : (bfuse g1 g2 o1 fr ids).edges.find? (fun e => e.1.src == v && e.1.sc == c) = g1.edges.find? (fun e => e.1.src == v && e.1.sc == c) := by
      show (g1.edges ++ _).find? _ = _
      rw [List.find?_append, List.find?_eq_none (l := List.map _ _) |>.mpr, Option.or_none]
      intro e he
      obtain ⟨e', he', rfl⟩ := List.mem_map.mp he
      simp [(no2 (fun _ => true) e' he').1]
    rw [this]
    cases hfd : g1.edges.find? (fun e => e.1.src == v && e.1.sc == c) with
    | none => rfl
    | some e => simp only [bfuse_name1 h1 h2 hf (DF.edge_ends h1 (List.mem_of_find?_eq_some hfd)).2]

theorem find?_map_congr {α β : Type} {f : α → β} {p : β → Bool} {q : α → Bool} : ∀ {l : List α}, (∀ a ∈ l, p (f a) = q a) →
    (l.map f).find? p = (l.find? q).map f
  | [], _ => rfl
  | a :: l, h => by
    rw [List.map_cons, List.find?_cons, List.find?_cons, h a (by simp)]
    cases q a with
    | true => rfl
    | false => exact find?_map_congr fun b hb => h b (by simp [hb])

theorem bfuse_opd2 (h1 : g1.Wf) (h2 : g2.Wf) (hf : FreshFor g1 g2 fr) (ho : Order g1.gr o1) {w : Nat} (hw : w ∈ g2.gr.vs)
    (hc : g2.isAccess w = false) (c : String) :
    (bfuse g1 g2 o1 fr ids).opd (fr w) c = g2.opd w c ∧ (bfuse g1 g2 o1 fr ids).res (fr w) c = g2.res w c := by
  have no1 : ∀ e ∈ g1.edges, e.1.src ≠ fr w ∧ e.1.dst ≠ fr w := fun e he =>
    ⟨fun h => hf.new w hw (h ▸ (DF.edge_ends h1 he).1), fun h => hf.new w hw (h ▸ (DF.edge_ends h1 he).2)⟩
  constructor
  · unfold DF.opd
    have : (bfuse g1 g2 o1 fr ids).edges.find? (fun e => e.1.dst == fr w && e.1.dc == c) =
        (g2.edges.find? (fun e => e.1.dst == w && e.1.dc == c)).map fun e =>
          ({ e.1 with src := bfMap g1 g2 o1 fr e.1.src, dst := bfMap g1 g2 o1 fr e.1.dst }, e.2) := by
      show (g1.edges ++ _).find? _ = _
      rw [List.find?_append, List.find?_eq_none (l := g1.edges) |>.mpr, Option.none_or]
      · refine find?_map_congr fun e he => ?_
        have := bfMap_eq hf ho hw (DF.edge_ends h2 he).2 hc (fr := fr)
        by_cases hd : e.1.dst = w
        · simp [hd, this.mpr hd, hd ▸ this.mpr hd]
        · have hne := mt this.mp hd
          rw [beq_eq_false_iff_ne.mpr hd, beq_eq_false_iff_ne.mpr hne]
      · intro e he
        simp [(no1 e he).2]
    rw [this]
    cases hfd : g2.edges.find? (fun e => e.1.dst == w && e.1.dc == c) with
    | none => rfl
    | some e => simp only [Option.map_some, bfuse_name2 h1 h2 hf ho (DF.edge_ends h2 (List.mem_of_find?_eq_some hfd)).1]
  · unfold DF.res
    have : (bfuse g1 g2 o1 fr ids).edges.find? (fun e => e.1.src == fr w && e.1.sc == c) =
        (g2.edges.find? (fun e => e.1.src == w && e.1.sc == c)).map fun e =>
          ({ e.1 with src := bfMap g1 g2 o1 fr e.1.src, dst := bfMap g1 g2 o1 fr e.1.dst }, e.2) := by
      show (g1.edges ++ _).find? _ = _
      rw [List.find?_append, List.find?_eq_none (l := g1.edges) |>.mpr, Option.none_or]
      · refine find?_map_congr fun e he => ?_
        have := bfMap_eq hf ho hw (DF.edge_ends h2 he).1 hc (fr := fr)
        by_cases hd : e.1.src = w
        · simp [hd, this.mpr hd, hd ▸ this.mpr hd]
        · have hne := mt this.mp hd
          rw [beq_eq_false_iff_ne.mpr hd, beq_eq_false_iff_ne.mpr hne]
      · intro e he
        simp [(no1 e he).1]
    rw [this]
    cases hfd : g2.edges.find? (fun e => e.1.src == w && e.1.sc == c) with
    | none => rfl
    | some e => simp only [Option.map_some, bfuse_name2 h1 h2 hf ho (DF.edge_ends h2 (List.mem_of_find?_eq_some hfd)).2]

theorem bfuse_stmt1 (h1 : g1.Wf) (h2 : g2.Wf) (hf : FreshFor g1 g2 fr) (ho : Order g1.gr o1) {v : Nat} (hv : v ∈ g1.gr.vs) :
    (bfuse g1 g2 o1 fr ids).stmt v = g1.stmt v := by
  unfold DF.stmt
  rw [bfuse_kind1 h1 h2 hf hv]
  cases hk : g1.gr.kind v with
  | access d => rfl
  | tasklet code ins outs =>
    have hc : g1.isAccess v = false := by unfold DF.isAccess; rw [hk]
    have h := bfuse_opd1 (ids := ids) h1 h2 hf ho hv hc
    simp only [(h _).2, funext fun c => (h c).1]
  | lib code ins outs =>
    have hc : g1.isAccess v = false := by unfold DF.isAccess; rw [hk]
    have h := bfuse_opd1 (ids := ids) h1 h2 hf ho hv hc
    simp only [(h _).2, (h _).1]

theorem bfuse_stmt2 (h1 : g1.Wf) (h2 : g2.Wf) (hf : FreshFor g1 g2 fr) (ho : Order g1.gr o1) {w : Nat} (hw : w ∈ g2.gr.vs)
    (hc : bfCopied g1 g2 o1 w = true) : (bfuse g1 g2 o1 fr ids).stmt (fr w) = g2.stmt w := by
  unfold DF.stmt
  rw [bfuse_kind2 h1 h2 hf hw hc]
  cases hk : g2.gr.kind w with
  | access d => rfl
  | tasklet code ins outs =>
    have hc : g2.isAccess w = false := by unfold DF.isAccess; rw [hk]
    have h := bfuse_opd2 (ids := ids) h1 h2 hf ho hw hc
    simp only [(h _).2, funext fun c => (h c).1]
  | lib code ins outs =>
    have hc : g2.isAccess w = false := by unfold DF.isAccess; rw [hk]
    have h := bfuse_opd2 (ids := ids) h1 h2 hf ho hw hc
    simp only [(h _).2, (h _).1]

theorem arc1 {a b : Nat} (h : g1.gr.Arc a b) : (bfuse g1 g2 o1 fr ids).gr.Arc a b := by
  obtain ⟨e, he, h1, h2⟩ := h
  obtain ⟨e', he', rfl⟩ := List.mem_map.mp he
  exact ⟨e'.1, List.mem_map.mpr ⟨e', List.mem_append.mpr (Or.inl he'), rfl⟩, h1, h2⟩

theorem arc2 {a b : Nat} (h : g2.gr.Arc a b) : (bfuse g1 g2 o1 fr ids).gr.Arc (bfMap g1 g2 o1 fr a) (bfMap g1 g2 o1 fr b) := by
  obtain ⟨e, he, h1, h2⟩ := h
  obtain ⟨e', he', rfl⟩ := List.mem_map.mp he
  refine ⟨{ e'.1 with src := bfMap g1 g2 o1 fr e'.1.src, dst := bfMap g1 g2 o1 fr e'.1.dst },
    List.mem_map.mpr ⟨_, List.mem_append.mpr (Or.inr (List.mem_map.mpr ⟨e', he', rfl⟩)), rfl⟩, ?_, ?_⟩
  · rw [← h1]
  · rw [← h2]

theorem stmt_code {g : DF} {v : Nat} {s : Stmt} (h : g.stmt v = some s) : g.isAccess v = false ∧ v ∈ g.gr.vs := by
  constructor
  · unfold DF.stmt at h; unfold DF.isAccess
    cases hk : g.gr.kind v <;> simp_all
  · by_cases hv : v ∈ g.gr.vs
    · exact hv
    · unfold DF.stmt at h; rw [kind_notMem hv] at h; cases h

theorem _root_.Docc.Flow.Before.filter {l : List Nat} {p : Nat → Bool} {a b : Nat} (h : Before l a b) (ha : p a = true) (hb : p b = true) : Before (l.filter p) a b := by
  obtain ⟨x, y, z, rfl⟩ := h
  rw [List.filter_append, List.filter_cons_of_pos ha, List.filter_append, List.filter_cons_of_pos hb]
  exact ⟨_, _, _, rfl⟩

theorem _root_.Docc.Flow.Before.of_filter {l : List Nat} (hn : l.Nodup) {p : Nat → Bool} {a b : Nat} (h : Before (l.filter p) a b) : Before l a b := by
  have hm := h.mem
  have ha := (List.mem_filter.mp hm.1)
  have hb := (List.mem_filter.mp hm.2)
  by_cases hba : Before l b a
  · exact absurd (hba.filter hb.2 ha.2) fun h' => h.asymm (hn.filter _) h'
  · rw [before_idx hn] at hba ⊢
    refine ⟨ha.1, hb.1, ?_⟩
    have hne : l.idxOf a ≠ l.idxOf b := fun he => by
      have ea := List.getElem_idxOf (List.idxOf_lt_length_of_mem ha.1)
      have eb := List.getElem_idxOf (List.idxOf_lt_length_of_mem hb.1)
      simp only [he] at ea
      have := ea.symm.trans eb
      subst this
      exact h.asymm (hn.filter _) h
    have : ¬ l.idxOf b < l.idxOf a := fun hlt => hba ⟨hb.1, ha.1, hlt⟩
    omega

theorem _root_.Docc.Flow.Before.of_map {l : List Nat} {f : Nat → Nat} {a b : Nat} (h : Before (l.map f) a b) : ∃ a' b', f a' = a ∧ f b' = b ∧ Before l a' b' := by
  obtain ⟨x, y, z, h⟩ := h
  obtain ⟨l1, l2, rfl, rfl, k⟩ := List.map_eq_append_iff.mp h
  obtain ⟨a', l3, rfl, rfl, k'⟩ := List.map_eq_cons_iff.mp k
  obtain ⟨l4, l5, rfl, rfl, k''⟩ := List.map_eq_append_iff.mp k'
  obtain ⟨b', l6, rfl, rfl, rfl⟩ := List.map_eq_cons_iff.mp k''
  exact ⟨a', b', rfl, rfl, l1, l4, l6, rfl⟩

theorem _root_.Docc.Flow.Before.of_append {l m : List Nat} {a b : Nat} (h : Before (l ++ m) a b) : Before l a b ∨ (a ∈ l ∧ b ∈ m) ∨ Before m a b := by
  obtain ⟨x, y, z, h⟩ := h
  rcases List.append_eq_append_iff.mp h with ⟨c, rfl, hc⟩ | ⟨c, rfl, hc⟩
  · exact Or.inr (Or.inr ⟨c, y, z, hc⟩)
  · cases c with
    | nil => simp at hc; exact Or.inr (Or.inr ⟨[], y, z, by simpa using hc.symm⟩)
    | cons d c =>
      simp only [List.cons_append, List.cons.injEq] at hc
      obtain ⟨rfl, hc⟩ := hc
      rcases List.append_eq_append_iff.mp hc with ⟨c', rfl, hc'⟩ | ⟨c', rfl, hc'⟩
      · cases c' with
        | nil => simp at hc'; exact Or.inr (Or.inl ⟨by simp, by rw [← hc']; simp⟩)
        | cons d c' =>
          simp only [List.cons_append, List.cons.injEq] at hc'
          obtain ⟨rfl, _⟩ := hc'
          exact Or.inl ⟨x, y, c', rfl⟩
      · exact Or.inr (Or.inl ⟨by simp, by rw [hc']; simp⟩)

/-- **C77.** If conflicting computations of the two blocks are connected in the fused graph (first block to second block), and within each block, then the fused
block, in whatever order that respects its memlets, does what the first and then the second block did. -/
theorem block_fusion_partial {E : Env} (h1 : g1.Wf) (h2 : g2.Wf) (hf : FreshFor g1 g2 fr) {o2 o : List Nat} (ho1 : Order g1.gr o1)
    (ho2 : Order g2.gr o2) (ho : Order (bfuse g1 g2 o1 fr ids).gr o) (hr1 : RaceFree g1) (hr2 : RaceFree g2)
    (hx : ∀ a b s t, g1.stmt a = some s → g2.stmt b = some t → s.Conflict t → Reaches (bfuse g1 g2 o1 fr ids).gr a (fr b)) (σ : St) :
    runOrder E (bfuse g1 g2 o1 fr ids).stmt o σ = runOrder E g2.stmt o2 (runOrder E g1.stmt o1 σ) := by
  have s1 := fun v hv => bfuse_stmt1 (ids := ids) h1 h2 hf ho1 (v := v) hv
  have s2 := fun w hw hc => bfuse_stmt2 (ids := ids) h1 h2 hf ho1 (w := w) hw hc
  have vsF := bfuse_vs (g1 := g1) (g2 := g2) (o1 := o1) (fr := fr) (ids := ids)
  have code2 : ∀ w, (g2.stmt w).isSome = true → g2.isAccess w = false ∧ w ∈ g2.gr.vs := fun w hw => by
    obtain ⟨s, hs⟩ := Option.isSome_iff_exists.mp hw
    exact stmt_code hs
  generalize hF : bfuse g1 g2 o1 fr ids = F at *
  -- the computations of both blocks
  rw [← runOrder_filter E F.stmt o, ← runOrder_filter E g2.stmt o2, ← runOrder_filter E g1.stmt o1]
  have e1 : runOrder E g1.stmt (o1.filter fun v => (g1.stmt v).isSome) σ = runOrder E F.stmt (o1.filter fun v => (g1.stmt v).isSome) σ :=
    (runOrder_congr E (fun v hv => s1 v ((ho1.mem v).1 (List.mem_filter.mp hv).1)) σ).symm
  have e2 : ∀ σ, runOrder E g2.stmt (o2.filter fun v => (g2.stmt v).isSome) σ =
      runOrder E F.stmt ((o2.filter fun v => (g2.stmt v).isSome).map fr) σ := fun σ =>
    (runOrder_map E (fun w hw => s2 w ((ho2.mem w).1 (List.mem_filter.mp hw).1)
      (code_copied (code2 w (List.mem_filter.mp hw).2).1)) σ).symm
  rw [e1, e2, ← runOrder_append]
  have hn1 : (o1.filter fun v => (g1.stmt v).isSome).Nodup := ho1.nodup.filter _
  have hn2 : ((o2.filter fun v => (g2.stmt v).isSome).map fr).Nodup := by
    refine List.pairwise_map.mpr (List.Pairwise.imp_of_mem (R := (· ≠ ·)) ?_ (ho2.nodup.filter _))
    intro a b ha hb hne he
    exact hne (hf.inj a (code2 a (List.mem_filter.mp ha).2).2 b (code2 b (List.mem_filter.mp hb).2).2 he)
  have hnl : ((o1.filter fun v => (g1.stmt v).isSome) ++ (o2.filter fun v => (g2.stmt v).isSome).map fr).Nodup := by
    rw [List.nodup_append]
    refine ⟨hn1, hn2, ?_⟩
    rintro a ha b hb rfl
    obtain ⟨w, hw, rfl⟩ := List.mem_map.mp hb
    exact hf.new w (code2 w (List.mem_filter.mp hw).2).2 ((ho1.mem _).1 (List.mem_filter.mp ha).1)
  refine (exchange _ _ ?_ hnl ?_ σ).symm
  · refine (List.perm_ext_iff_of_nodup hnl (ho.nodup.filter _)).mpr fun v => ?_
    simp only [List.mem_append, List.mem_filter, List.mem_map, ho.mem, vsF, ho1.mem, ho2.mem]
    constructor
    · rintro (⟨hv, hs⟩ | ⟨w, ⟨hw, hs⟩, rfl⟩)
      · exact ⟨Or.inl hv, by rw [s1 v hv]; exact hs⟩
      · have hc := code_copied (g1 := g1) (o1 := o1) (code2 w hs).1
        exact ⟨Or.inr ⟨w, ⟨hw, hc⟩, rfl⟩, by rw [s2 w hw hc]; exact hs⟩
    · rintro ⟨hv | ⟨w, ⟨hw, hc⟩, rfl⟩, hs⟩
      · exact Or.inl ⟨hv, by rw [← s1 v hv]; exact hs⟩
      · exact Or.inr ⟨w, ⟨hw, by rw [← s2 w hw hc]; exact hs⟩, rfl⟩
  · intro a b hab hc
    obtain ⟨s, t, hs, ht, hst⟩ := hc
    refine Before.filter ?_ (by simp [hs]) (by simp [ht])
    rcases hab.of_append with h | ⟨ha, hb⟩ | h
    · have hb := h.of_filter ho1.nodup
      have ha1 := (ho1.mem a).1 hb.mem.1
      have hb1 := (ho1.mem b).1 hb.mem.2
      have hne : a ≠ b := by rintro rfl; exact hb.asymm ho1.nodup hb
      rcases hr1 a ha1 b hb1 hne ⟨s, t, by rw [← s1 a ha1]; exact hs, by rw [← s1 b hb1]; exact ht, hst⟩ with hr | hr
      · exact ho.before (hr.map (f := id) fun _ _ h => by rw [← hF]; exact arc1 h)
      · exact absurd (ho1.before hr) fun h' => hb.asymm ho1.nodup h'
    · obtain ⟨w, hw, rfl⟩ := List.mem_map.mp hb
      have ha1 := (ho1.mem a).1 (List.mem_filter.mp ha).1
      have hw2 := code2 w (List.mem_filter.mp hw).2
      refine ho.before (hx a w s t ?_ ?_ hst)
      · rw [← s1 a ha1]; exact hs
      · rw [← s2 w hw2.2 (code_copied hw2.1)]; exact ht
    · obtain ⟨a', b', rfl, rfl, k⟩ := h.of_map
      have ha2 := code2 a' (List.mem_filter.mp k.mem.1).2
      have hb2 := code2 b' (List.mem_filter.mp k.mem.2).2
      have hb := k.of_filter ho2.nodup
      have hne : a' ≠ b' := by rintro rfl; exact hb.asymm ho2.nodup hb
      rcases hr2 a' ha2.2 b' hb2.2 hne ⟨s, t, by rw [← s2 a' ha2.2 (code_copied ha2.1)]; exact hs,
        by rw [← s2 b' hb2.2 (code_copied hb2.1)]; exact ht, hst⟩ with hr | hr
      · have := hr.map (f := bfMap g1 g2 o1 fr) fun _ _ h => arc2 (g1 := g1) (o1 := o1) (fr := fr) (ids := ids) h
        rw [bfMap_fr (code_copied ha2.1), bfMap_fr (code_copied hb2.1), hF] at this
        exact ho.before this
      · exact absurd (ho2.before hr) fun h' => hb.asymm ho2.nodup h'

end

end Docc.IR
