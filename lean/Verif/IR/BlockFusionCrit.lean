import Verif.IR.BlockFusionProps

/-! C77: what the criterion of the pass establishes. -/
namespace Docc.IR
open Docc.Sym
open Docc.Flow (Gr Kind Edge Before)

/-- containers a computation writes are the destinations of its memlets -/
theorem stmt_writes {g : DF} (h : g.Wf) {v : Nat} {s : Stmt} (hs : g.stmt v = some s) {y : String} (hy : writes s.users y) :
    ∃ n, g.gr.Arc v n ∧ g.isAccess n = true ∧ g.name n = y := by
  obtain ⟨hc, hv⟩ := stmt_code hs
  have key : ∀ c i o, (g.gr.kind v).conns = some (i, o) → c ∈ o → (g.res v c).1 = y → ∃ n, g.gr.Arc v n ∧ g.isAccess n = true ∧ g.name n = y := by
    intro c i o hk hco hr
    obtain ⟨e, he, h1, h2⟩ := (h.outs v hv i o hk).2 c hco
    obtain ⟨e', he', rfl⟩ := List.mem_map.mp he
    unfold DF.res at hr
    cases hfd : g.edges.find? (fun e => e.1.src == v && e.1.sc == c) with
    | none =>
      have := List.find?_eq_none.mp hfd e' he'
      simp [h1, h2] at this
    | some x =>
      rw [hfd] at hr
      have hx := List.find?_some hfd
      simp only [Bool.and_eq_true, beq_iff_eq] at hx
      have hm := List.mem_of_find?_eq_some hfd
      have hb := h.bip x.1 (List.mem_map.mpr ⟨x, hm, rfl⟩)
      rw [hx.1, hc] at hb
      exact ⟨x.1.dst, ⟨x.1, List.mem_map.mpr ⟨x, hm, rfl⟩, hx.1, rfl⟩, by simpa using hb.symm, hr⟩
  unfold DF.stmt at hs
  cases hk : g.gr.kind v with
  | access d => rw [hk] at hs; cases hs
  | tasklet code ins outs =>
    rw [hk] at hs; cases hs
    have hne := (h.outs v hv ins outs (by rw [hk]; rfl)).1
    simp [Stmt.users, writes, readsOf] at hy
    cases outs with
    | nil => exact absurd rfl hne
    | cons c l => exact key c ins (c :: l) (by rw [hk]; rfl) (by simp) hy.symm
  | lib code ins outs =>
    rw [hk] at hs; cases hs
    simp [Stmt.users, writes, readsOf] at hy
    obtain ⟨c, hc', hy⟩ := hy
    exact key c ins outs (by rw [hk]; rfl) hc' hy

/-- containers a computation reads are the sources of its memlets or occur in subsets -/
theorem stmt_reads {g : DF} (h : g.Wf) {v : Nat} {s : Stmt} (hs : g.stmt v = some s) {y : String} (hy : reads s.users y) :
    (∃ n, g.gr.Arc n v ∧ g.isAccess n = true ∧ g.name n = y) ∨ y ∈ g.subsetSyms := by
  obtain ⟨hc, hv⟩ := stmt_code hs
  have sub1 : ∀ c, y ∈ Expr.atomsL (g.opd v c).2 → y ∈ g.subsetSyms := by
    intro c hy
    unfold DF.opd at hy
    cases hfd : g.edges.find? (fun e => e.1.dst == v && e.1.dc == c) with
    | none => rw [hfd] at hy; cases hy
    | some x => rw [hfd] at hy; exact List.mem_flatMap.mpr ⟨x, List.mem_of_find?_eq_some hfd, hy⟩
  have sub2 : ∀ c, y ∈ Expr.atomsL (g.res v c).2 → y ∈ g.subsetSyms := by
    intro c hy
    unfold DF.res at hy
    cases hfd : g.edges.find? (fun e => e.1.src == v && e.1.sc == c) with
    | none => rw [hfd] at hy; cases hy
    | some x => rw [hfd] at hy; exact List.mem_flatMap.mpr ⟨x, List.mem_of_find?_eq_some hfd, hy⟩
  have key : ∀ c i o, (g.gr.kind v).conns = some (i, o) → c ∈ i → (g.opd v c).1 = y → ∃ n, g.gr.Arc n v ∧ g.isAccess n = true ∧ g.name n = y := by
    intro c i o hk hco hr
    obtain ⟨e, he, h1, h2⟩ := h.ins v hv i o hk c hco
    obtain ⟨e', he', rfl⟩ := List.mem_map.mp he
    unfold DF.opd at hr
    cases hfd : g.edges.find? (fun e => e.1.dst == v && e.1.dc == c) with
    | none =>
      have := List.find?_eq_none.mp hfd e' he'
      simp [h1, h2] at this
    | some x =>
      rw [hfd] at hr
      have hx := List.find?_some hfd
      simp only [Bool.and_eq_true, beq_iff_eq] at hx
      have hm := List.mem_of_find?_eq_some hfd
      have hb := h.bip x.1 (List.mem_map.mpr ⟨x, hm, rfl⟩)
      rw [hx.1, hc] at hb
      exact ⟨x.1.src, ⟨x.1, List.mem_map.mpr ⟨x, hm, rfl⟩, rfl, hx.1⟩, by simpa using hb, hr⟩
  unfold DF.stmt at hs
  cases hk : g.gr.kind v with
  | access d => rw [hk] at hs; cases hs
  | tasklet code ins outs =>
    rw [hk] at hs; cases hs
    simp [Stmt.users, reads, readsOf] at hy
    rcases hy with ⟨c, hc', hy⟩ | ⟨d, e, ⟨c, hc', hce⟩, hy⟩ | hy
    · exact Or.inl (key c ins outs (by rw [hk]; rfl) hc' hy)
    · exact Or.inr (sub1 c (by rw [hce]; exact hy))
    · exact Or.inr (sub2 _ hy)
  | lib code ins outs =>
    rw [hk] at hs; cases hs
    simp [Stmt.users, reads, readsOf] at hy
    obtain ⟨c, hc', hy⟩ := hy
    exact Or.inl (key c ins outs (by rw [hk]; rfl) hc' hy)

theorem arc_mem {g : DF} (h : g.Wf) {a b : Nat} (ha : g.gr.Arc a b) : a ∈ g.gr.vs ∧ b ∈ g.gr.vs := by
  obtain ⟨e, he, rfl, rfl⟩ := ha
  exact h.ends e he

theorem inE_of_arc {g : Gr} {a b : Nat} (h : g.Arc a b) : (g.inE b).isEmpty = false := by
  obtain ⟨e, he, rfl, rfl⟩ := h
  cases hl : g.inE e.dst with
  | nil => have : e ∈ g.inE e.dst := by simp [Gr.inE, he]
           rw [hl] at this; cases this
  | cons _ _ => rfl

/-- a sink is the last access to its container: every other access node of the container leads to it -/
def SinkLast (g : DF) : Prop := ∀ m ∈ g.gr.vs, ∀ n ∈ g.gr.vs, g.isAccess m = true → g.isAccess n = true → g.name n = g.name m → n ≠ m →
  (g.gr.outE m).isEmpty = true → Reaches g.gr n m

/-- a connection: a sink of the first block and a source of the second that access the same container -/
def Connects (g1 g2 : DF) (m1 m2 : Nat) : Prop :=
  m1 ∈ g1.gr.vs ∧ m2 ∈ g2.gr.vs ∧ g1.isAccess m1 = true ∧ g2.isAccess m2 = true ∧ g1.name m1 = g2.name m2 ∧
    (g1.gr.outE m1).isEmpty = true ∧ (g2.gr.inE m2).isEmpty = true

section
variable {g1 g2 : DF} {o1 : List Nat} {fr ids : Nat → Nat}

theorem connector (ho : Order g1.gr o1) (hl : SinkLast g1) {m1 m2 : Nat} (hc : Connects g1 g2 m1 m2) : bfMap g1 g2 o1 fr m2 = m1 := by
  obtain ⟨h1, h2, h3, h4, h5, h6, h7⟩ := hc
  unfold bfMap
  rw [h4, h7]
  simp only [Bool.and_self, if_true]
  have hm : m1 ∈ o1.filter fun v => g1.isAccess v && g1.name v == g2.name m2 := by
    rw [List.mem_filter]; exact ⟨(ho.mem _).2 h1, by simp [h3, h5]⟩
  cases hp : g1.lastOf o1 (g2.name m2) with
  | none =>
    unfold DF.lastOf at hp
    rw [List.getLast?_eq_none_iff] at hp
    rw [hp] at hm; cases hm
  | some p =>
    show p = m1
    obtain ⟨hpo, hpa, hpn⟩ := lastOf_some hp
    by_cases he : p = m1
    · exact he
    · have hb := ho.before (hl m1 h1 p ((ho.mem _).1 hpo) h3 hpa (hpn.trans h5.symm) he h6)
      have hb' := hb.filter (p := fun v => g1.isAccess v && g1.name v == g2.name m2) (by simp [hpa, hpn]) (by simp [h3, h5])
      unfold DF.lastOf at hp
      obtain ⟨l, hl'⟩ := List.getLast?_eq_some_iff.mp hp
      rw [hl'] at hb' hm
      have hnd : (l ++ [p]).Nodup := hl' ▸ ho.nodup.filter _
      rcases hb'.of_append with h | ⟨h, _⟩ | h
      · exact absurd h.mem.1 fun h => (List.nodup_append.mp hnd).2.2 p h p (by simp) rfl
      · exact absurd rfl ((List.nodup_append.mp hnd).2.2 p h p (by simp))
      · have := h.mem
        simp at this
        exact this.symm

/-- **C77.** The criterion of the pass suffices if, within a component, every computation of the first block leads to the connecting sinks and every connecting
source of the second block leads to every computation. -/
theorem block_fusion_criterion {E : Env} {isSym cst : String → Bool} {comp1 comp2 : Nat → Nat} (h1 : g1.Wf) (h2 : g2.Wf) (hf : FreshFor g1 g2 fr) {o2 o : List Nat}
    (ho1 : Order g1.gr o1) (ho2 : Order g2.gr o2) (ho : Order (bfuse g1 g2 o1 fr ids).gr o) (hr1 : RaceFree g1) (hr2 : RaceFree g2)
    (hacc : bfAccepts isSym cst g1 g2 comp1 comp2 = true)
    (hc1 : ∀ a b, g1.gr.Arc a b → comp1 a = comp1 b) (hc2 : ∀ a b, g2.gr.Arc a b → comp2 a = comp2 b)
    (hsym : ∀ y, y ∈ g1.subsetSyms ∨ y ∈ g2.subsetSyms → isSym y = true)
    (hcst1 : ∀ a n, g1.gr.Arc a n → g1.isAccess n = true → cst (g1.name n) = false)
    (hcst2 : ∀ a n, g2.gr.Arc a n → g2.isAccess n = true → cst (g2.name n) = false)
    (hlast : SinkLast g1)
    (hto : ∀ a m1 m2, a ∈ g1.gr.vs → g1.isAccess a = false → Connects g1 g2 m1 m2 → comp1 a = comp1 m1 → Reaches g1.gr a m1)
    (hfrom : ∀ b m1 m2, b ∈ g2.gr.vs → g2.isAccess b = false → Connects g1 g2 m1 m2 → comp2 b = comp2 m2 → Reaches g2.gr m2 b) (σ : St) :
    runOrder E (bfuse g1 g2 o1 fr ids).stmt o σ = runOrder E g2.stmt o2 (runOrder E g1.stmt o1 σ) := by
  refine block_fusion_partial h1 h2 hf ho1 ho2 ho hr1 hr2 (fun a b s t hs ht hst => ?_) σ
  obtain ⟨hca, hva⟩ := stmt_code hs
  obtain ⟨hcb, hvb⟩ := stmt_code ht
  simp only [bfAccepts, Bool.and_eq_true, List.all_eq_true] at hacc
  obtain ⟨⟨hs1, hs2⟩, hm⟩ := hacc
  have sym1 : ∀ y, (∃ n, g2.gr.Arc b n ∧ g2.isAccess n = true ∧ g2.name n = y) → y ∈ g1.subsetSyms → False := by
    rintro y ⟨n, hn, hna, rfl⟩ hy
    have := hs1 _ hy
    simp only [Bool.not_eq_true', decide_eq_false_iff_not] at this
    refine this (List.mem_map.mpr ⟨n, List.mem_filter.mpr ⟨(arc_mem h2 hn).2, ?_⟩, rfl⟩)
    simp [hna, inE_of_arc hn, hsym _ (Or.inl hy)]
  have sym2 : ∀ y, (∃ n, g1.gr.Arc a n ∧ g1.isAccess n = true ∧ g1.name n = y) → y ∈ g2.subsetSyms → False := by
    rintro y ⟨n, hn, hna, rfl⟩ hy
    have := hs2 _ hy
    simp only [Bool.not_eq_true', decide_eq_false_iff_not] at this
    refine this (List.mem_map.mpr ⟨n, List.mem_filter.mpr ⟨(arc_mem h1 hn).2, ?_⟩, rfl⟩)
    simp [hna, inE_of_arc hn, hsym _ (Or.inr hy)]
  -- the two accesses that conflict
  have key : ∃ n1 n2, (g1.gr.Arc a n1 ∨ g1.gr.Arc n1 a) ∧ (g2.gr.Arc b n2 ∨ g2.gr.Arc n2 b) ∧ g1.isAccess n1 = true ∧ g2.isAccess n2 = true ∧
      g1.name n1 = g2.name n2 ∧ cst (g1.name n1) = false := by
    obtain ⟨y, ⟨hw, hr | hw'⟩ | ⟨hr, hw⟩⟩ := hst
    · obtain ⟨n1, ha1, hn1, hy1⟩ := stmt_writes h1 hs hw
      rcases stmt_reads h2 ht hr with ⟨n2, ha2, hn2, hy2⟩ | hy
      · exact ⟨n1, n2, Or.inl ha1, Or.inr ha2, hn1, hn2, hy1.trans hy2.symm, hcst1 _ _ ha1 hn1⟩
      · exact (sym2 y ⟨n1, ha1, hn1, hy1⟩ hy).elim
    · obtain ⟨n1, ha1, hn1, hy1⟩ := stmt_writes h1 hs hw
      obtain ⟨n2, ha2, hn2, hy2⟩ := stmt_writes h2 ht hw'
      exact ⟨n1, n2, Or.inl ha1, Or.inl ha2, hn1, hn2, hy1.trans hy2.symm, hcst1 _ _ ha1 hn1⟩
    · obtain ⟨n2, ha2, hn2, hy2⟩ := stmt_writes h2 ht hw
      rcases stmt_reads h1 hs hr with ⟨n1, ha1, hn1, hy1⟩ | hy
      · have hn : g1.name n1 = g2.name n2 := hy1.trans hy2.symm
        exact ⟨n1, n2, Or.inr ha1, Or.inl ha2, hn1, hn2, hn, by rw [hn]; exact hcst2 _ _ ha2 hn2⟩
      · exact (sym1 y ⟨n2, ha2, hn2, hy2⟩ hy).elim
  obtain ⟨n1, n2, ha1, ha2, hn1, hn2, hn, hcst⟩ := key
  have hv1 : n1 ∈ g1.gr.vs := ha1.elim (fun h => (arc_mem h1 h).2) fun h => (arc_mem h1 h).1
  have hv2 : n2 ∈ g2.gr.vs := ha2.elim (fun h => (arc_mem h2 h).2) fun h => (arc_mem h2 h).1
  have hk1 : comp1 a = comp1 n1 := ha1.elim (hc1 _ _) fun h => (hc1 _ _ h).symm
  have hk2 : comp2 b = comp2 n2 := ha2.elim (hc2 _ _) fun h => (hc2 _ _ h).symm
  have := hm n1 hv1 n2 hv2
  rw [hn1, hn2, hcst, hn, beq_self_eq_true] at this
  simp only [Bool.and_self, Bool.not_false, Bool.not_true, Bool.false_or, List.any_eq_true, Bool.and_eq_true, beq_iff_eq] at this
  obtain ⟨m1, hm1, m2, hm2, ⟨⟨⟨⟨⟨⟨hx1, hx2⟩, hx3⟩, _⟩, hx4⟩, hx5⟩, hx6⟩, hx7⟩ := this
  have hcon : Connects g1 g2 m1 m2 := ⟨hm1, hm2, hx1, hx2, hx3, hx6, hx7⟩
  have p1 : Reaches (bfuse g1 g2 o1 fr ids).gr a m1 := (hto a m1 m2 hva hca hcon (hk1.trans hx4.symm)).map (f := id) fun _ _ h => arc1 h
  have p2 := (hfrom b m1 m2 hvb hcb hcon (hk2.trans hx5.symm)).map (f := bfMap g1 g2 o1 fr) fun _ _ h =>
    arc2 (g1 := g1) (o1 := o1) (fr := fr) (ids := ids) h
  rw [connector ho1 hlast hcon, bfMap_fr (code_copied hcb)] at p2
  exact p1.trans p2

end

end Docc.IR
