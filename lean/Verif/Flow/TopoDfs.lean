import Verif.Flow.TopoLemmas
/-
The reversed depth first search of the topological sort and the loop over its queue.
-/
namespace Docc.Flow

/-- the dependency id as a number -/
def Gr.did (g : Gr) (n t : Nat) : Nat := (g.depId n t).getD 0

theorem depId_did {g : Gr} (hv : Valid g) {n t : Nat} (h : g.Arc n t) : g.depId n t = some (g.did n t) := by
  obtain ⟨k, hk⟩ := depId_some hv h
  rw [Gr.did, hk]; rfl

theorem did_inj {g : Gr} (hv : Valid g) {n t t' : Nat} (h : g.Arc n t) (h' : g.Arc n t') (e : g.did n t = g.did n t') : t = t' :=
  depId_inj hv (depId_did hv h) (by rw [e]; exact depId_did hv h')

/-- the memlets into the nodes of a list, as pairs -/
def Gr.inPairs (g : Gr) (l : List Nat) : List (Nat × Nat) := l.flatMap fun t => (g.preds t).map fun c => (c, t)

theorem mem_inPairs {g : Gr} (hv : Valid g) {l : List Nat} {c t : Nat} : (c, t) ∈ g.inPairs l ↔ t ∈ l ∧ g.Arc c t := by
  simp only [Gr.inPairs, List.mem_flatMap, List.mem_map, Prod.mk.injEq]
  constructor
  · rintro ⟨t', ht, c', hc, rfl, rfl⟩; exact ⟨ht, (mem_preds hv).mp hc⟩
  · rintro ⟨ht, ha⟩; exact ⟨t, ht, c, (mem_preds hv).mpr ha, rfl, rfl⟩

theorem inPairs_nodup (g : Gr) (l : List Nat) (hl : l.Nodup) : (g.inPairs l).Nodup := by
  induction l with
  | nil => simp [Gr.inPairs]
  | cons t r ih =>
      rw [List.nodup_cons] at hl
      have e : g.inPairs (t :: r) = (g.preds t).map (fun c => (c, t)) ++ g.inPairs r := by simp [Gr.inPairs]
      rw [e, List.nodup_append]
      refine ⟨?_, ih hl.2, ?_⟩
      · exact List.Pairwise.map _ (fun a b hab h => hab (Prod.mk.inj h).1) (preds_nodup g t)
      · rintro ⟨a, b⟩ h1 ⟨a', b'⟩ h2 e
        simp only [List.mem_map, Prod.mk.injEq, Gr.inPairs, List.mem_flatMap] at h1 h2
        obtain ⟨_, _, _, rfl⟩ := h1
        obtain ⟨t', ht', _, _, _, rfl⟩ := h2
        exact hl.1 ((Prod.mk.inj e).2 ▸ ht')

theorem inPairs_length {g : Gr} (hv : Valid g) (l : List Nat) (hl : l.Nodup) : (g.inPairs l).length ≤ g.edges.length := by
  have h := sum_preds hv l hl
  have e : (g.inPairs l).length = (l.flatMap g.preds).length := by
    clear h hl
    induction l with
    | nil => rfl
    | cons x r ih =>
        have e : g.inPairs (x :: r) = (g.preds x).map (fun c => (c, x)) ++ g.inPairs r := by simp [Gr.inPairs]
        rw [e, List.flatMap_cons, List.length_append, List.length_append, List.length_map, ih]
  omega

/-- what is known while the search from `s` runs; `M` and `L` are the memlets that led to nodes with several and with one memlet -/
structure Inv (g : Gr) (s : Nat) (vis0 : List Nat) (bwd0 : List ((Nat × Nat) × Nat)) (q0 : List Nat)
    (stk M L : List (Nat × Nat)) (st : DS) : Prop where
  perm : List.Perm (g.inPairs st.lst) (stk ++ (M ++ L))
  lst : st.lst = L.map (·.1) ++ [s]
  deps : st.deps = M.map fun p => (p.1, g.did p.1 p.2)
  bwd : st.bwd = (M.map fun p => ((p.1, g.did p.1 p.2), s)) ++ bwd0
  queue : st.queue = q0 ++ (M.map (·.1)).reverse
  vis : st.vis = st.lst ++ vis0
  multi : ∀ p ∈ M, g.Multi p.1
  single : ∀ p ∈ L, ¬ g.Multi p.1
  head : ∀ t ∈ st.lst, Head g t s
  nodup : st.lst.Nodup
  fwd : st.lst.Pairwise fun a b => ¬ g.Arc b a

theorem lookup_isSome {l : List ((Nat × Nat) × Nat)} {k : Nat × Nat} (h : (l.lookup k).isSome = true) : ∃ v, (k, v) ∈ l := by
  induction l with
  | nil => simp at h
  | cons x r ih =>
      obtain ⟨a, b⟩ := x
      rw [List.lookup_cons] at h
      split at h
      · rename_i e
        have e : k = a := by simpa using e
        exact ⟨b, by rw [e]; exact List.mem_cons_self ..⟩
      · obtain ⟨v, hv⟩ := ih h
        exact ⟨v, List.mem_cons_of_mem _ hv⟩

theorem dfs_run {g : Gr} (hv : Valid g) (hd : Dag g) (s : Nat) (vis0 : List Nat) (bwd0 : List ((Nat × Nat) × Nat)) (q0 : List Nat)
    (hvis0 : ∀ v ∈ vis0, ¬ Head g v s)
    (hbwd0 : ∀ n i s', ((n, i), s') ∈ bwd0 → ∃ t, g.Arc n t ∧ i = g.did n t ∧ ¬ Head g t s) :
    ∀ (f : Nat) (stk M L : List (Nat × Nat)) (st : DS), Inv g s vis0 bwd0 q0 stk M L st →
      g.edges.length + 1 ≤ f + (M ++ L).length →
      ∃ M' L' st', dfs g s f (stk.map fun p => (p.1, some p.2)) st = .ok st' ∧ Inv g s vis0 bwd0 q0 [] M' L' st' := by
  obtain ⟨ρ, hρ⟩ := hd
  intro f
  induction f with
  | zero =>
      intro stk M L st hi hf
      have h1 := hi.perm.length_eq
      have h2 := inPairs_length hv _ hi.nodup
      simp only [List.length_append] at h1 hf
      omega
  | succ f ih =>
      intro stk M L st hi hf
      match stk, hi with
      | [], hi => exact ⟨M, L, st, rfl, hi⟩
      | (c, t) :: stk, hi =>
          have hnd : ((c, t) :: stk ++ (M ++ L)).Nodup := hi.perm.nodup_iff.mp (inPairs_nodup g _ hi.nodup)
          have hct : t ∈ st.lst ∧ g.Arc c t := (mem_inPairs hv).mp (hi.perm.mem_iff.mpr (by simp))
          have hts := hi.head t hct.1
          have hcs : c ≠ s := by
            rintro rfl
            have h1 := arc_rank hρ hct.2
            have h2 := hts.rank hρ
            omega
          have hnotin : (c, t) ∉ M ++ L := by
            rw [List.cons_append, List.nodup_cons] at hnd
            exact fun h => hnd.1 (List.mem_append_right _ h)
          have hallmem : ∀ p ∈ M ++ L, p.2 ∈ st.lst ∧ g.Arc p.1 p.2 := fun p hp =>
            (mem_inPairs hv).mp (hi.perm.mem_iff.mpr (List.mem_append_right _ hp))
          rw [List.map_cons, dfs]
          by_cases hm : 1 < g.outDeg c
          · rw [if_pos ⟨hcs, hm⟩]
            simp only [Option.bind_some, depId_did hv hct.2]
            have hno : (st.bwd.lookup (c, g.did c t)).isSome = false := by
              rw [Bool.eq_false_iff]
              intro h
              obtain ⟨s', hs'⟩ := lookup_isSome h
              rw [hi.bwd, List.mem_append] at hs'
              rcases hs' with hs' | hs'
              · simp only [List.mem_map, Prod.mk.injEq] at hs'
                obtain ⟨⟨c', t'⟩, hp, ⟨rfl, e⟩, _⟩ := hs'
                have ha := (hallmem _ (List.mem_append_left _ hp)).2
                have := did_inj hv ha hct.2 e
                dsimp only at this
                subst this
                exact hnotin (List.mem_append_left _ hp)
              · obtain ⟨t', ha, e, hn⟩ := hbwd0 _ _ _ hs'
                have := did_inj hv hct.2 ha e
                subst this
                exact hn hts
            rw [if_neg (by rw [hno]; simp)]
            refine ih stk ((c, t) :: M) L _ ?_ (by simp only [List.length_append, List.length_cons] at hf ⊢; omega)
            refine ⟨?_, hi.lst, ?_, ?_, ?_, hi.vis, ?_, hi.single, hi.head, hi.nodup, hi.fwd⟩
            · refine hi.perm.trans ?_
              rw [List.cons_append]
              exact (List.perm_middle (a := (c, t)) (l₁ := stk) (l₂ := M ++ L)).symm
            · simp only [hi.deps, List.map_cons]
            · simp only [hi.bwd, List.map_cons, List.cons_append]
            · simp only [hi.queue, List.map_cons, List.reverse_cons, List.append_assoc]
            · intro p hp
              rcases List.mem_cons.mp hp with rfl | hp
              · exact hm
              · exact hi.multi p hp
          · rw [if_neg (fun h => hm h.2)]
            have hdeg : g.outDeg c = 1 := by have := arc_deg hct.2; omega
            have hcl : c ∉ st.lst := by
              rw [hi.lst, List.mem_append]
              rintro (h | h)
              · obtain ⟨⟨c', t'⟩, hp, rfl⟩ := List.mem_map.mp h
                have ha := (hallmem _ (List.mem_append_right _ hp)).2
                have := arc_unique (by dsimp only at hdeg ⊢; omega) ha hct.2
                dsimp only at this
                subst this
                exact hnotin (List.mem_append_right _ hp)
              · exact hcs (by simpa using h)
            have hcv : c ∉ st.vis := by
              rw [hi.vis, List.mem_append]
              rintro (h | h)
              · exact hcl h
              · exact hvis0 c h (.step hdeg hct.2 hts)
            rw [if_neg hcv]
            have := ih ((g.preds c).reverse.map (fun x => (x, c)) ++ stk) M ((c, t) :: L)
              { st with vis := c :: st.vis, lst := c :: st.lst } ?_ (by simp only [List.length_append, List.length_cons] at hf ⊢; omega)
            · simpa only [List.map_append, List.map_map, Function.comp_def] using this
            refine ⟨?_, ?_, hi.deps, hi.bwd, hi.queue, ?_, hi.multi, ?_, ?_, ?_, ?_⟩
            · have e : g.inPairs (c :: st.lst) = (g.preds c).map (fun x => (x, c)) ++ g.inPairs st.lst := by simp [Gr.inPairs]
              dsimp only
              rw [e, List.append_assoc]
              refine List.Perm.append ((List.reverse_perm _).symm.map _) (hi.perm.trans ?_)
              rw [List.cons_append]
              refine (List.perm_middle (a := (c, t)) (l₁ := stk) (l₂ := M ++ L)).symm.trans ?_
              exact List.Perm.append_left _ (List.perm_middle (a := (c, t)) (l₁ := M) (l₂ := L)).symm
            · simp only [hi.lst, List.map_cons, List.cons_append]
            · simp only [hi.vis, List.cons_append]
            · intro p hp
              rcases List.mem_cons.mp hp with rfl | hp
              · exact hm
              · exact hi.single p hp
            · intro x hx
              rcases List.mem_cons.mp hx with rfl | hx
              · exact .step hdeg hct.2 hts
              · exact hi.head x hx
            · exact List.nodup_cons.mpr ⟨hcl, hi.nodup⟩
            · refine List.pairwise_cons.mpr ⟨?_, hi.fwd⟩
              intro b hb ha
              rw [hi.lst, List.mem_append] at hb
              rcases hb with hb | hb
              · obtain ⟨⟨b', t'⟩, hp, rfl⟩ := List.mem_map.mp hb
                have hm' := hallmem _ (List.mem_append_right _ hp)
                have hs1 := hi.single _ hp
                have := arc_unique (by rw [Gr.Multi] at hs1; omega) ha hm'.2
                dsimp only at this
                subst this
                exact hcl hm'.1
              · have : b = s := by simpa using hb
                subst this
                have h1 := arc_rank hρ ha
                have h2 := arc_rank hρ hct.2
                have h3 := hts.rank hρ
                omega

/-- the result of the search from the head `s` -/
structure Fin (g : Gr) (s : Nat) (lst : List Nat) (deps : List (Nat × Nat)) : Prop where
  nodup : lst.Nodup
  mem : ∀ v, v ∈ lst ↔ Head g v s
  fwd : lst.Pairwise fun a b => ¬ g.Arc b a
  deps : ∀ n i, (n, i) ∈ deps ↔ ∃ t, Head g t s ∧ g.Arc n t ∧ g.Multi n ∧ i = g.did n t

theorem dfs_fin {g : Gr} (hv : Valid g) (hd : Dag g) (s : Nat) (hs : g.outDeg s ≠ 1) (vis0 : List Nat)
    (bwd0 : List ((Nat × Nat) × Nat)) (q0 : List Nat) (hvis0 : ∀ v ∈ vis0, ¬ Head g v s)
    (hbwd0 : ∀ n i s', ((n, i), s') ∈ bwd0 → ∃ t, g.Arc n t ∧ i = g.did n t ∧ ¬ Head g t s) :
    ∃ r, dfs g s (g.edges.length + 2) [(s, none)] ⟨vis0, [], [], bwd0, q0⟩ = .ok r ∧ Fin g s r.lst r.deps ∧
      r.vis = r.lst ++ vis0 ∧ r.bwd = r.deps.map (fun p => (p, s)) ++ bwd0 ∧ r.queue = q0 ++ (r.deps.map (·.1)).reverse ∧
      r.deps.length ≤ (g.inPairs r.lst).length := by
  have h0 : s ∉ vis0 := fun h => hvis0 s h (.self hs)
  rw [dfs, if_neg (fun h => h.1 rfl), if_neg h0, List.append_nil]
  have hi : Inv g s vis0 bwd0 q0 ((g.preds s).reverse.map fun x => (x, s)) [] [] ⟨s :: vis0, [s], [], bwd0, q0⟩ := by
    refine ⟨?_, rfl, rfl, by simp, by simp, rfl, by simp, by simp, ?_, by simp, by simp⟩
    · simp only [List.append_nil, Gr.inPairs, List.flatMap_cons, List.flatMap_nil]
      exact (List.reverse_perm _).symm.map _
    · intro t ht
      have : t = s := by simpa using ht
      subst this; exact .self hs
  obtain ⟨M, L, r, hr, hI⟩ := dfs_run hv hd s vis0 bwd0 q0 hvis0 hbwd0 (g.edges.length + 1) _ [] [] _ hi (by simp)
  have hall : ∀ c t, t ∈ r.lst → g.Arc c t → (c, t) ∈ M ++ L := fun c t ht ha =>
    hI.perm.mem_iff.mp ((mem_inPairs hv).mpr ⟨ht, ha⟩)
  have hback : ∀ p ∈ M ++ L, p.2 ∈ r.lst ∧ g.Arc p.1 p.2 := fun p hp => (mem_inPairs hv).mp (hI.perm.mem_iff.mpr hp)
  have hmem : ∀ v, v ∈ r.lst ↔ Head g v s := by
    intro v
    refine ⟨hI.head v, fun h => ?_⟩
    clear hr
    induction h with
    | self _ => rw [hI.lst]; simp
    | @step v t s hd1 ha _ ih =>
        have ht := ih hs hvis0 hbwd0 h0 hi hI
        rcases List.mem_append.mp (hall v t ht ha) with h | h
        · have := hI.multi _ h; rw [Gr.Multi] at this; dsimp only at this; omega
        · rw [hI.lst]; exact List.mem_append_left _ (List.mem_map.mpr ⟨_, h, rfl⟩)
  refine ⟨r, ?_, ⟨hI.nodup, hmem, hI.fwd, ?_⟩, hI.vis, ?_, ?_, ?_⟩
  · rw [List.map_map] at hr; exact hr
  · intro n i
    rw [hI.deps]
    simp only [List.mem_map, Prod.mk.injEq]
    constructor
    · rintro ⟨⟨c, t⟩, hp, rfl, rfl⟩
      have := hback _ (List.mem_append_left _ hp)
      exact ⟨t, (hmem t).mp this.1, this.2, hI.multi _ hp, rfl⟩
    · rintro ⟨t, ht, ha, hm, rfl⟩
      rcases List.mem_append.mp (hall n t ((hmem t).mpr ht) ha) with h | h
      · exact ⟨(n, t), h, rfl, rfl⟩
      · exact absurd hm (hI.single _ h)
  · rw [hI.bwd, hI.deps, List.map_map]; rfl
  · rw [hI.queue, hI.deps, List.map_map]; rfl
  · rw [hI.perm.length_eq, hI.deps]; simp only [List.length_map, List.length_append, List.nil_append]; omega

end Docc.Flow
