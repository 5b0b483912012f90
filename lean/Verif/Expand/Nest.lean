import Verif.IR.LoopNormProps
import Verif.Types.TensorProps
/-
Loop nests over index boxes, as built by the expansions of tensor library nodes
(sdfg/src/data_flow/library_nodes/math/tensor/*.cpp), and what they compute.
-/
namespace Docc.Expand
open Docc.Sym Docc.IR Docc.Types

/-- one level of a nest: Map or For, loop variable, extent -/
abbrev Dim := Bool × String × Expr

/-- The loops of the expansions (e.g. transpose_node.cpp:133-154, reduce_node.cpp:238-280): `for (v = 0; v < n; v = v + 1)`, one inside the
other, the body in the innermost. -/
def nest (body : Seq) : List Dim → Seq
  | [] => body
  | (m, v, n) :: r => Seq.one (.loop m v (.int 0) (.lt (.sym v) n) (.add [.sym v, .int 1]) (nest body r))

/-- all index tuples below the extents, the last index varies fastest -/
def box : List Int → List (List Int)
  | [] => [[]]
  | n :: r => (List.range n.toNat).flatMap fun k => (box r).map fun i => Int.ofNat k :: i

theorem mem_box (ns ix : List Int) : ix ∈ box ns ↔ InRange ns ix := by
  induction ns generalizing ix with
  | nil =>
    cases ix with
    | nil => simp [box, InRange]
    | cons a r => simp [box, InRange]
  | cons n r ih =>
    simp only [box, List.mem_flatMap, List.mem_range, List.mem_map]
    cases ix with
    | nil => simp [InRange]
    | cons a s =>
      simp only [InRange]
      constructor
      · rintro ⟨k, hk, i, hi, h⟩
        cases h
        exact ⟨⟨Int.natCast_nonneg _, by show (k : Int) < n; omega⟩, (ih _).mp hi⟩
      · rintro ⟨⟨h0, h1⟩, h2⟩
        exact ⟨a.toNat, by omega, s, (ih _).mpr h2, by simp; omega⟩

theorem nodup_box (ns : List Int) : (box ns).Nodup := by
  induction ns with
  | nil => simp [box]
  | cons n r ih =>
    rw [box, List.nodup_iff_pairwise_ne, List.pairwise_flatMap]
    refine ⟨fun k _ => ?_, ?_⟩
    · rw [List.pairwise_map]
      exact (List.nodup_iff_pairwise_ne.mp ih).imp fun h h' => h (by cases h'; rfl)
    · refine (List.nodup_iff_pairwise_ne.mp List.nodup_range).imp fun {k k'} h x hx y hy hxy => ?_
      rw [List.mem_map] at hx hy
      obtain ⟨i, _, rfl⟩ := hx
      obtain ⟨j, _, h2⟩ := hy
      rw [← hxy] at h2
      injection h2 with h3 _
      exact h (by simpa using h3.symm)

/-! ### running a nest -/

/-- the nest as a function on states: each level runs the rest once per value of its variable, and leaves the variable at the extent -/
def runNest (g : St → St) : List (String × Int) → St → St
  | [], σ => g σ
  | (v, n) :: r, σ => ((List.range n.toNat).foldl (fun s (k : Nat) => runNest g r (s.setS v k)) σ).setS v n.toNat

/-- what a nest needs: an invariant of the states that the body and the loop variables preserve, under which the extents have fixed values -/
structure Stable (E : Env) (body : Seq) (g : St → St) (Inv : St → Prop) (vs : List String) : Prop where
  body : ∀ s c s', Inv s → (body.den E s c s' ↔ c = .normal ∧ s' = g s)
  step : ∀ s, Inv s → Inv (g s)
  vars : ∀ s v k, v ∈ vs → Inv s → Inv (s.setS v k)
  keep : ∀ s v, Inv s → v ∈ vs → g s v [] = s v []

theorem foldl_inv {α : Type} {P : St → Prop} {f : St → α → St} (h : ∀ s a, P s → P (f s a)) (l : List α) {s : St} (hs : P s) : P (l.foldl f s) := by
  induction l generalizing s with
  | nil => exact hs
  | cons a r ih => exact ih (h s a hs)

theorem runNest_inv {E : Env} {body : Seq} {g : St → St} {Inv : St → Prop} {vs : List String} (H : Stable E body g Inv vs) :
    ∀ (ds : List (String × Int)), (∀ d ∈ ds, d.1 ∈ vs) → ∀ s, Inv s → Inv (runNest g ds s) := by
  intro ds
  induction ds with
  | nil => intro _ s hs; exact H.step s hs
  | cons d r ih =>
    obtain ⟨v, n⟩ := d
    intro hv s hs
    rw [runNest]
    refine H.vars _ v _ (hv _ List.mem_cons_self) (foldl_inv (fun s k h => ?_) _ hs)
    exact ih (fun d hd => hv d (List.mem_cons_of_mem _ hd)) _ (H.vars _ v _ (hv _ List.mem_cons_self) h)

theorem runNest_keep {E : Env} {body : Seq} {g : St → St} {Inv : St → Prop} {vs : List String} (H : Stable E body g Inv vs) :
    ∀ (ds : List (String × Int)), (∀ d ∈ ds, d.1 ∈ vs) → ∀ s w, Inv s → w ∈ vs → w ∉ ds.map (·.1) → runNest g ds s w [] = s w [] := by
  intro ds
  induction ds with
  | nil => intro _ s w hs hw _; exact H.keep s w hs hw
  | cons d r ih =>
    obtain ⟨v, n⟩ := d
    intro hv s w hs hw hn
    simp only [List.map_cons, List.mem_cons, not_or] at hn
    rw [runNest, St.setS_other _ _ hn.1]
    have hv' := hv _ List.mem_cons_self
    have hr : ∀ d ∈ r, d.1 ∈ vs := fun d hd => hv d (List.mem_cons_of_mem _ hd)
    refine (foldl_inv (P := fun t => Inv t ∧ t w [] = s w []) (fun t k h => ⟨?_, ?_⟩) _ ⟨hs, rfl⟩).2
    · exact runNest_inv H r hr _ (H.vars _ v _ hv' h.1)
    · rw [ih hr _ w (H.vars _ v _ hv' h.1) hw hn.2, St.setS_other _ _ hn.1, h.2]

theorem setS_self (s : St) (v : String) : s.setS v (s v []) = s := by
  funext y j
  simp only [St.setS, St.set]
  split
  · rename_i h; rw [h.1, h.2]
  · rfl

theorem setS_twice (s : St) (v : String) (a b : Int) : (s.setS v a).setS v b = s.setS v b := by
  funext y j
  simp only [St.setS, St.set]
  split <;> rfl

theorem ev_succ (E : Env) (s : St) (v : String) : s.ev E (.add [.sym v, .int 1]) = s v [] + 1 := by
  simp [St.ev, Expr.eval, Expr.evalL, V.add, St.val]

theorem cond_lt (E : Env) (s : St) (v : String) (n : Expr) : s.cond E (.lt (.sym v) n) = decide (s v [] < s.ev E n) := by
  simp [St.cond, Cond.eval, St.ev_sym]

/-- the meaning of a nest is `runNest` -/
theorem nest_den {E : Env} {body : Seq} {g : St → St} {Inv : St → Prop} {vs : List String} (H : Stable E body g Inv vs) :
    ∀ (ds : List Dim) (ns : List Int), ns.length = ds.length → (∀ d ∈ ds, d.2.1 ∈ vs) → (ds.map (·.2.1)).Nodup →
    (∀ s, Inv s → ds.map (fun d => s.ev E d.2.2) = ns) →
    ∀ s c s', Inv s → ((nest body ds).den E s c s' ↔ c = .normal ∧ s' = runNest g ((ds.map (·.2.1)).zip ns) s) := by
  intro ds
  induction ds with
  | nil =>
    intro ns hl _ _ _ s c s' hs
    cases ns with
    | nil => exact H.body s c s' hs
    | cons => cases hl
  | cons d r ih =>
    obtain ⟨m, v, e⟩ := d
    intro ns hl hv hnd hns s c s' hs
    cases ns with
    | nil => cases hl
    | cons n ns =>
    have hv' : v ∈ vs := hv _ List.mem_cons_self
    have hr : ∀ d ∈ r, d.2.1 ∈ vs := fun d hd => hv d (List.mem_cons_of_mem _ hd)
    rw [List.map_cons, List.nodup_cons] at hnd
    have he : ∀ s, Inv s → s.ev E e = n := fun s h => (List.cons.inj (hns s h)).1
    have ih' := ih ns (by simpa using hl) hr hnd.2 (fun s h => (List.cons.inj (hns s h)).2)
    have hz : ∀ d ∈ (r.map (·.2.1)).zip ns, d.1 ∈ vs := by
      intro d hd
      have := (List.of_mem_zip (a := d.1) (b := d.2) hd).1
      rw [List.mem_map] at this
      obtain ⟨d', hd', h⟩ := this
      exact h ▸ hr d' hd'
    have hzn : v ∉ ((r.map (·.2.1)).zip ns).map (·.1) := by
      intro h
      rw [List.mem_map] at h
      obtain ⟨d, hd, rfl⟩ := h
      exact hnd.1 (List.of_mem_zip (a := d.1) (b := d.2) hd).1
    have hone : ∀ N : Node, (Seq.one N).den E = N.den E := by
      intro N
      show Rel.seq (N.den E) (Rel.seq (Rel.upd (runTrans E [])) (Rel.upd id)) = _
      rw [Rel.seq_skip]
      exact Rel.seq_skip _
    rw [nest, hone, Node.den, Rel.upd_seq]
    simp only [St.ev_int, List.map_cons, List.zip_cons_cons, runNest]
    -- the iterations from `k` on
    have key : ∀ (j k : Nat) (t : St), Inv t → t v [] = k → k + j = n.toNat →
        ∀ c s', (Rel.iter (fun σ => σ.cond E (.lt (.sym v) e)) (fun σ => σ.setS v (σ.ev E (.add [.sym v, .int 1]))) ((nest body r).den E) t c s' ↔
          c = .normal ∧ s' = ((List.range' k j).foldl (fun s (k : Nat) => runNest g ((r.map (·.2.1)).zip ns) (s.setS v k)) t).setS v n.toNat) := by
      intro j
      induction j with
      | zero =>
        intro k t ht hk hkn c s'
        have hf : t.cond E (.lt (.sym v) e) = false := by
          rw [cond_lt, he t ht, hk]
          exact decide_eq_false (by omega)
        have hv2 : t.setS v n.toNat = t := by
          have : (n.toNat : Int) = t v [] := by rw [hk]; omega
          rw [this]; exact setS_self t v
        simp only [List.range'_zero, List.foldl_nil, hv2]
        constructor
        · intro h
          cases h with
          | done => exact ⟨rfl, rfl⟩
          | step _ h1 => rw [hf] at h1; cases h1
          | stop h1 => rw [hf] at h1; cases h1
          | ret _ _ h1 => rw [hf] at h1; cases h1
        · rintro ⟨rfl, rfl⟩
          exact .done hf
      | succ j ihj =>
        intro k t ht hk hkn c s'
        have hb : t.cond E (.lt (.sym v) e) = true := by
          rw [cond_lt, he t ht, hk]
          exact decide_eq_true (by omega)
        have htv : t.setS v k = t := by rw [← hk]; exact setS_self t v
        have hin := runNest_inv H _ hz t ht
        have hkp : runNest g ((r.map (·.2.1)).zip ns) t v [] = k := by rw [runNest_keep H _ hz t v ht hv' hzn, hk]
        have hnext := ihj (k + 1) ((runNest g ((r.map (·.2.1)).zip ns) t).setS v ((k + 1 : Nat) : Int)) (H.vars _ v _ hv' hin) (by simp) (by omega)
        have hu : ∀ t1, t1 = runNest g ((r.map (·.2.1)).zip ns) t → t1.setS v (t1.ev E (.add [.sym v, .int 1])) = t1.setS v ((k + 1 : Nat) : Int) := by
          rintro t1 rfl
          rw [ev_succ, hkp]
          rfl
        have hfold : ((List.range' k (j + 1)).foldl (fun s (k : Nat) => runNest g ((r.map (·.2.1)).zip ns) (s.setS v k)) t).setS v n.toNat =
            ((List.range' (k + 1) j).foldl (fun s (k : Nat) => runNest g ((r.map (·.2.1)).zip ns) (s.setS v k))
              ((runNest g ((r.map (·.2.1)).zip ns) t).setS v ((k + 1 : Nat) : Int))).setS v n.toNat := by
          rw [List.range'_succ, List.foldl_cons, htv]
          cases j with
          | zero =>
            simp only [List.range'_zero, List.foldl_nil]
            rw [setS_twice]
          | succ j =>
            rw [List.range'_succ, List.foldl_cons, List.foldl_cons, setS_twice]
        rw [hfold, ← hnext]
        constructor
        · intro h
          cases h with
          | done h1 => rw [hb] at h1; cases h1
          | step k' _ h1 _ h3 =>
            obtain ⟨_, rfl⟩ := (ih' t _ _ ht).mp h1
            rw [hu _ rfl] at h3
            exact h3
          | stop _ h1 => have := ((ih' t _ _ ht).mp h1).1; cases this
          | ret _ _ _ h1 => have := ((ih' t _ _ ht).mp h1).1; cases this
        · intro h
          refine .step .normal hb ((ih' t _ _ ht).mpr ⟨rfl, rfl⟩) (Or.inl rfl) ?_
          rw [hu _ rfl]
          exact h
    have := key n.toNat 0 (s.setS v 0) (H.vars _ v _ hv' hs) (by simp) (by omega) c s'
    rw [← List.range_eq_range'] at this
    rw [this]
    have h0 : ∀ l : List Nat, (∃ r, l = 0 :: r) ∨ l = [] →
        (l.foldl (fun s (k : Nat) => runNest g ((r.map (·.2.1)).zip ns) (s.setS v k)) (s.setS v 0)).setS v n.toNat =
        (l.foldl (fun s (k : Nat) => runNest g ((r.map (·.2.1)).zip ns) (s.setS v k)) s).setS v n.toNat := by
      rintro l (⟨r, rfl⟩ | rfl)
      · rw [List.foldl_cons, List.foldl_cons, setS_twice]
      · simp only [List.foldl_nil]; rw [setS_twice]
    rw [h0]
    cases hk : n.toNat with
    | zero => right; rfl
    | succ k => left; rw [List.range_succ_eq_map]; exact ⟨_, rfl⟩

/-! ### accumulation -/

/-- the values of variables -/
def ixOf (vs : List String) (s : St) : List Int := vs.map fun v => s v []

/-- one nest of point updates: at each index tuple, the body replaces the element `A ix` of `Y` by `F ix` of it (and uses the scratch variables `W`).
Off the loop and scratch variables, the result has folded all updates of each element, in the order of the index tuples. -/
theorem runNest_acc {E : Env} {body : Seq} {g : St → St} {Inv : St → Prop} {vs W : List String} (H : Stable E body g Inv vs)
    {Y : String} (hY : Y ∉ vs) (hYW : Y ∉ W) {A : List Int → List Int} {F : List Int → Int → Int}
    (hg : ∀ s, Inv s → ∀ y j, y ∉ W → g s y j = s.set Y (A (ixOf vs s)) (F (ixOf vs s) (s Y (A (ixOf vs s)))) y j) :
    ∀ (qs : List String) (ns : List Int) (ps : List String), vs = ps ++ qs → vs.Nodup → ns.length = qs.length → ∀ s, Inv s →
      ∀ y j, y ∉ qs → y ∉ W → runNest g (qs.zip ns) s y j =
        if y = Y then (((box ns).map (ixOf ps s ++ ·)).filter (fun ix => A ix = j)).foldl (fun acc ix => F ix acc) (s Y j) else s y j := by
  intro qs
  induction qs with
  | nil =>
    intro ns ps hvs _ hl s hs y j _ hyW
    have : ns = [] := by simpa using hl
    subst this
    simp only [List.append_nil] at hvs
    subst hvs
    simp only [List.zip_nil_left, runNest, hg s hs y j hyW, box, List.map_cons, List.map_nil, List.append_nil]
    by_cases hy : y = Y
    · subst hy
      simp only [if_true, St.set, true_and]
      by_cases hj : j = A (ixOf vs s)
      · subst hj
        simp
      · have : ¬ A (ixOf vs s) = j := fun h => hj h.symm
        simp [hj, this]
    · simp [hy, St.set]
  | cons v qs ih =>
    intro ns ps hvs hnd hl s hs y j hy hyW
    cases ns with
    | nil => cases hl
    | cons n ns =>
    have hv : v ∈ vs := by rw [hvs]; simp
    have hsub : ∀ d ∈ qs.zip ns, d.1 ∈ vs := by
      intro d hd
      rw [hvs]
      have := (List.of_mem_zip (a := d.1) (b := d.2) hd).1
      simp [this]
    have hlen : ns.length = qs.length := by simpa using hl
    simp only [List.mem_cons, not_or] at hy
    have ih' := ih ns (ps ++ [v]) (by simp [hvs]) hnd hlen
    have hnd' : (ps ++ (v :: qs)).Nodup := hvs ▸ hnd
    have hps : ∀ p ∈ ps, p ≠ v ∧ p ∉ qs := by
      intro p hp
      rw [List.nodup_append] at hnd'
      refine ⟨fun h => ?_, fun h => ?_⟩
      · exact hnd'.2.2 p hp v List.mem_cons_self h
      · exact hnd'.2.2 p hp p (List.mem_cons_of_mem _ h) rfl
    have hvq : v ∉ qs := by
      rw [List.nodup_append] at hnd'
      exact (List.nodup_cons.mp hnd'.2.1).1
    rw [List.zip_cons_cons, runNest, St.setS_other _ _ hy.1]
    -- after the first `m` rounds
    have key : ∀ m : Nat,
        let t := (List.range m).foldl (fun s (k : Nat) => runNest g (qs.zip ns) (s.setS v k)) s
        Inv t ∧ (∀ p ∈ ps, t p [] = s p []) ∧ ∀ y j, y ∉ v :: qs → y ∉ W → t y j =
          if y = Y then ((((List.range m).flatMap fun k => (box ns).map fun i => Int.ofNat k :: i).map (ixOf ps s ++ ·)).filter
            (fun ix => A ix = j)).foldl (fun acc ix => F ix acc) (s Y j) else s y j := by
      intro m
      induction m with
      | zero =>
        refine ⟨hs, fun _ _ => rfl, fun y j _ _ => ?_⟩
        simp only [List.range_zero, List.foldl_nil, List.flatMap_nil, List.map_nil, List.filter_nil]
        split
        · rename_i h; rw [h]
        · rfl
      | succ m ihm =>
        obtain ⟨h1, h2, h3⟩ := ihm
        simp only [List.range_succ, List.foldl_append, List.foldl_cons, List.foldl_nil, List.flatMap_append, List.flatMap_cons, List.flatMap_nil,
          List.append_nil, List.map_append, List.filter_append]
        generalize ht : (List.range m).foldl (fun s (k : Nat) => runNest g (qs.zip ns) (s.setS v k)) s = t at h1 h2 h3
        have hi := H.vars t v m hv h1
        refine ⟨runNest_inv H _ hsub _ hi, fun p hp => ?_, fun y j hy hyW => ?_⟩
        · rw [runNest_keep H _ hsub _ p hi (by rw [hvs]; simp [hp]) ?_, St.setS_other _ _ (hps p hp).1, h2 p hp]
          intro h
          rw [List.mem_map] at h
          obtain ⟨d, hd, rfl⟩ := h
          exact (hps _ hp).2 (List.of_mem_zip (a := d.1) (b := d.2) hd).1
        · have hyv : y ≠ v ∧ y ∉ qs := by simpa using hy
          rw [ih' _ hi y j hyv.2 hyW]
          have hix : ixOf (ps ++ [v]) (t.setS v m) = ixOf ps s ++ [(m : Int)] := by
            simp only [ixOf, List.map_append, List.map_cons, List.map_nil, St.setS_same]
            congr 1
            apply List.map_congr_left
            intro p hp
            rw [St.setS_other _ _ (hps p hp).1, h2 p hp]
          have hYv : Y ≠ v := fun h => hY (h ▸ hv)
          by_cases hyY : y = Y
          · subst hyY
            simp only [if_true]
            rw [St.setS_other _ _ hyv.1, h3 y j hy hyW, hix]
            simp only [if_true, List.map_map, Function.comp_def, List.append_assoc, List.singleton_append]
            rfl
          · simp only [hyY, if_false]
            rw [St.setS_other _ _ hyv.1, h3 y j hy hyW]
            simp [hyY]
    have := (key n.toNat).2.2 y j (by simp [hy]) hyW
    rw [this, box]

/-- the result of a whole nest -/
theorem nest_acc {E : Env} {body : Seq} {g : St → St} {Inv : St → Prop} {ds : List Dim} {ns : List Int} {W : List String}
    (H : Stable E body g Inv (ds.map (·.2.1))) (hnd : (ds.map (·.2.1)).Nodup) (hn : ∀ s, Inv s → ds.map (fun d => s.ev E d.2.2) = ns)
    {Y : String} (hY : Y ∉ ds.map (·.2.1)) (hYW : Y ∉ W) {A : List Int → List Int} {F : List Int → Int → Int}
    (hg : ∀ s, Inv s → ∀ y j, y ∉ W → g s y j =
      s.set Y (A (ixOf (ds.map (·.2.1)) s)) (F (ixOf (ds.map (·.2.1)) s) (s Y (A (ixOf (ds.map (·.2.1)) s)))) y j)
    {s : St} (hs : Inv s) :
    ∃ s', (∀ c s1, (nest body ds).den E s c s1 ↔ c = .normal ∧ s1 = s') ∧ Inv s' ∧ ∀ y j, y ∉ ds.map (·.2.1) → y ∉ W → s' y j =
      if y = Y then ((box ns).filter (fun ix => A ix = j)).foldl (fun acc ix => F ix acc) (s Y j) else s y j := by
  have hl : ns.length = ds.length := by rw [← hn s hs]; simp
  refine ⟨runNest g ((ds.map (·.2.1)).zip ns) s, fun c s1 => ?_, ?_, fun y j hy hyW => ?_⟩
  · exact nest_den H ds ns hl (fun d hd => List.mem_map_of_mem hd) hnd hn s c s1 hs
  · refine runNest_inv H _ (fun d hd => ?_) s hs
    exact (List.of_mem_zip (a := d.1) (b := d.2) hd).1
  · have := runNest_acc H hY hYW hg (ds.map (·.2.1)) ns [] rfl hnd (by simpa using hl) s hs y j hy hyW
    simpa [ixOf] using this

end Docc.Expand
