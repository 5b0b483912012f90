import Verif.IR.CudaLemmas

/-
The grid of a launch and the code of a thread for a perfect nest of maps.
-/
namespace Docc.IR
open Docc.Sym Docc.Expand

theorem mem_lanes {g b v : Int} (hb : 0 < b) : v ∈ lanes g b ↔ 0 ≤ v ∧ v < g * b := by
  simp only [lanes, List.mem_flatMap, List.mem_range, List.mem_map]
  constructor
  · rintro ⟨B, hB, t, ht, rfl⟩
    have h1 : (t : Int) < b := by omega
    have h2 : (B : Int) + 1 ≤ g := by omega
    have h3 : 0 ≤ (B : Int) * b := Int.mul_nonneg (by omega) (by omega)
    have h4 := Int.mul_le_mul_of_nonneg_right h2 (Int.le_of_lt hb)
    rw [Int.add_mul, Int.one_mul] at h4
    omega
  · rintro ⟨h0, h1⟩
    have hq : 0 ≤ v / b := Int.ediv_nonneg h0 (Int.le_of_lt hb)
    have hr := Int.emod_nonneg v (Int.ne_of_gt hb)
    have hr' := Int.emod_lt_of_pos v hb
    have hlt : v / b < g := Int.ediv_lt_of_lt_mul hb h1
    refine ⟨(v / b).toNat, by omega, (v % b).toNat, by omega, ?_⟩
    rw [Int.toNat_of_nonneg hq, Int.toNat_of_nonneg hr]
    have := Int.emod_add_mul_ediv v b
    rw [Int.mul_comm] at this
    exact this

theorem nodup_lanes {g b : Int} (hb : 0 < b) : (lanes g b).Nodup := by
  rw [lanes, List.nodup_iff_pairwise_ne, List.pairwise_flatMap]
  refine ⟨fun B _ => ?_, ?_⟩
  · rw [List.pairwise_map]
    exact (List.nodup_iff_pairwise_ne.mp List.nodup_range).imp fun h h' => h (by omega)
  · refine (List.nodup_iff_pairwise_ne.mp List.nodup_range).imp fun {B C} h v hv w hw e => h ?_
    simp only [List.mem_map, List.mem_range] at hv hw
    obtain ⟨t, ht, rfl⟩ := hv
    obtain ⟨t', ht', rfl⟩ := hw
    have h1 : ((t : Int) + B * b) / b = B := by
      rw [Int.add_mul_ediv_right _ _ (Int.ne_of_gt hb), Int.ediv_eq_zero_of_lt (by omega) (by omega)]; omega
    have h2 : ((t' : Int) + C * b) / b = C := by
      rw [Int.add_mul_ediv_right _ _ (Int.ne_of_gt hb), Int.ediv_eq_zero_of_lt (by omega) (by omega)]; omega
    rw [e, h2] at h1
    omega

theorem ceilDiv_ge (E : Env) (σ : St) (n : Expr) {b : Int} (hb : 0 < b) : σ.ev E n ≤ max (ceilDiv E σ n b) 1 * b := by
  generalize hv : σ.ev E n = v
  have key : ∀ q : Int, v ≤ q * b → v ≤ max q 1 * b := by
    intro q hq
    have := Int.mul_le_mul_of_nonneg_right (Int.le_max_left q 1) (Int.le_of_lt hb)
    omega
  unfold ceilDiv
  rw [hv]
  split
  · apply key
    have := Int.ediv_mul_le (-v) (Int.ne_of_gt hb)
    rw [Int.neg_mul]
    omega
  · by_cases h : 0 < v
    · apply key
      rw [Int.tdiv_eq_ediv_of_nonneg (by omega)]
      have h1 := Int.emod_add_mul_ediv (v + (b - 1)) b
      have h2 := Int.emod_lt_of_pos (v + (b - 1)) hb
      rw [Int.mul_comm] at h1
      omega
    · have := Int.mul_le_mul_of_nonneg_right (Int.le_max_right ((v + (b - 1)).tdiv b) 1) (Int.le_of_lt hb)
      omega

/-! ### the maps of a nest -/

/-- the outermost map of a nest -/
def nestNode (s : Seq) (m : CMap) (r : List CMap) : Node := .loop true m.i m.init m.cond m.upd (mapNest s r)

theorem mapNest_cmaps {K : Cuda} {s : Seq} (hs : s.cmaps K = []) : ∀ (qs : List CMap), (∀ m ∈ qs, (K.dim m.i).isSome) → (mapNest s qs).cmaps K = qs
  | [], _ => hs
  | m :: r, h => by
    rw [mapNest, Seq.one, Seq.cmaps, Seq.cmaps, Node.cmaps, mapNest_cmaps hs r fun q hq => h q (List.mem_cons_of_mem _ hq)]
    simp [Cuda.dimOf, h m (List.mem_cons_self ..)]

theorem nestNode_cmaps {K : Cuda} {s : Seq} (hs : s.cmaps K = []) (m : CMap) (r : List CMap) (h : ∀ q ∈ m :: r, (K.dim q.i).isSome) :
    (nestNode s m r).cmaps K = m :: r := by
  have := mapNest_cmaps hs (m :: r) h
  rw [mapNest, Seq.one, Seq.cmaps, Seq.cmaps, List.append_nil] at this
  exact this

theorem find_unique {α : Type} {p : α → Bool} {l : List α} {a : α} (ha : a ∈ l) (hp : p a = true) (hu : ∀ b ∈ l, p b = true → b = a) : l.find? p = some a := by
  cases h : l.find? p with
  | none => exact absurd hp (by simpa using List.find?_eq_none.1 h a ha)
  | some b => rw [hu b (List.mem_of_find?_eq_some h) (List.find?_some h)]

theorem first_eq {K : Cuda} (hK : ∀ l, (K.order l).Perm l) {n : Node} {hs : List CMap} (hc : n.cmaps K = hs) (hd : (hs.map fun m => K.dim m.i).Nodup)
    {m : CMap} (hm : m ∈ hs) {d : CDim} (hdm : K.dim m.i = some d) : K.first d n = some m := by
  unfold Cuda.first
  rw [hc]
  refine find_unique ((hK hs).mem_iff.2 hm) (by simp [hdm]) fun q hq hp => ?_
  have hq := (hK hs).mem_iff.1 hq
  have : K.dim q.i = K.dim m.i := by simpa [hdm] using hp
  exact List.inj_on_of_nodup_map hd hq hm this

theorem first_none {K : Cuda} (hK : ∀ l, (K.order l).Perm l) {n : Node} {hs : List CMap} (hc : n.cmaps K = hs)
    {d : CDim} (h : ∀ m ∈ hs, K.dim m.i ≠ some d) : K.first d n = none := by
  unfold Cuda.first
  rw [hc]
  exact List.find?_eq_none.2 fun q hq => by simpa using h q ((hK hs).mem_iff.1 hq)

/-- what a nest that can be launched looks like -/
theorem launchable_facts {K : Cuda} (hK : ∀ l, (K.order l).Perm l) {s : Seq} (hs : s.cmaps K = []) :
    ∀ (qs : List CMap) (used : List CDim), (∀ m ∈ qs, (K.dim m.i).isSome) → (mapNest s qs).launchable K used = true →
    (qs.map fun m => K.dim m.i).Nodup ∧ (∀ m ∈ qs, ∀ d ∈ used, K.dim m.i ≠ some d) ∧
      ∀ m ∈ qs, m.init = .int 0 ∧ loopStride m.i m.upd = some 1 ∧ ∃ b, canonicalBound (K.mono m.i) m.i m.cond = some b
  | [], _, _, _ => by simp
  | m :: r, used, hd, h => by
    obtain ⟨d, hdm⟩ := Option.isSome_iff_exists.1 (hd m (List.mem_cons_self ..))
    rw [mapNest, Seq.one, Seq.launchable, Seq.launchable, Node.launchable] at h
    simp only [Cuda.dimOf, if_true, hdm, Bool.and_true, Bool.and_eq_true, Bool.not_eq_true'] at h
    obtain ⟨⟨h1, h2⟩, h3⟩ := h
    have hdr : ∀ q ∈ r, (K.dim q.i).isSome := fun q hq => hd q (List.mem_cons_of_mem _ hq)
    obtain ⟨a, b, c⟩ := launchable_facts hK hs r (d :: used) hdr h3
    have hnd : ((m :: r).map fun m => K.dim m.i).Nodup := by
      refine List.nodup_cons.2 ⟨fun hmem => ?_, a⟩
      obtain ⟨q, hq, e⟩ := List.mem_map.1 hmem
      exact b q hq d (List.mem_cons_self ..) (by rw [← hdm]; exact e)
    refine ⟨hnd, ?_, ?_⟩
    · intro q hq d' hd' e
      rcases List.mem_cons.1 hq with rfl | hq
      · rw [hdm] at e; cases e
        have : used.contains d = true := by simpa using hd'
        rw [h1] at this; cases this
      · exact b q hq d' (List.mem_cons_of_mem _ hd') e
    · intro q hq
      rcases List.mem_cons.1 hq with rfl | hq
      · have hf := first_eq hK (nestNode_cmaps hs q r hd) hnd (List.mem_cons_self ..) hdm
        change (K.iterations d (nestNode s q r)).isSome = true at h2
        unfold Cuda.iterations at h2
        rw [hf] at h2
        simp only at h2
        split at h2
        · rename_i hc
          exact ⟨hc.1, hc.2, Option.isSome_iff_exists.1 h2⟩
        · cases h2
      · exact c q hq

/-- the number of iterations the dispatcher uses -/
theorem iterations_eq {K : Cuda} (hK : ∀ l, (K.order l).Perm l) {n : Node} {hs : List CMap} (hc : n.cmaps K = hs) (hd : (hs.map fun m => K.dim m.i).Nodup)
    {m : CMap} (hm : m ∈ hs) {d : CDim} (hdm : K.dim m.i = some d) (h0 : m.init = .int 0) (h1 : loopStride m.i m.upd = some 1) :
    K.iterations d n = canonicalBound (K.mono m.i) m.i m.cond := by
  unfold Cuda.iterations
  rw [first_eq hK hc hd hm hdm]
  simp only [h0, h1, and_self, if_true]

/-! ### the code of a thread -/

mutual
theorem Node.thread_self {K : Cuda} : (n : Node) → n.cmaps K = [] → n.thread K = n
  | .loop m i a c u s, h => by
    rw [Node.cmaps, List.append_eq_nil_iff] at h
    have hd : K.dimOf m i = none := by
      cases e : K.dimOf m i with
      | none => rfl
      | some d => simp [e] at h
    rw [Node.thread, hd]
    simp only
    rw [Seq.thread_self s h.2]
  | .seq s, h => by rw [Node.cmaps] at h; rw [Node.thread, Seq.thread_self s h]
  | .ifElse b, h => by rw [Node.cmaps] at h; rw [Node.thread, Brs.thread_self b h]
  | .whileL s, h => by rw [Node.cmaps] at h; rw [Node.thread, Seq.thread_self s h]
  | .block _, _ => by rw [Node.thread] <;> simp
  | .brk, _ => by rw [Node.thread] <;> simp
  | .cont, _ => by rw [Node.thread] <;> simp
  | .ret _ _, _ => by rw [Node.thread] <;> simp
theorem Seq.thread_self {K : Cuda} : (s : Seq) → s.cmaps K = [] → s.thread K = s
  | .nil, _ => rfl
  | .cons n t r, h => by
    rw [Seq.cmaps, List.append_eq_nil_iff] at h
    rw [Seq.thread, Node.thread_self n h.1, Seq.thread_self r h.2]
theorem Brs.thread_self {K : Cuda} : (b : Brs) → b.cmaps K = [] → b.thread K = b
  | .nil, _ => rfl
  | .cons c s r, h => by
    rw [Brs.cmaps, List.append_eq_nil_iff] at h
    rw [Brs.thread, Seq.thread_self s h.1, Brs.thread_self r h.2]
end

/-- the bound of a map -/
def Cuda.bound (K : Cuda) (m : CMap) : Expr := (canonicalBound (K.mono m.i) m.i m.cond).getD (.int 0)

/-- a thread whose indices are below all bounds runs the body, other threads nothing -/
theorem thread_den {K : Cuda} (hK : ∀ l, (K.order l).Perm l) {s : Seq} (hs : s.cmaps K = []) (E : Env) :
    ∀ (qs : List CMap), (qs.map fun m => K.dim m.i).Nodup →
    (∀ m ∈ qs, (K.dim m.i).isSome ∧ K.sync m.i = false ∧ m.init = .int 0 ∧ loopStride m.i m.upd = some 1) → ∀ (τ : St) (c : Ctl) (τ' : St),
    ((mapNest s qs).thread K).den E τ c τ' ↔
      ((∀ m ∈ qs, τ m.i [] < τ.ev E (K.bound m)) ∧ s.den E τ c τ') ∨ ((¬ ∀ m ∈ qs, τ m.i [] < τ.ev E (K.bound m)) ∧ c = .normal ∧ τ' = τ)
  | [], _, _, τ, c, τ' => by rw [mapNest, Seq.thread_self s hs]; simp
  | m :: r, hd, h, τ, c, τ' => by
    obtain ⟨h0, hsy, hi, hst⟩ := h m (List.mem_cons_self ..)
    obtain ⟨d, hdm⟩ := Option.isSome_iff_exists.1 h0
    have hit : K.iterations d (nestNode s m r) = canonicalBound (K.mono m.i) m.i m.cond :=
      iterations_eq hK (nestNode_cmaps hs m r fun q hq => (h q hq).1) hd (List.mem_cons_self ..) hdm hi hst
    have e : (mapNest s (m :: r)).thread K = Seq.one (.ifElse (.cons (.lt (.sym m.i) (K.bound m)) ((mapNest s r).thread K) .nil)) := by
      rw [mapNest, Seq.one, Seq.thread, Seq.thread, Node.thread]
      simp only [Cuda.dimOf, if_true, hdm, hsy, Bool.false_eq_true, if_false]
      rw [show K.iterations d (.loop true m.i m.init m.cond m.upd (mapNest s r)) = _ from hit]
      rfl
    rw [e, Seq.one, one_child_den, Node.den, Brs.den, Brs.den]
    have ih := thread_den hK hs E r (List.nodup_cons.1 hd).2 (fun q hq => h q (List.mem_cons_of_mem _ hq)) τ c τ'
    have hc : τ.cond E (.lt (.sym m.i) (K.bound m)) = decide (τ m.i [] < τ.ev E (K.bound m)) := cond_lt E τ _ _
    by_cases hlt : τ m.i [] < τ.ev E (K.bound m)
    · simp only [Rel.ite, hc, hlt, decide_true, if_true, ih, List.mem_cons, forall_eq_or_imp, true_and]
    · simp only [Rel.ite, hc, hlt, decide_false, Bool.false_eq_true, if_false, Rel.upd, List.mem_cons, forall_eq_or_imp, false_and, not_false_eq_true, true_and, false_or, id]

end Docc.IR
