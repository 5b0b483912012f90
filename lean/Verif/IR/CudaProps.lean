import Verif.IR.CudaGrid

/-
Launching a perfect nest of maps on CUDA is the same as executing it sequentially.
-/
namespace Docc.IR
open Docc.Sym Docc.Expand

/-! ### bounds -/

theorem literalBound_atoms {P : String → Prop} {i : String} {l : Cond} {e : Expr} (h : literalBound i l = some e) (ha : ∀ e ∈ l.ops, ∀ x ∈ e.atoms, P x) :
    ∀ x ∈ e.atoms, P x := by
  unfold literalBound at h
  split at h
  · split at h
    · cases h; exact ha _ (by simp [Cond.ops])
    · cases h
  · split at h
    · cases h
      rename_i e _
      intro x hx
      exact ha e (by simp [Cond.ops]) x (by simpa [Expr.atoms, Expr.atomsL] using hx)
    · cases h
  · cases h

theorem foldBound_atoms {P : String → Prop} {i : String} : ∀ (l : List Cond) (acc : Option Expr) (b : Option Expr), foldBound i l acc = some b →
    (∀ c ∈ l, ∀ e ∈ c.ops, ∀ x ∈ e.atoms, P x) → (∀ e, acc = some e → ∀ x ∈ e.atoms, P x) → ∀ e, b = some e → ∀ x ∈ e.atoms, P x
  | [], acc, b, h, _, ha => by rw [foldBound] at h; cases h; exact ha
  | c :: r, acc, b, h, hl, ha => by
    rw [foldBound] at h
    split at h
    · cases h
    · rename_i e he
      have h1 := literalBound_atoms he (hl c (List.mem_cons_self ..))
      refine foldBound_atoms r _ b h (fun c hc => hl c (List.mem_cons_of_mem _ hc)) ?_
      intro e' he'
      split at he'
      · cases he'; exact h1
      · cases he'
        intro x hx
        simp only [Expr.atoms, Expr.atomsL, List.mem_append, List.append_nil] at hx
        rcases hx with hx | hx
        · exact ha _ rfl x hx
        · exact h1 x hx

/-- the canonical bound uses only symbols of the condition -/
theorem canonicalBound_atoms {mono : Bool} {i : String} {c : Cond} {b : Expr} (h : canonicalBound mono i c = some b) : ∀ x ∈ b.atoms, x ∈ c.atoms := by
  unfold canonicalBound at h
  split at h
  · cases h
  split at h
  · cases h
  rename_i f hf
  split at h
  · cases h
  have hops := cnf_ops (fun e => ∀ x ∈ e.atoms, x ∈ c.atoms) c f hf (Cond.ops_atoms c)
  split at h
  · rename_i b' hb
    refine foldBound_atoms (P := (· ∈ c.atoms)) _ _ _ hb ?_ (by simp) b h
    intro l hl
    obtain ⟨cl, hcl, hl⟩ := List.mem_flatten.1 hl
    exact (hops cl hcl).2 l hl
  · cases h

theorem Iters.conds {E : Env} {i : String} {k : Cond} {u : Expr} {σ : St} {v : Int} {vs : List Int} {e : Int}
    (h : Iters E i k u σ v vs e) : (∀ w ∈ vs, (σ.setS i w).cond E k = true) ∧ (σ.setS i e).cond E k = false := by
  induction h with
  | done hc => exact ⟨by simp, hc⟩
  | step hc _ ih =>
    refine ⟨fun w hw => ?_, ih.2⟩
    rcases List.mem_cons.1 hw with rfl | hw
    · exact hc
    · exact ih.1 w hw

/-- an index is below the bound exactly if it is below the number of iterations -/
theorem bound_iters {E : Env} {σ : St} {m : CMap} {n : Nat} {mono : Bool} {b : Expr} (hb : canonicalBound mono m.i m.cond = some b)
    (hi : m.i ∉ b.atoms) (hd : ∀ (v : Int), ∀ e ∈ m.cond.ops, (σ.setS m.i v).defd E e)
    (hI : Iters E m.i m.cond m.upd σ 0 ((List.range n).map Int.ofNat) n) {v : Int} (hv : 0 ≤ v) : v < σ.ev E b ↔ v < n := by
  have key : ∀ w : Int, (σ.setS m.i w).cond E m.cond = true ↔ w < σ.ev E b := by
    intro w
    have h := (canonical_bound_correct E (σ.setS m.i w) mono m.i m.cond b hb (hd w)).2
    rw [h]
    have h1 : (σ.setS m.i w) m.i [] = w := at_setS_same (σ := σ) (i := m.i)
    have h2 : (σ.setS m.i w).ev E b = σ.ev E b := St.ev_congr E fun x hx => congrFun (St.setS_other _ _ (fun e : x = m.i => hi (e ▸ hx))) []
    rw [h1, h2]
  obtain ⟨h1, h2⟩ := hI.conds
  have hn : ¬ (n : Int) < σ.ev E b := fun h => by rw [(key n).2 h] at h2; cases h2
  constructor
  · intro h; omega
  · intro h
    exact (key v).1 (h1 v (List.mem_map.2 ⟨v.toNat, List.mem_range.2 (by omega), by show ((v.toNat : Nat) : Int) = v; omega⟩))

/-! ### threads and index tuples -/

/-- the indices a thread has for the maps of a nest -/
def Cuda.tup (K : Cuda) (hs : List CMap) (t : Thread) : List Int := hs.map fun m => t.at ((K.dim m.i).getD .x)

theorem setVars_eq (K : Cuda) (t : Thread) : ∀ (hs : List CMap), (∀ m ∈ hs, (K.dim m.i).isSome) → ∀ σ,
    K.setVars t hs σ = setIx (hs.map (·.i)) (K.tup hs t) σ
  | [], _, _ => rfl
  | m :: r, h, σ => by
    obtain ⟨d, hd⟩ := Option.isSome_iff_exists.1 (h m (List.mem_cons_self ..))
    rw [Cuda.setVars, setVars_eq K t r fun q hq => h q (List.mem_cons_of_mem _ hq)]
    simp [Cuda.tup, setIx, hd]

theorem inRange_forall : ∀ (ns : List Nat) (v : List Int), Types.InRange (ns.map Int.ofNat) v ↔ List.Forall₂ (fun (n : Nat) a => 0 ≤ a ∧ a < (n : Int)) ns v
  | [], [] => by simp [Types.InRange]
  | [], a :: v => by simp [Types.InRange]
  | n :: ns, [] => by simp [Types.InRange]
  | n :: ns, a :: v => by
    rw [List.map_cons, Types.InRange, List.forall₂_cons, inRange_forall ns v]
    simp [and_assoc]

theorem mem_threads {K : Cuda} {E : Env} {σ : St} {n : Node} {t : Thread} :
    t ∈ K.threads E σ n ↔ ∀ d : CDim, t.at d ∈ lanes (K.blocks E σ d n) (K.blockSize d n) := by
  simp only [Cuda.threads, List.mem_flatMap, List.mem_map]
  constructor
  · rintro ⟨x, hx, y, hy, z, hz, rfl⟩ d
    cases d
    · exact hx
    · exact hy
    · exact hz
  · intro h
    exact ⟨t.x, h .x, t.y, h .y, t.z, h .z, rfl⟩

theorem nodup_threads {K : Cuda} {E : Env} {σ : St} {n : Node} (hb : ∀ d, 0 < K.blockSize d n) : (K.threads E σ n).Nodup := by
  rw [Cuda.threads, List.nodup_iff_pairwise_ne, List.pairwise_flatMap]
  refine ⟨fun x _ => ?_, ?_⟩
  · rw [List.pairwise_flatMap]
    refine ⟨fun y _ => ?_, ?_⟩
    · rw [List.pairwise_map]
      exact (List.nodup_iff_pairwise_ne.mp (nodup_lanes (hb .z))).imp fun h h' => h (by cases h'; rfl)
    · refine (List.nodup_iff_pairwise_ne.mp (nodup_lanes (hb .y))).imp fun h v hv w hw e => h ?_
      simp only [List.mem_map] at hv hw
      obtain ⟨_, _, rfl⟩ := hv
      obtain ⟨_, _, rfl⟩ := hw
      cases e; rfl
  · refine (List.nodup_iff_pairwise_ne.mp (nodup_lanes (hb .x))).imp fun h v hv w hw e => h ?_
    simp only [List.mem_map, List.mem_flatMap] at hv hw
    obtain ⟨_, _, _, _, rfl⟩ := hv
    obtain ⟨_, _, _, _, rfl⟩ := hw
    cases e; rfl

section
variable {K : Cuda} (hK : ∀ l, (K.order l).Perm l) {n : Node} {hs : List CMap} (hc : n.cmaps K = hs) (hd : (hs.map fun m => K.dim m.i).Nodup)
  (hf : ∀ m ∈ hs, (K.dim m.i).isSome ∧ m.init = .int 0 ∧ loopStride m.i m.upd = some 1) (hb : ∀ m ∈ hs, ∀ d, 0 < K.block d m.i)
include hK hc hd hf hb

theorem blockSize_pos (d : CDim) : 0 < K.blockSize d n := by
  unfold Cuda.blockSize
  cases h : K.first d n with
  | none => simp
  | some m =>
    have : m ∈ hs := by
      have := List.mem_of_find?_eq_some h
      rw [hc] at this
      exact (hK hs).mem_iff.1 this
    exact hb m this d

/-- a dimension no map uses has a single index -/
theorem lanes_unused {E : Env} {σ : St} {d : CDim} (h : ∀ m ∈ hs, K.dim m.i ≠ some d) : lanes (K.blocks E σ d n) (K.blockSize d n) = [0] := by
  have h1 := first_none hK hc h
  have h2 : K.blockSize d n = 1 := by rw [Cuda.blockSize, h1]
  have h3 : K.iterations d n = some (.int 1) := by rw [Cuda.iterations, h1]
  have h4 : K.blocks E σ d n = 1 := by
    rw [Cuda.blocks, h3, h2]
    simp [ceilDiv, Expr.atoms, St.ev_int]
  rw [h2, h4]
  decide

/-- the indices of the dimension of a map cover its bound -/
theorem lanes_used {E : Env} {σ : St} {d : CDim} {m : CMap} (hm : m ∈ hs) (hdm : K.dim m.i = some d) {b : Expr}
    (hcb : canonicalBound (K.mono m.i) m.i m.cond = some b) {v : Int} (h0 : 0 ≤ v) (hv : v < σ.ev E b) :
    v ∈ lanes (K.blocks E σ d n) (K.blockSize d n) := by
  obtain ⟨_, hi, hst⟩ := hf m hm
  have hpos := blockSize_pos hK hc hd hf hb d
  rw [mem_lanes hpos, Cuda.blocks, iterations_eq hK hc hd hm hdm hi hst, hcb]
  refine ⟨h0, Int.lt_of_lt_of_le hv ?_⟩
  exact ceilDiv_ge E σ b hpos

/-- different threads have different index tuples -/
theorem tup_inj {E : Env} {σ : St} {t t' : Thread} (ht : t ∈ K.threads E σ n) (ht' : t' ∈ K.threads E σ n) (h : K.tup hs t = K.tup hs t') : t = t' := by
  have key : ∀ d, t.at d = t'.at d := by
    intro d
    by_cases hu : ∃ m ∈ hs, K.dim m.i = some d
    · obtain ⟨m, hm, hdm⟩ := hu
      have := List.map_inj_left.1 h m hm
      simpa [hdm] using this
    · have hl := lanes_unused hK hc hd hf hb (E := E) (σ := σ) (d := d) fun m hm e => hu ⟨m, hm, e⟩
      have h1 := mem_threads.1 ht d
      have h2 := mem_threads.1 ht' d
      rw [hl, List.mem_singleton] at h1 h2
      rw [h1, h2]
  cases t; cases t'
  simp only [Thread.mk.injEq]
  exact ⟨key .x, key .y, key .z⟩

end

/-- the thread with given indices for the maps of a nest -/
def Cuda.threadOf (K : Cuda) : List CMap → List Int → Thread
  | m :: r, v :: vs =>
    let t := K.threadOf r vs
    match K.dim m.i with
    | some .x => { t with x := v }
    | some .y => { t with y := v }
    | some .z => { t with z := v }
    | none => t
  | _, _ => ⟨0, 0, 0⟩

theorem threadOf_at {K : Cuda} : ∀ (hs : List CMap) (vs : List Int) (d : CDim), hs.length = vs.length → (hs.map fun m => K.dim m.i).Nodup →
    (∀ m v, (m, v) ∈ hs.zip vs → K.dim m.i = some d → (K.threadOf hs vs).at d = v) ∧
    ((∀ m ∈ hs, K.dim m.i ≠ some d) → (K.threadOf hs vs).at d = 0)
  | [], [], d, _, _ => by
    refine ⟨by simp, fun _ => ?_⟩
    cases d <;> rfl
  | m :: r, v :: vs, d, hl, hd => by
    obtain ⟨h1, h2⟩ := List.nodup_cons.1 hd
    obtain ⟨i1, i2⟩ := threadOf_at r vs d (by simpa using hl) h2
    have hat : (K.threadOf (m :: r) (v :: vs)).at d = if K.dim m.i = some d then v else (K.threadOf r vs).at d := by
      rw [Cuda.threadOf]
      cases hm : K.dim m.i with
      | none => simp
      | some d' => cases d' <;> cases d <;> simp [Thread.at]
    rw [hat]
    constructor
    · intro q w hq hqd
      rw [List.zip_cons_cons] at hq
      rcases List.mem_cons.1 hq with e | hq
      · cases e; rw [if_pos hqd]
      · rw [if_neg, i1 q w hq hqd]
        intro e
        exact h1 (List.mem_map.2 ⟨q, (List.of_mem_zip hq).1, hqd.trans e.symm⟩)
    · intro h
      rw [if_neg (h m (List.mem_cons_self ..)), i2 fun q hq => h q (List.mem_cons_of_mem _ hq)]

theorem map_zip_eq {α : Type} (f : α → Int) : ∀ (l : List α) (vs : List Int), l.length = vs.length → (∀ m v, (m, v) ∈ l.zip vs → f m = v) → l.map f = vs
  | [], [], _, _ => rfl
  | a :: l, v :: vs, h, hz => by
    rw [List.map_cons, hz a v (by simp), map_zip_eq f l vs (by simpa using h) fun m w hm => hz m w (by simp [hm])]

theorem below_iff {B : CMap → Int} {f : CMap → Int} {hs : List CMap} {ns : List Nat}
    (h : List.Forall₂ (fun m (n : Nat) => ∀ v : Int, 0 ≤ v → (v < B m ↔ v < (n : Int))) hs ns) (hf : ∀ m ∈ hs, 0 ≤ f m) :
    (∀ m ∈ hs, f m < B m) ↔ List.Forall₂ (fun (n : Nat) a => 0 ≤ a ∧ a < (n : Int)) ns (hs.map f) := by
  induction h with
  | nil => simp
  | @cons m n hs ns h _ ih =>
    rw [List.map_cons, List.forall₂_cons, ← ih fun q hq => hf q (List.mem_cons_of_mem _ hq)]
    have h0 := hf m (List.mem_cons_self ..)
    simp only [List.mem_cons, forall_eq_or_imp, h _ h0, h0, true_and]

theorem zip_below {B : CMap → Int} {hs : List CMap} {ns : List Nat} {v : List Int}
    (h : List.Forall₂ (fun m (n : Nat) => ∀ v : Int, 0 ≤ v → (v < B m ↔ v < (n : Int))) hs ns)
    (hv : List.Forall₂ (fun (n : Nat) a => 0 ≤ a ∧ a < (n : Int)) ns v) :
    hs.length = v.length ∧ ∀ m a, (m, a) ∈ hs.zip v → 0 ≤ a ∧ a < B m := by
  induction h generalizing v with
  | nil => cases hv; simp
  | @cons m n hs ns h _ ih =>
    cases hv with
    | @cons _ a _ v ha hv =>
    obtain ⟨h1, h2⟩ := ih hv
    refine ⟨by simp [h1], fun q b hq => ?_⟩
    rw [List.zip_cons_cons] at hq
    rcases List.mem_cons.1 hq with e | hq
    · cases e; exact ⟨ha.1, (h _ ha.1).2 ha.2⟩
    · exact h2 q b hq

theorem mem_zip_left {α : Type} {l : List α} {v : List Int} (h : l.length = v.length) {m : α} (hm : m ∈ l) : ∃ a, (m, a) ∈ l.zip v := by
  induction l generalizing v with
  | nil => simp at hm
  | cons b l ih =>
    cases v with
    | nil => simp at h
    | cons a v =>
      rcases List.mem_cons.1 hm with rfl | hm
      · exact ⟨a, by simp⟩
      · obtain ⟨c, hc⟩ := ih (v := v) (by simpa using h) hm
        exact ⟨c, by simp [hc]⟩

/-- the instances of the nest -/
def instances (ns : List Nat) : List (List Int) := box (ns.map Int.ofNat)

section
variable {K : Cuda} {E : Env} {X : String → Prop} {σ : St} {s : Seq} {m0 : CMap} {r : List CMap} {ns : List Nat}
  {res : List Int → St} {R W : List Int → Loc → Prop}

/-- the launch of a nest executes exactly its instances -/
theorem launch_merged (hK : ∀ l, (K.order l).Perm l) (hs0 : s.cmaps K = []) (hd : ((m0 :: r).map fun m => K.dim m.i).Nodup)
    (hf : ∀ m ∈ m0 :: r, (K.dim m.i).isSome ∧ K.sync m.i = false ∧ m.init = .int 0 ∧ loopStride m.i m.upd = some 1)
    (hnd : ((m0 :: r).map (·.i)).Nodup) (I : TupIndep (s.den E) ((m0 :: r).map (·.i)) X σ (instances ns) res R W)
    (hbd : ∀ m ∈ m0 :: r, ∀ x ∈ (K.bound m).atoms, ¬ X x ∧ ∀ v ∈ instances ns, ¬ W v (x, []))
    : ∀ (ts : List Thread),
    (∀ t ∈ ts, ((∀ m ∈ m0 :: r, t.at ((K.dim m.i).getD .x) < σ.ev E (K.bound m)) ↔ K.tup (m0 :: r) t ∈ instances ns)) →
    (ts.map (K.tup (m0 :: r))).Nodup → ∀ (done : List (List Int)), (∀ t ∈ ts, K.tup (m0 :: r) t ∉ done) → (∀ w ∈ done, w ∈ instances ns) →
    ∀ τ, TupMerged X σ done res W τ →
    (∃ τ', Launch K E X (nestNode s m0 r) ts τ τ') ∧ ∀ τ', Launch K E X (nestNode s m0 r) ts τ τ' →
      TupMerged X σ ((ts.map (K.tup (m0 :: r))).filter (fun v => v ∈ instances ns) ++ done) res W τ' := by
  intro ts
  induction ts with
  | nil =>
    intro _ _ done _ _ τ hm
    refine ⟨⟨τ, .nil⟩, fun τ' h => ?_⟩
    cases h
    simpa using hm
  | cons t ts ih =>
    intro hex hndt done hnot hdT τ hm
    have hcm : (nestNode s m0 r).cmaps K = m0 :: r := nestNode_cmaps hs0 m0 r fun q hq => (hf q hq).1
    have hden : ∀ τ c τ', ((nestNode s m0 r).thread K).den E τ c τ' ↔
        ((∀ m ∈ m0 :: r, τ m.i [] < τ.ev E (K.bound m)) ∧ s.den E τ c τ') ∨
          ((¬ ∀ m ∈ m0 :: r, τ m.i [] < τ.ev E (K.bound m)) ∧ c = .normal ∧ τ' = τ) := by
      intro τ c τ'
      rw [← thread_den hK hs0 E (m0 :: r) hd hf τ c τ', mapNest, Seq.one, Seq.thread, Seq.thread, one_child_den]
      rfl
    obtain ⟨hn1, hn2⟩ := List.nodup_cons.1 hndt
    -- one thread, from any state with the same content outside `X`
    have step : ∀ τ1, OffX X τ τ1 → (∃ τ2, ((nestNode s m0 r).thread K).den E (K.setVars t ((nestNode s m0 r).cmaps K) τ1) .normal τ2) ∧
        ∀ τ2, ((nestNode s m0 r).thread K).den E (K.setVars t ((nestNode s m0 r).cmaps K) τ1) .normal τ2 →
          TupMerged X σ ((if K.tup (m0 :: r) t ∈ instances ns then [K.tup (m0 :: r) t] else []) ++ done) res W τ2 := by
      intro τ1 hX
      rw [hcm, setVars_eq K t _ fun m hm => (hf m hm).1]
      generalize hτ2 : setIx ((m0 :: r).map (·.i)) (K.tup (m0 :: r) t) τ1 = τ2
      have hlen : ((m0 :: r).map (·.i)).length = (K.tup (m0 :: r) t).length := by simp [Cuda.tup]
      have hix : ((m0 :: r).map (·.i)).map (fun i => τ2 i []) = K.tup (m0 :: r) t := by
        rw [← hτ2]; exact map_setIx _ _ _ hnd hlen
      have hm2 : TupMerged X σ done res W τ2 := by
        refine (hm.off hX).off fun l hl => ?_
        rw [← hτ2]
        exact (setIx_at _ _ _ _ fun i hi e => hl (by rw [e]; exact I.ivar i hi)).symm
      have hvar : ∀ m ∈ m0 :: r, τ2 m.i [] = t.at ((K.dim m.i).getD .x) := by
        intro m hm
        rw [List.map_map, Cuda.tup] at hix
        exact List.map_inj_left.1 hix m hm
      have hbv : ∀ m ∈ m0 :: r, τ2.ev E (K.bound m) = σ.ev E (K.bound m) := by
        intro m hm
        exact St.ev_congr E fun x hx => (hm2 (x, []) (hbd m hm x hx).1).2 fun v hv => (hbd m hm x hx).2 v (hdT v hv)
      have hiff : (∀ m ∈ m0 :: r, τ2 m.i [] < τ2.ev E (K.bound m)) ↔ K.tup (m0 :: r) t ∈ instances ns := by
        rw [← hex t (List.mem_cons_self ..)]
        constructor
        · intro h m hm; rw [← hvar m hm, ← hbv m hm]; exact h m hm
        · intro h m hm; rw [hvar m hm, hbv m hm]; exact h m hm
      simp only [hden, hiff]
      by_cases hin : K.tup (m0 :: r) t ∈ instances ns
      · obtain ⟨τ', a, b, _⟩ := I.inst hnd hin hlen hdT (hnot t (List.mem_cons_self ..)) hm2 hix
        refine ⟨⟨τ', Or.inl ⟨hin, a⟩⟩, fun τ3 h => ?_⟩
        rcases h with h | h
        · obtain ⟨_, rfl⟩ := s.den_det E _ _ _ _ _ h.2 a
          simpa [hin] using b
        · exact absurd hin h.1
      · refine ⟨⟨τ2, Or.inr (by simp [hin])⟩, fun τ3 h => ?_⟩
        rcases h with h | h
        · exact absurd h.1 hin
        · rw [h.2.2]; simpa [hin] using hm2
    -- the remaining threads
    have rest := ih (fun t ht => hex t (List.mem_cons_of_mem _ ht)) hn2
      ((if K.tup (m0 :: r) t ∈ instances ns then [K.tup (m0 :: r) t] else []) ++ done)
      (by
        intro t' ht' hmem
        rcases List.mem_append.1 hmem with h | h
        · split at h
          · rw [List.mem_singleton] at h
            exact hn1 (List.mem_map.2 ⟨t', ht', h⟩)
          · simp at h
        · exact hnot t' (List.mem_cons_of_mem _ ht') h)
      (by
        intro w hw
        rcases List.mem_append.1 hw with h | h
        · split at h
          · rename_i hin
            rw [List.mem_singleton] at h
            rw [h]; exact hin
          · simp at h
        · exact hdT w h)
    refine ⟨?_, fun τ' h => ?_⟩
    · obtain ⟨⟨τ2, h2⟩, h3⟩ := step τ fun _ _ => rfl
      obtain ⟨⟨τ', h4⟩, _⟩ := rest τ2 (h3 τ2 h2)
      exact ⟨τ', .cons (fun _ _ => rfl) h2 h4⟩
    · cases h with
      | @cons _ _ _ τ1 τ2 _ hX h2 h4 =>
        refine ((rest τ2 ((step τ1 hX).2 τ2 h2)).2 τ' h4).congr fun v => ?_
        rw [List.map_cons, List.filter_cons]
        by_cases hin : K.tup (m0 :: r) t ∈ instances ns
        · simp only [hin, decide_true, if_true, List.mem_append, List.mem_cons, List.not_mem_nil, or_false]
          constructor
          · rintro (h | h | h)
            · exact Or.inl (Or.inr h)
            · exact Or.inl (Or.inl h)
            · exact Or.inr h
          · rintro ((h | h) | h)
            · exact Or.inr (Or.inl h)
            · exact Or.inl h
            · exact Or.inr (Or.inr h)
        · simp [hin]

/-- **C87** (partial).  A perfect nest of maps (one to three) that are all scheduled on CUDA, whose generation does not throw: if its instances are independent
up to the containers `X` private to a thread, neither bounds nor conditions depend on private containers, on what the instances write or on another loop
variable of the nest, the expressions the conditions compare are defined, and block sizes are positive, then the sequential nest terminates, and for every
order of the threads the launch terminates and leaves the same memory outside `X`: every instance is executed by exactly one thread, whatever
the block sizes and iteration numbers.  Missing: nests with code beside a nested map, several nested maps with the same dimension
(see the `_violated` theorems), `nested_sync`, threads that interleave. -/
theorem cuda_launch_partial (hK : ∀ l, (K.order l).Perm l) (hcu : ∀ m ∈ m0 :: r, (K.dim m.i).isSome ∧ K.sync m.i = false ∧ ∀ d, 0 < K.block d m.i)
    (hs0 : s.cmaps K = []) (hla : (nestNode s m0 r).launchable K [] = true) (hnd : ((m0 :: r).map (·.i)).Nodup)
    (hI : NestIters E σ (m0 :: r) ns) (hH : NestHeaders X (m0 :: r) (instances ns) W)
    (hdef : ∀ m ∈ m0 :: r, ∀ (v : Int), ∀ e ∈ m.cond.ops, (σ.setS m.i v).defd E e)
    (hself : ∀ m ∈ m0 :: r, ∀ b, canonicalBound (K.mono m.i) m.i m.cond = some b → m.i ∉ b.atoms)
    (I : TupIndep (s.den E) ((m0 :: r).map (·.i)) X σ (instances ns) res R W) :
    ∃ σ', (nestNode s m0 r).den E σ .normal σ' ∧ ∀ ts : List Thread, ts.Perm (K.threads E σ (nestNode s m0 r)) →
      (∃ τ', Launch K E X (nestNode s m0 r) ts σ τ') ∧ ∀ τ', Launch K E X (nestNode s m0 r) ts σ τ' → OffX X τ' σ' := by
  have hla' : (mapNest s (m0 :: r)).launchable K [] = true := by
    rw [mapNest, Seq.one, Seq.launchable, Seq.launchable, Bool.and_true]; exact hla
  obtain ⟨hd, _, hfa⟩ := launchable_facts hK hs0 (m0 :: r) [] (fun m hm => (hcu m hm).1) hla'
  have hcm : (nestNode s m0 r).cmaps K = m0 :: r := nestNode_cmaps hs0 m0 r fun q hq => (hcu q hq).1
  have hf1 : ∀ m ∈ m0 :: r, (K.dim m.i).isSome ∧ m.init = .int 0 ∧ loopStride m.i m.upd = some 1 :=
    fun m hm => ⟨(hcu m hm).1, (hfa m hm).1, (hfa m hm).2.1⟩
  have hblk : ∀ m ∈ m0 :: r, ∀ d, 0 < K.block d m.i := fun m hm => (hcu m hm).2.2
  have hbe : ∀ m ∈ m0 :: r, canonicalBound (K.mono m.i) m.i m.cond = some (K.bound m) := by
    intro m hm
    obtain ⟨b, hb⟩ := (hfa m hm).2.2
    rw [Cuda.bound, hb]; rfl
  have h0 : TupMerged X σ [] res W σ := fun l _ => ⟨fun v hv => by simp at hv, fun _ => rfl⟩
  -- the sequential nest
  obtain ⟨σ', hr, hm, _⟩ := nest_run (T := instances ns) I hnd (m0 :: r) ns [] [] rfl hH hI (fun m hm => ⟨(hfa m hm).1, (hfa m hm).2.1⟩) rfl
    (fun w hw => by simpa [instances] using hw) [] σ h0 (by simp) (by simp) rfl
  rw [mapNest, Seq.one, one_child_den] at hr
  refine ⟨σ', hr, fun ts hts => ?_⟩
  -- which threads pass the checks
  have hbi : List.Forall₂ (fun m (n : Nat) => ∀ v : Int, 0 ≤ v → (v < σ.ev E (K.bound m) ↔ v < (n : Int))) (m0 :: r) ns := by
    have : ∀ (hs : List CMap) (ns : List Nat), (∀ m ∈ hs, m ∈ m0 :: r) → NestIters E σ hs ns →
        List.Forall₂ (fun m (n : Nat) => ∀ v : Int, 0 ≤ v → (v < σ.ev E (K.bound m) ↔ v < (n : Int))) hs ns := by
      intro hs ns hsub h
      unfold NestIters at h
      induction h with
      | nil => exact .nil
      | @cons m n hs ns h _ ih =>
        have hm := hsub m (List.mem_cons_self ..)
        exact .cons (fun v hv => bound_iters (hbe m hm) (hself m hm _ (hbe m hm)) (hdef m hm) h hv) (ih fun q hq => hsub q (List.mem_cons_of_mem _ hq))
    exact this _ _ (fun m hm => hm) hI
  have hex : ∀ t ∈ K.threads E σ (nestNode s m0 r),
      ((∀ m ∈ m0 :: r, t.at ((K.dim m.i).getD .x) < σ.ev E (K.bound m)) ↔ K.tup (m0 :: r) t ∈ instances ns) := by
    intro t ht
    rw [instances, mem_box, inRange_forall]
    exact below_iff hbi fun m _ => ((mem_lanes (blockSize_pos hK hcm hd hf1 hblk _)).1 (mem_threads.1 ht _)).1
  have hsub : ∀ t ∈ ts, t ∈ K.threads E σ (nestNode s m0 r) := fun t ht => hts.mem_iff.1 ht
  have hndts : ts.Nodup := hts.nodup_iff.2 (nodup_threads (blockSize_pos hK hcm hd hf1 hblk))
  have hndt : (ts.map (K.tup (m0 :: r))).Nodup := by
    rw [List.nodup_iff_pairwise_ne, List.pairwise_map]
    refine List.Pairwise.imp_of_mem ?_ (List.nodup_iff_pairwise_ne.1 hndts)
    intro t t' ht ht' hne e
    exact hne (tup_inj hK hcm hd hf1 hblk (hsub t ht) (hsub t' ht') e)
  have hbd : ∀ m ∈ m0 :: r, ∀ x ∈ (K.bound m).atoms, ¬ X x ∧ ∀ v ∈ instances ns, ¬ W v (x, []) := by
    intro m hm x hx
    exact hH m hm x (canonicalBound_atoms (hbe m hm) x hx) fun e : x = m.i => hself m hm _ (hbe m hm) (e ▸ hx)
  obtain ⟨he, hu⟩ := launch_merged hK hs0 hd (fun m hm => ⟨(hcu m hm).1, (hcu m hm).2.1, (hfa m hm).1, (hfa m hm).2.1⟩) hnd I hbd ts
    (fun t ht => hex t (hsub t ht)) hndt [] (by simp) (by simp) σ h0
  refine ⟨he, fun τ' h => ?_⟩
  refine ((hu τ' h).congr fun v => ?_).offX hm
  simp only [List.nil_append, List.append_nil, List.map_id', List.mem_filter, List.mem_map, decide_eq_true_eq]
  constructor
  · rintro ⟨_, h⟩; simpa [instances] using h
  · intro hv
    have hv' : v ∈ instances ns := by simpa [instances] using hv
    have hlen : (m0 :: r).length = v.length ∧ ∀ m a, (m, a) ∈ (m0 :: r).zip v → 0 ≤ a ∧ a < σ.ev E (K.bound m) := by
      have h := hv'
      rw [instances, mem_box, inRange_forall] at h
      exact zip_below hbi h
    obtain ⟨hlen, hpt⟩ := hlen
    refine ⟨⟨K.threadOf (m0 :: r) v, hts.mem_iff.2 (mem_threads.2 fun d => ?_), ?_⟩, hv'⟩
    · by_cases hused : ∃ m ∈ m0 :: r, K.dim m.i = some d
      · obtain ⟨m, hm, hdm⟩ := hused
        obtain ⟨a, ha⟩ := mem_zip_left hlen hm
        rw [(threadOf_at (m0 :: r) v d hlen hd).1 m a ha hdm]
        exact lanes_used hK hcm hd hf1 hblk hm hdm (hbe m hm) (hpt m a ha).1 (hpt m a ha).2
      · have hno : ∀ m ∈ m0 :: r, K.dim m.i ≠ some d := fun m hm e => hused ⟨m, hm, e⟩
        rw [(threadOf_at (m0 :: r) v d hlen hd).2 hno, lanes_unused hK hcm hd hf1 hblk hno]
        simp
    · refine map_zip_eq _ _ _ hlen fun m a ha => ?_
      obtain ⟨d, hdm⟩ := Option.isSome_iff_exists.1 (hcu m (List.of_mem_zip ha).1).1
      simp only [hdm, Option.getD_some]
      exact (threadOf_at (m0 :: r) v d hlen hd).1 m a ha hdm

end

end Docc.IR
