import Verif.IR.Cuda
import Verif.IR.InterchangeProps
import Verif.IR.LoopInfoProps
import Verif.Expand.Nest

/-
Launching a perfect nest of maps: which threads run which instances.
-/
namespace Docc.IR
open Docc.Sym Docc.Expand

/-- set variables to values -/
def setIx : List String → List Int → St → St
  | i :: is, v :: vs, σ => setIx is vs (σ.setS i v)
  | _, _, σ => σ

theorem setIx_at : ∀ (is : List String) (vs : List Int) (σ : St) (l : Loc), (∀ i ∈ is, l ≠ (i, [])) → (setIx is vs σ).at l = σ.at l
  | [], _, _, _, _ => by simp [setIx]
  | _ :: _, [], _, _, _ => by simp [setIx]
  | i :: is, v :: vs, σ, l, h => by
    rw [setIx, setIx_at is vs _ l fun j hj => h j (List.mem_cons_of_mem _ hj), at_setS (h i (List.mem_cons_self ..))]

theorem map_setIx : ∀ (is : List String) (vs : List Int) (σ : St), is.Nodup → is.length = vs.length →
    is.map (fun i => setIx is vs σ i []) = vs
  | [], [], _, _, _ => rfl
  | i :: is, v :: vs, σ, h, hl => by
    obtain ⟨h1, h2⟩ := List.nodup_cons.1 h
    rw [List.map_cons, setIx, map_setIx is vs _ h2 (by simpa using hl)]
    congr 1
    have := setIx_at is vs (σ.setS i v) (i, []) fun j hj e => h1 (by cases e; exact hj)
    simp only [St.at] at this
    rw [this]
    exact at_setS_same

/-- What independent instances `T` of a body are, when each of the variables `is` is set to its component of the tuple (cf. `Independent`). -/
structure TupIndep (D : Rel) (is : List String) (X : String → Prop) (σ : St) (T : List (List Int)) (res : List Int → St)
    (R W : List Int → Loc → Prop) : Prop where
  ivar : ∀ i ∈ is, X i
  foot : ∀ v ∈ T, D.Foot (setIx is v σ) .normal (res v) (R v) (W v)
  keep : ∀ v ∈ T, ∀ i ∈ is, ¬ W v (i, [])
  priv : ∀ v ∈ T, ∀ l, R v l → (∀ i ∈ is, l ≠ (i, [])) → ¬ X l.1
  apart : ∀ v ∈ T, ∀ w ∈ T, v ≠ w → ∀ l, W v l → ¬ X l.1 → ¬ R w l ∧ (W w l → (res v).at l = (res w).at l)

/-- the state holds what the instances `vs` wrote, outside `X` -/
def TupMerged (X : String → Prop) (σ : St) (vs : List (List Int)) (res : List Int → St) (W : List Int → Loc → Prop) (σ' : St) : Prop :=
  ∀ l : Loc, ¬ X l.1 → (∀ v ∈ vs, W v l → σ'.at l = (res v).at l) ∧ ((∀ v ∈ vs, ¬ W v l) → σ'.at l = σ.at l)

section
variable {D : Rel} {is : List String} {X : String → Prop} {σ : St} {T : List (List Int)} {res : List Int → St} {R W : List Int → Loc → Prop}

theorem TupMerged.congr {vs ws : List (List Int)} {τ : St} (h : TupMerged X σ vs res W τ) (hm : ∀ v, v ∈ vs ↔ v ∈ ws) : TupMerged X σ ws res W τ :=
  fun l hl => ⟨fun v hv => (h l hl).1 v ((hm v).2 hv), fun hn => (h l hl).2 fun v hv => hn v ((hm v).1 hv)⟩

theorem TupMerged.off {vs : List (List Int)} {τ τ' : St} (h : TupMerged X σ vs res W τ) (hX : OffX X τ τ') : TupMerged X σ vs res W τ' :=
  fun l hl => by rw [← hX l hl]; exact h l hl

theorem TupMerged.offX {vs : List (List Int)} {τ τ' : St} (h : TupMerged X σ vs res W τ) (h' : TupMerged X σ vs res W τ') : OffX X τ τ' := by
  intro l hx
  by_cases hw : ∃ v ∈ vs, W v l
  · obtain ⟨v, hv, hW⟩ := hw
    rw [(h l hx).1 v hv hW, (h' l hx).1 v hv hW]
  · have : ∀ v ∈ vs, ¬ W v l := fun v hv hW => hw ⟨v, hv, hW⟩
    rw [(h l hx).2 this, (h' l hx).2 this]

/-- one more instance -/
theorem TupIndep.inst (I : TupIndep D is X σ T res R W) (hnd : is.Nodup) {done : List (List Int)} {v : List Int} (hv : v ∈ T)
    (hl : is.length = v.length) (hd : ∀ w ∈ done, w ∈ T) (hvd : v ∉ done) {τ : St} (hm : TupMerged X σ done res W τ)
    (hix : is.map (fun i => τ i []) = v) :
    ∃ τ', D τ .normal τ' ∧ TupMerged X σ (v :: done) res W τ' ∧ ∀ i ∈ is, τ' i [] = τ i [] := by
  obtain ⟨h1, h2, h3⟩ := I.foot v hv
  have hsame : ∀ i ∈ is, τ i [] = setIx is v σ i [] := by
    have := map_setIx is v σ hnd hl
    rw [← hix] at this
    intro i hi
    rw [hix] at this
    rw [← hix] at this
    exact (List.map_inj_left.1 this i hi).symm ▸ (by rw [hix])
  have hread : ∀ l, R v l → τ.at l = (setIx is v σ).at l := by
    intro l hr
    by_cases hi : ∀ i ∈ is, l ≠ (i, [])
    · have hx := I.priv v hv l hr hi
      rw [setIx_at _ _ _ _ hi]
      exact (hm l hx).2 fun w hw hW => (I.apart w (hd w hw) v hv (fun e => hvd (e ▸ hw)) l hW hx).1 hr
    · obtain ⟨i, hi'⟩ := Classical.not_forall.1 hi
      obtain ⟨hi', hl'⟩ := Classical.not_imp.1 hi'
      rw [Classical.not_not.1 hl']
      exact hsame i hi'
  obtain ⟨τ', a, b, c⟩ := h3 τ hread
  refine ⟨τ', a, ?_, fun i hi => c (i, []) (I.keep v hv i hi)⟩
  intro l hx
  constructor
  · intro w hw hW
    rcases List.mem_cons.1 hw with e | hw
    · rw [e] at hW ⊢; exact b l hW
    · by_cases hW' : W v l
      · rw [b l hW']
        exact (I.apart v hv w (hd w hw) (fun e => hvd (e ▸ hw)) l hW' hx).2 hW
      · rw [c l hW']; exact (hm l hx).1 w hw hW
  · intro hn
    rw [c l (hn v (List.mem_cons_self ..))]
    exact (hm l hx).2 fun w hw => hn w (List.mem_cons_of_mem _ hw)

end

/-- a perfect nest of maps with the headers `hs` around the body -/
def mapNest (s : Seq) : List CMap → Seq
  | [] => s
  | m :: r => Seq.one (.loop true m.i m.init m.cond m.upd (mapNest s r))

/-! ### the sequential nest -/

theorem stride_one {E : Env} {τ : St} {i : String} {u : Expr} (h : loopStride i u = some 1) : τ.ev E u = τ i [] + 1 ∧ ∀ x ∈ u.atoms, x = i := by
  unfold loopStride at h
  split at h
  · split at h
    · rename_i e; cases h; subst e
      exact ⟨ev_succ E τ _, by simp [Expr.atoms, Expr.atomsL]⟩
    · cases h
  · split at h
    · rename_i e; cases h; subst e
      refine ⟨?_, by simp [Expr.atoms, Expr.atomsL]⟩
      have := ev_succ E τ ‹_›
      simp [St.ev, Expr.eval, Expr.evalL, V.add, St.val] at this ⊢
      omega
    · cases h
  · cases h

section
variable {E : Env} {is : List String} {X : String → Prop} {σ : St} {ns : List Nat} {s : Seq} {res : List Int → St} {R W : List Int → Loc → Prop}

/-- the iterations of the maps of a nest: the condition of each, with everything else as in `σ`, lets it run from 0 to below its number -/
def NestIters (E : Env) (σ : St) (hs : List CMap) (ns : List Nat) : Prop :=
  List.Forall₂ (fun m n => Iters E m.i m.cond m.upd σ 0 ((List.range n).map Int.ofNat) n) hs ns

/-- the headers depend on nothing that is private or written (`T`: the instances) -/
def NestHeaders (X : String → Prop) (hs : List CMap) (T : List (List Int)) (W : List Int → Loc → Prop) : Prop :=
  ∀ m ∈ hs, ∀ x ∈ m.cond.atoms, x ≠ m.i → ¬ X x ∧ ∀ v ∈ T, ¬ W v (x, [])

variable {T : List (List Int)}

theorem offX_setS {X : String → Prop} {i : String} (h : X i) (τ : St) (a : Int) : OffX X τ (τ.setS i a) :=
  fun _ hl => (at_setS fun e => hl (by rw [e]; exact h)).symm

/-- the sequential nest executes all instances below the extents -/
theorem nest_run (I : TupIndep (s.den E) is X σ T res R W) (hnd : is.Nodup) : ∀ (qs : List CMap) (ns : List Nat) (ps : List String) (pv : List Int),
    is = ps ++ qs.map (·.i) → NestHeaders X qs T W → NestIters E σ qs ns → (∀ m ∈ qs, m.init = .int 0 ∧ loopStride m.i m.upd = some 1) →
    ps.length = pv.length → (∀ w ∈ box (ns.map Int.ofNat), pv ++ w ∈ T) → ∀ (done : List (List Int)) (τ : St), TupMerged X σ done res W τ →
    (∀ w ∈ done, w ∈ T) → (∀ w ∈ box (ns.map Int.ofNat), pv ++ w ∉ done) → ps.map (fun i => τ i []) = pv →
    ∃ τ', (mapNest s qs).den E τ .normal τ' ∧ TupMerged X σ ((box (ns.map Int.ofNat)).map (pv ++ ·) ++ done) res W τ' ∧ ∀ i ∈ ps, τ' i [] = τ i [] := by
  intro qs
  induction qs with
  | nil =>
    intro ns ps pv his _ hI _ hlen hT done τ hm hd hnd' hix
    cases hI
    simp only [List.map_nil, List.append_nil, box, List.map_cons, List.mem_singleton, forall_eq] at his hT hnd' ⊢
    subst his
    obtain ⟨τ', a, b, c⟩ := I.inst hnd hT hlen hd hnd' hm hix
    exact ⟨τ', a, by simpa using b, c⟩
  | cons m r ih =>
    intro ns ps pv his hH hI hst hlen hT done τ hm hd hnd' hix
    cases hI with
    | @cons _ n _ ns hI hIr =>
    have hXi : X m.i := I.ivar _ (by rw [his]; simp)
    have hips : m.i ∉ ps := by
      rw [his] at hnd
      intro h
      exact (List.nodup_append.1 hnd).2.2 _ h _ (by simp) rfl
    obtain ⟨h0, hs1⟩ := hst m (List.mem_cons_self ..)
    let upto : Nat → List (List Int) := fun k => (List.range k).flatMap fun j => (box (ns.map Int.ofNat)).map fun w => pv ++ (Int.ofNat j :: w)
    have hbox : (box ((n :: ns).map Int.ofNat)).map (pv ++ ·) = upto n := by
      simp [box, upto, List.map_flatMap, Function.comp_def]
    have hmemb : ∀ j, j < n → ∀ w ∈ box (ns.map Int.ofNat), (Int.ofNat j :: w) ∈ box ((n :: ns).map Int.ofNat) := by
      intro j hj w hw
      simp only [List.map_cons, box, List.mem_flatMap, List.mem_range, List.mem_map]
      exact ⟨j, by simpa using hj, w, hw, rfl⟩
    let P : Nat → St → Prop := fun k τ => TupMerged X σ (upto k ++ done) res W τ ∧ ps.map (fun i => τ i []) = pv
    have huptoT : ∀ k, k ≤ n → ∀ v ∈ upto k ++ done, v ∈ T := by
      intro k hk v hv
      rcases List.mem_append.1 hv with hv | hv
      · simp only [upto, List.mem_flatMap, List.mem_range, List.mem_map] at hv
        obtain ⟨j, hj, w, hw, rfl⟩ := hv
        exact hT _ (hmemb j (by omega) w hw)
      · exact hd v hv
    have hsuc : ∀ k, upto (k + 1) = upto k ++ (box (ns.map Int.ofNat)).map fun w => pv ++ (Int.ofNat k :: w) := by
      intro k
      simp [upto, List.range_succ]
    obtain ⟨τ', h1, h2, h3⟩ := loop_steps (m := true) (a := m.init) (s := mapNest s r) (P := P) (τ := τ)
      (e := n) (vs := (List.range n).map Int.ofNat) (σ := σ) (i := m.i) (k := m.cond) (u := m.upd) (E := E)
      (by rw [h0, St.ev_int]; exact hI) (by rw [h0]; simp [Expr.atoms])
      (by
        intro k τ x hk hP hx hne
        rcases hx with hx | hx | hx
        · rw [h0] at hx; simp [Expr.atoms] at hx
        · obtain ⟨a, b⟩ := hH m (List.mem_cons_self ..) x hx hne
          exact (hP.1 (x, []) a).2 fun v hv => b v (huptoT k (by simpa using hk) v hv)
        · exact absurd ((stride_one (E := E) (τ := σ) hs1).2 x hx) hne)
      (by
        intro k τ a hP
        refine ⟨hP.1.off (offX_setS hXi τ a), ?_⟩
        rw [← hP.2]
        exact List.map_congr_left fun j hj => congrFun (St.setS_other _ _ (fun e : j = m.i => hips (e ▸ hj))) [])
      (by
        intro k hk τ hP hτ
        simp only [List.length_map, List.length_range] at hk
        simp only [List.getElem_map, List.getElem_range] at hτ
        obtain ⟨τ', a, b, c⟩ := ih ns (ps ++ [m.i]) (pv ++ [Int.ofNat k]) (by rw [his]; simp) (fun q hq => hH q (List.mem_cons_of_mem _ hq)) hIr
          (fun q hq => hst q (List.mem_cons_of_mem _ hq)) (by simp [hlen])
          (fun w hw => by rw [List.append_assoc]; exact hT _ (hmemb k hk w hw)) (upto k ++ done) τ hP.1 (huptoT k (by omega))
          (by
            intro w hw hmem
            rw [List.append_assoc] at hmem
            rcases List.mem_append.1 hmem with hmem | hmem
            · simp only [upto, List.mem_flatMap, List.mem_range, List.mem_map] at hmem
              obtain ⟨j, hj, w', _, e⟩ := hmem
              have := List.append_cancel_left e
              simp at this
              omega
            · exact hnd' _ (hmemb k hk w hw) hmem)
          (by
            rw [List.map_append, hP.2]
            congr 1
            simp only [St.at] at hτ
            simp [hτ])
        refine ⟨.normal, τ', Or.inl rfl, a, ⟨?_, ?_⟩, ?_⟩
        · refine b.congr fun v => ?_
          rw [hsuc]
          simp only [List.append_assoc, List.singleton_append, List.mem_append]
          constructor
          · rintro (h | h | h)
            · exact Or.inr (Or.inl h)
            · exact Or.inl h
            · exact Or.inr (Or.inr h)
          · rintro (h | h | h)
            · exact Or.inr (Or.inl h)
            · exact Or.inl h
            · exact Or.inr (Or.inr h)
        · rw [← hP.2]
          exact List.map_congr_left fun j hj => c j (List.mem_append_left _ hj)
        · simp only [List.getElem_map, List.getElem_range]
          rw [← hτ]
          exact c m.i (by simp))
      ⟨by simpa [upto] using hm, hix⟩
    refine ⟨τ', by rw [mapNest, Seq.one, one_child_den]; exact h1, ?_, ?_⟩
    · rw [hbox]; simpa using h2
    · intro i hi
      have := hix ▸ h3
      exact List.map_inj_left.1 this i hi

end

end Docc.IR
