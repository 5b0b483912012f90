import Verif.IR.Distribute
import Verif.IR.For2MapViol
import Verif.IR.WhileToForProps

/-
C22: LoopDistribute.
-/
namespace Docc.IR
open Docc.Sym

section
variable {O : DepOracle} {E : Env} {σ : St} {i : String} {vs : List Int} {rs ws : List Usr} {ts : List String}

/-- the locations of a list of users -/
def usrLocs (E : Env) (ρ : St) (us : List Usr) (l : Loc) : Prop := ∃ u ∈ us, u.locs E ρ l

/-! ### every access is accounted for by the analysis -/

theorem visitBlock_static (H : DepOk O E σ i vs rs ws ts) {v : Int} (hv : v ∈ vs) (pos : List Nat) : (l : List Stmt) → (k : Nat) →
    (∀ r ∈ blockRdUsrs pos k l, r ∈ rs) → (∀ w ∈ blockWrUsrs pos k l, w ∈ ws) → (R W : Loc → Prop) → (st : DepSt) →
    DInv E (σ.setS i v) rs ws st R W →
    ∃ R' W', DInv E (σ.setS i v) rs ws (visitBlock O pos k l st) R' W' ∧
      (∀ x, R x ∨ W x ∨ usrLocs E (σ.setS i v) (blockRdUsrs pos k l) x → R' x ∨ W' x) ∧
      (∀ x, W x ∨ usrLocs E (σ.setS i v) (blockWrUsrs pos k l) x → W' x)
  | [], k, _, _, R, W, st, I => ⟨R, W, I, fun x h => by simpa [blockRdUsrs, usrLocs] using h, fun x h => by simpa [blockWrUsrs, usrLocs] using h⟩
  | s :: l, k, hr, hw, R, W, st, I => by
    simp only [blockRdUsrs, blockWrUsrs, List.mem_append] at hr hw
    have hrs : ∀ r ∈ s.readUsrs (pos ++ [k]), r ∈ rs := fun r h => hr r (Or.inl h)
    have hws : ∀ w ∈ s.writeUsrs (pos ++ [k]), w ∈ ws := fun w h => hw w (Or.inl h)
    have I1 := reads_inv (readUsr O) readUsr_opn (fun st r x h => readUsr_undef st r x h) (fun st r x h => readUsr_undef' st r x h)
      (s.readUsrs (pos ++ [k])) (fun r h => ⟨readUsrs_art h, hrs r h⟩) st I
      (fun st r h I x hx => readUsr_covered H hv I (hrs r h) hx) (usrLocs E (σ.setS i v) (s.readUsrs (pos ++ [k]))) (fun x hx => hx)
    have I2 := writes_inv H hv false (s.writeUsrs (pos ++ [k])) (fun w h => ⟨hws w h, writeUsrs_art h⟩) _ _ I1
    obtain ⟨R', W', h1, h2, h3⟩ := visitBlock_static H hv pos l (k + 1) (fun r h => hr r (Or.inr h)) (fun w h => hw w (Or.inr h)) _ _ _ I2
    refine ⟨R', W', h1, fun x hx => ?_, fun x hx => ?_⟩
    · apply h2
      by_cases hW : W x
      · exact Or.inr (Or.inl (Or.inl hW))
      · rcases hx with h | h | ⟨r, hr, hx⟩
        · exact Or.inl (Or.inl h)
        · exact absurd h hW
        · simp only [blockRdUsrs, List.mem_append] at hr
          rcases hr with hr | hr
          · exact Or.inl (Or.inr ⟨⟨r, hr, hx⟩, hW⟩)
          · exact Or.inr (Or.inr ⟨r, hr, hx⟩)
    · apply h3
      rcases hx with h | ⟨w, hw, hx⟩
      · exact Or.inl (Or.inl h)
      · simp only [blockWrUsrs, List.mem_append] at hw
        rcases hw with hw | hw
        · exact Or.inl (Or.inr ⟨w, hw, hx⟩)
        · exact Or.inr ⟨w, hw, hx⟩

theorem visit_static (H : DepOk O E σ i vs rs ws ts) {v : Int} (hv : v ∈ vs) (pos : List Nat) : (s : Seq) → (k : Nat) → s.straight = true →
    (∀ r ∈ s.rdUsrs pos k, r ∈ rs) → (∀ w ∈ s.wrUsrs pos k, w ∈ ws) → (∀ x ∈ s.transSyms, x ∈ ts) → (R W : Loc → Prop) → (st : DepSt) →
    DInv E (σ.setS i v) rs ws st R W →
    ∃ R' W', DInv E (σ.setS i v) rs ws (s.visit O pos k st) R' W' ∧
      (∀ x, R x ∨ W x ∨ usrLocs E (σ.setS i v) (s.rdUsrs pos k) x → R' x ∨ W' x) ∧
      (∀ x, W x ∨ usrLocs E (σ.setS i v) (s.wrUsrs pos k) x → W' x)
  | .nil, k, _, _, _, _, R, W, st, I =>
    ⟨R, W, I, fun x h => by simpa [Seq.rdUsrs, usrLocs] using h, fun x h => by simpa [Seq.wrUsrs, usrLocs] using h⟩
  | .cons n t r, k, hs, hr, hw, ht, R, W, st, I => by
    match n, hs with
    | .block l, hs =>
      simp only [Seq.rdUsrs, Seq.wrUsrs, Seq.transSyms, List.mem_append] at hr hw ht
      obtain ⟨R1, W1, I1, a1, a2⟩ := visitBlock_static H hv (pos ++ [k]) l 0 (fun x h => hr x (Or.inl (Or.inl h)))
        (fun x h => hw x (Or.inl (Or.inl h))) R W st I
      have I2 := reads_inv readName readName_opn (fun st r x h => readName_undef st r x h) (fun st r x h => readName_undef' st r x h)
        (symUsrs (pos ++ [k]) (t.flatMap fun a => a.2.atoms)) (fun r h => ⟨symUsrs_art h, hr r (Or.inl (Or.inr h))⟩) _ I1
        (fun st r h I x hx => readName_covered H I (hr r (Or.inl (Or.inr h))) (by
          simp only [symUsrs, List.mem_map, List.mem_flatMap] at h
          obtain ⟨y, ⟨a, ha, hy⟩, rfl⟩ := h
          exact H.trans y (ht y (Or.inl (Or.inr (List.mem_flatMap.2 ⟨a, ha, hy⟩))))) hx)
        (usrLocs E (σ.setS i v) (symUsrs (pos ++ [k]) (t.flatMap fun a : String × Expr => a.2.atoms))) (fun x hx => hx)
      have I3 := writes_inv H hv true (t.map fun a => (⟨pos ++ [k], a.1, [], false, false⟩ : Usr)) (fun w h => by
        refine ⟨hw w (Or.inl (Or.inr h)), ?_⟩
        obtain ⟨a, ha, rfl⟩ := List.mem_map.1 h
        rfl) _ _ I2
      obtain ⟨R', W', h1, h2, h3⟩ := visit_static H hv pos r (k + 1) hs (fun x h => hr x (Or.inr h)) (fun x h => hw x (Or.inr h))
        (fun x h => ht x (Or.inr h)) _ _ _ I3
      refine ⟨R', W', by rw [Seq.visit, Node.visit]; exact h1, fun x hx => ?_, fun x hx => ?_⟩
      · apply h2
        by_cases hW : W1 x
        · exact Or.inr (Or.inl (Or.inl hW))
        · rcases hx with h | h | ⟨u, hu, hx⟩
          · exact Or.inl (Or.inl ((a1 x (Or.inl h)).resolve_right hW))
          · exact absurd (a2 x (Or.inl h)) hW
          · simp only [Seq.rdUsrs, List.mem_append] at hu
            rcases hu with (hu | hu) | hu
            · exact Or.inl (Or.inl ((a1 x (Or.inr (Or.inr ⟨u, hu, hx⟩))).resolve_right hW))
            · exact Or.inl (Or.inr ⟨⟨u, hu, hx⟩, hW⟩)
            · exact Or.inr (Or.inr ⟨u, hu, hx⟩)
      · apply h3
        rcases hx with h | ⟨u, hu, hx⟩
        · exact Or.inl (Or.inl (a2 x (Or.inl h)))
        · simp only [Seq.wrUsrs, List.mem_append] at hu
          rcases hu with (hu | hu) | hu
          · exact Or.inl (Or.inl (a2 x (Or.inr ⟨u, hu, hx⟩)))
          · exact Or.inl (Or.inr ⟨u, hu, hx⟩)
          · exact Or.inr ⟨u, hu, hx⟩

/-- **Completeness of the loop-carried dependencies** of straight-line code: if two different iterations touch the same location and one
of them writes it, the container is reported. -/
theorem loopDeps_complete_partial {pos : List Nat} {u : Expr} {s : Seq} (hs : s.straight = true)
    (H : DepOk O E σ i vs (s.rdUsrs pos 0) (s.wrUsrs pos 0) s.transSyms) {v w : Int} (hv : v ∈ vs) (hw : w ∈ vs) (hne : v ≠ w) {l : Loc}
    (h1 : usrLocs E (σ.setS i v) (s.wrUsrs pos 0) l)
    (h2 : usrLocs E (σ.setS i w) (s.rdUsrs pos 0) l ∨ usrLocs E (σ.setS i w) (s.wrUsrs pos 0) l) :
    ∃ d, (l.1, d) ∈ loopDeps O pos i u s := by
  have h0 : ∀ v, DInv E (σ.setS i v) (s.rdUsrs pos 0) (s.wrUsrs pos 0) {} (fun _ => False) (fun _ => False) := fun v =>
    ⟨fun _ h => h.elim, fun l => by simp, fun w hw => by simp at hw, fun r hr => by simp at hr⟩
  obtain ⟨Rv, Wv, Iv, _, hWv⟩ := visit_static H hv pos s 0 hs (fun _ h => h) (fun _ h => h) (fun _ h => h) _ _ _ (h0 v)
  obtain ⟨Rw, Ww, Iw, hRw, hWw⟩ := visit_static H hw pos s 0 hs (fun _ h => h) (fun _ h => h) (fun _ h => h) _ _ _ (h0 w)
  generalize hb : s.visit O pos 0 {} = b at Iv Iw
  have hopn : (loopBody O pos u s).opn = b.opn := by rw [loopBody, foldl_readUsr_opn, hb]
  have hund : ∀ x ∈ b.undef, x ∈ (loopBody O pos u s).undef := fun x hx => by
    rw [loopBody]; exact foldl_readUsr_undef O _ _ (by rw [hb]; exact hx)
  obtain ⟨p, hp, hpl⟩ := (Iv.wr l).1 (hWv l (Or.inr h1))
  have hpr := Iv.real p hp
  have key : (∃ r ∈ b.undef, r.locs E (σ.setS i w) l) ∨ ∃ q ∈ b.opn, q.locs E (σ.setS i w) l := by
    rcases h2 with h | h
    · rcases hRw l (Or.inr (Or.inr h)) with h | h
      · exact Or.inl (Iw.rd l h)
      · exact Or.inr ((Iw.wr l).1 h)
    · exact Or.inr ((Iw.wr l).1 (hWw l (Or.inr h)))
  have hdep : ∀ c, c ∈ s.rdUsrs pos 0 ∨ c ∈ s.wrUsrs pos 0 → c.art = false → c.locs E (σ.setS i w) l → loopDepends O i p c = true := by
    intro c hc ha hcl
    have he : p.cont = c.cont := hpl.1.symm.trans hcl.1
    by_contra hd
    simp only [loopDepends, he, decide_true, Bool.true_and, hpr.1, ha, Bool.not_false, Bool.or_eq_true, not_or, Bool.not_eq_true] at hd
    exact H.meets p hpr.2 c hc he hd.2 v hv w hw hne l hpl hcl
  rw [hpl.1]
  rw [← hopn] at hp
  by_cases hrw : p.cont ∈ (((loopBody O pos u s).undef.filter fun r => (loopBody O pos u s).opn.any fun w =>
      (if O.mono i u then loopDepends O i else depends O) w r).map (·.cont))
  · refine ⟨.readWrite, ?_⟩
    simp only [loopDeps, List.mem_append]
    exact Or.inl (List.mem_map.2 ⟨p.cont, hrw, rfl⟩)
  · refine ⟨.writeWrite, ?_⟩
    simp only [loopDeps, List.mem_append]
    refine Or.inr (List.mem_map.2 ⟨p.cont, List.mem_map.2 ⟨p, List.mem_filter.2 ⟨hp, ?_⟩, rfl⟩, rfl⟩)
    simp only [hrw, decide_false, Bool.not_false, Bool.true_and, Bool.or_eq_true, Bool.not_eq_true']
    by_cases hm : O.mono i u = true
    · right
      rcases key with ⟨r, hr, hrl⟩ | ⟨q, hq, hql⟩
      · refine absurd (List.mem_map.2 ⟨r, List.mem_filter.2 ⟨hund r hr, List.any_eq_true.2 ⟨p, hp, ?_⟩⟩, hrl.1.symm.trans hpl.1⟩) hrw
        rw [if_pos hm]
        exact hdep r (Or.inl (Iw.und r hr).2) (Iw.und r hr).1 hrl
      · exact List.any_eq_true.2 ⟨q, by rw [hopn]; exact hq, hdep q (Or.inr (Iw.real q hq).2) (Iw.real q hq).1 hql⟩
    · exact Or.inl (by simpa using hm)

end

/-! ### straight-line code as a function -/

/-- the effect of straight-line code -/
def Seq.fn (E : Env) : Seq → St → St
  | .nil, τ => τ
  | .cons (.block l) t r, τ => r.fn E (runTrans E t (runBlock E l τ))
  | .cons _ _ _, τ => τ

theorem Seq.fn_den (E : Env) : (s : Seq) → s.straight = true → s.den E = Rel.upd (s.fn E)
  | .nil, _ => by rw [Seq.den]; rfl
  | .cons n t r, hs => by
    match n, hs with
    | .block l, hs => rw [Seq.den, Node.den, r.fn_den E hs, Rel.upd_upd, Rel.upd_upd]; rfl

/-- symbols of the subsets -/
def subSyms (us : List Usr) : List String := us.flatMap fun u => Expr.atomsL u.sub

theorem mem_subSyms {us : List Usr} {u : Usr} (hu : u ∈ us) {e : Expr} (he : e ∈ u.sub) {x : String} (hx : x ∈ e.atoms) : x ∈ subSyms us :=
  List.mem_flatMap.2 ⟨u, hu, mem_atomsL.2 ⟨e, he, hx⟩⟩

theorem block_static_foot {E : Env} {ρ : St} {X : List String} (pos : List Nat) : (l : List Stmt) → (k : Nat) → (τ : St) →
    (∀ x ∈ subSyms (blockRdUsrs pos k l) ++ subSyms (blockWrUsrs pos k l), x ∈ X) → (∀ w ∈ blockWrUsrs pos k l, w.cont ∉ X) →
    (∀ x ∈ X, τ x [] = ρ x []) →
    (Rel.upd (runBlock E l)).Foot τ .normal (runBlock E l τ) (usrLocs E ρ (blockRdUsrs pos k l)) (usrLocs E ρ (blockWrUsrs pos k l))
  | [], k, τ, _, _, _ => (Rel.Foot.skip τ).congr (fun _ h => h.elim) (fun l => by simp [blockWrUsrs, usrLocs])
  | s :: l, k, τ, hX, hk, hτ => by
    simp only [blockRdUsrs, blockWrUsrs, subSyms, List.flatMap_append, List.mem_append] at hX hk
    have Fs := (s.foot E τ).congr (R' := usrLocs E ρ (s.readUsrs (pos ++ [k]))) (W' := usrLocs E ρ (s.writeUsrs (pos ++ [k])))
      (fun x hx => Stmt.rd_usrs (fun u hu e he x hx => hτ x (hX x (Or.inl (Or.inl (mem_subSyms hu he hx))))) hx)
      (fun x => Stmt.wr_usrs (fun u hu e he x hx => hτ x (hX x (Or.inr (Or.inl (mem_subSyms hu he hx))))) x)
    have hτ' : ∀ x ∈ X, (s.run E τ) x [] = ρ x [] := fun x hx => by
      have : (s.run E τ).at (x, []) = τ.at (x, []) := Fs.2.1 (x, []) (by
        rintro ⟨w, hw, hl⟩
        exact hk w (Or.inl hw) (hl.1 ▸ hx))
      exact this.trans (hτ x hx)
    have ih := block_static_foot (E := E) (ρ := ρ) (X := X) pos l (k + 1) (s.run E τ) (fun x hx => hX x (by
      simp only [subSyms, List.mem_append] at hx; rcases hx with h | h <;> simp only [h, or_true, true_or]))
      (fun w hw => hk w (Or.inr hw)) hτ'
    rw [runBlock_cons]
    refine (Fs.seq ih).congr (fun x hx => ?_) (fun x => ?_)
    · rcases hx with ⟨u, hu, h⟩ | ⟨⟨u, hu, h⟩, _⟩
      · exact ⟨u, by simp only [blockRdUsrs, List.mem_append]; exact Or.inl hu, h⟩
      · exact ⟨u, by simp only [blockRdUsrs, List.mem_append]; exact Or.inr hu, h⟩
    · simp only [blockWrUsrs, usrLocs, List.mem_append, or_and_right, exists_or]

theorem Seq.static_foot {E : Env} {ρ : St} {X : List String} (pos : List Nat) : (s : Seq) → s.straight = true → (k : Nat) → (τ : St) →
    (∀ x ∈ subSyms (s.rdUsrs pos k) ++ subSyms (s.wrUsrs pos k), x ∈ X) → (∀ w ∈ s.wrUsrs pos k, w.cont ∉ X) →
    (∀ x ∈ X, τ x [] = ρ x []) →
    (Rel.upd (s.fn E)).Foot τ .normal (s.fn E τ) (usrLocs E ρ (s.rdUsrs pos k)) (usrLocs E ρ (s.wrUsrs pos k))
  | .nil, _, k, τ, _, _, _ => (Rel.Foot.skip τ).congr (fun _ h => h.elim) (fun l => by simp [Seq.wrUsrs, usrLocs])
  | .cons n t r, hs, k, τ, hX, hk, hτ => by
    match n, hs with
    | .block l, hs =>
      simp only [Seq.rdUsrs, Seq.wrUsrs, subSyms, List.flatMap_append, List.mem_append] at hX hk
      have F1 := block_static_foot (E := E) (ρ := ρ) (X := X) (pos ++ [k]) l 0 τ (fun x hx => hX x (by
        simp only [subSyms, List.mem_append] at hx; rcases hx with h | h <;> simp only [h, or_true, true_or]))
        (fun w hw => hk w (Or.inl (Or.inl hw))) hτ
      have F2 := (trans_foot E t (runBlock E l τ)).congr (R' := usrLocs E ρ (symUsrs (pos ++ [k]) (t.flatMap fun a : String × Expr => a.2.atoms)))
        (W' := usrLocs E ρ (t.map fun a => (⟨pos ++ [k], a.1, [], false, false⟩ : Usr))) (fun x hx => symUsr_locs.2 hx) (fun x => by
          have := symUsr_locs (E := E) (ρ := ρ) (pos := pos ++ [k]) (L := t.map (·.1)) (l := x)
          rw [← this]
          simp [symUsrs, usrLocs])
      have F12 := F1.seq F2
      have hτ' : ∀ x ∈ X, (runTrans E t (runBlock E l τ)) x [] = ρ x [] := fun x hx => by
        have : (runTrans E t (runBlock E l τ)).at (x, []) = τ.at (x, []) := F12.2.1 (x, []) (by
          rintro (⟨w, hw, hl⟩ | ⟨w, hw, hl⟩)
          · exact hk w (Or.inl (Or.inl hw)) (hl.1 ▸ hx)
          · exact hk w (Or.inl (Or.inr hw)) (hl.1 ▸ hx))
        exact this.trans (hτ x hx)
      have ih := r.static_foot (E := E) (ρ := ρ) (X := X) pos hs (k + 1) (runTrans E t (runBlock E l τ)) (fun x hx => hX x (by
        simp only [subSyms, List.mem_append] at hx; rcases hx with h | h <;> simp only [h, or_true, true_or]))
        (fun w hw => hk w (Or.inr hw)) hτ'
      have e : Rel.upd ((Seq.cons (.block l) t r).fn E) = Rel.seq (Rel.seq (Rel.upd (runBlock E l)) (Rel.upd (runTrans E t))) (Rel.upd (r.fn E)) := by
        rw [Rel.upd_upd, Rel.upd_upd]; rfl
      rw [e]
      refine (F12.seq ih).congr (fun x hx => ?_) (fun x => ?_)
      · simp only [Seq.rdUsrs, usrLocs, List.mem_append, or_and_right, exists_or]
        rcases hx with (h | ⟨h, _⟩) | ⟨h, _⟩
        · exact Or.inl (Or.inl h)
        · exact Or.inl (Or.inr h)
        · exact Or.inr h
      · simp only [Seq.wrUsrs, usrLocs, List.mem_append, or_and_right, exists_or]

/-! ### loops over straight-line code -/

theorem loop_fold {E : Env} {i : String} {k : Cond} {u : Expr} {σ : St} {f : St → St} {P : St → Prop}
    (hP : ∀ τ v, P τ → P (f (τ.setS i v))) (hkeep : ∀ τ v, P τ → (f (τ.setS i v)) i [] = v)
    (hhdr : ∀ τ, P τ → ∀ x, x ∈ k.atoms ∨ x ∈ u.atoms → x ≠ i → τ x [] = σ x []) {v e : Int} {vs : List Int} (hI : Iters E i k u σ v vs e) :
    ∀ τ, P τ → Rel.iter (fun σ => σ.cond E k) (fun σ => σ.setS i (σ.ev E u)) (Rel.upd f) (τ.setS i v) .normal
      ((vs.foldl (fun τ v => f (τ.setS i v)) τ).setS i e) := by
  have hsame : ∀ (τ ρ : St) (v : Int), P τ → ρ i [] = v → (∀ x, x ≠ i → ρ x [] = τ x []) → ∀ x, x ∈ k.atoms ∨ x ∈ u.atoms → ρ x [] = (σ.setS i v) x [] := by
    intro τ ρ v hτ h1 h2 x hx
    by_cases e : x = i
    · rw [e, h1, St.setS_same]
    · rw [h2 x e, hhdr τ hτ x hx e, St.setS_other _ _ e]
  induction hI with
  | @done v hc =>
    intro τ hτ
    refine .done ?_
    rw [← hc]
    exact St.cond_congr E fun x hx => hsame τ _ v hτ (St.setS_same ..) (fun x hx => by rw [St.setS_other _ _ hx]) x (Or.inl hx)
  | @step v vs e hc _ ih =>
    intro τ hτ
    have hc' : (τ.setS i v).cond E k = true := by
      rw [← hc]
      exact St.cond_congr E fun x hx => hsame τ _ v hτ (St.setS_same ..) (fun x hx => by rw [St.setS_other _ _ hx]) x (Or.inl hx)
    have h1 := hP τ v hτ
    have hu : (f (τ.setS i v)).ev E u = (σ.setS i v).ev E u :=
      St.ev_congr E fun x hx => hsame (f (τ.setS i v)) _ v h1 (hkeep τ v hτ) (fun _ _ => rfl) x (Or.inr hx)
    refine .step .normal hc' ⟨rfl, rfl⟩ (Or.inl rfl) ?_
    show Rel.iter _ _ _ ((f (τ.setS i v)).setS i ((f (τ.setS i v)).ev E u)) _ _
    rw [hu, List.foldl_cons]
    exact ih _ h1

/-- the states have the same content except in `i` and `i'` -/
abbrev Off2 (i i' : String) : St → St → Prop := OffX (fun x => x = i ∨ x = i')

/-- What the commutation of two parts of a loop body needs: both have footprints in every state with the right symbols, they read nothing
of `i'` and only the value of `i`, they do not write `i`, and in different iterations neither writes what the other touches. -/
structure Apart (i i' : String) (P : St → Prop) (vs : List Int) (C D : St → St) (Rc Wc Rd Wd : Int → Loc → Prop) : Prop where
  set : ∀ τ v, P τ → P (C (τ.setS i v)) ∧ P (D (τ.setS i v))
  footC : ∀ v τ, P τ → (Rel.upd C).Foot (τ.setS i v) .normal (C (τ.setS i v)) (Rc v) (Wc v)
  footD : ∀ v τ, P τ → (Rel.upd D).Foot (τ.setS i v) .normal (D (τ.setS i v)) (Rd v) (Wd v)
  reads : ∀ v l, Rc v l ∨ Rd v l → l.1 ≠ i' ∧ (l.1 = i → l = (i, []))
  writes : ∀ v l, Wc v l ∨ Wd v l → l.1 ≠ i
  apart : ∀ v ∈ vs, ∀ w ∈ vs, v ≠ w → ∀ l, (Wd v l → ¬ Rc w l) ∧ (Wc v l → ¬ Rd w l) ∧ (Wc v l → ¬ Wd w l)

section
variable {i i' : String} {P : St → Prop} {vs : List Int} {C D : St → St} {Rc Wc Rd Wd : Int → Loc → Prop}

theorem foot_congr {f : St → St} {R W : Loc → Prop} {v : Int} {τ τ2 : St} (h : Off2 i i' τ τ2)
    (F : (Rel.upd f).Foot (τ.setS i v) .normal (f (τ.setS i v)) R W) (hr : ∀ l, R l → l.1 ≠ i' ∧ (l.1 = i → l = (i, []))) :
    Off2 i i' (f (τ.setS i v)) (f (τ2.setS i v)) := by
  obtain ⟨τ', h1, h2, h3⟩ := F.2.2 (τ2.setS i v) fun l hl => by
    by_cases e : l = (i, [])
    · rw [e, at_setS_same, at_setS_same]
    · rw [at_setS e, at_setS e]
      obtain ⟨a, b⟩ := hr l hl
      exact (h l fun hx => hx.elim (fun hx => e (b hx)) a).symm
  obtain rfl : τ' = f (τ2.setS i v) := h1.2
  intro l hl
  by_cases hW : W l
  · exact (h2 l hW).symm
  · have e : l ≠ (i, []) := fun e => hl (Or.inl (by rw [e]))
    rw [h3 l hW, F.2.1 l hW, at_setS e, at_setS e]
    exact h l hl

theorem Apart.comm (A : Apart i i' P vs C D Rc Wc Rd Wd) {v w : Int} (hv : v ∈ vs) (hw : w ∈ vs) (hne : v ≠ w) {τ : St} (hτ : P τ) :
    Off2 i i' (C ((D (τ.setS i v)).setS i w)) (D ((C (τ.setS i w)).setS i v)) := by
  have FC := A.footC w τ hτ
  have FD := A.footD v τ hτ
  obtain ⟨τ1, h1, h2, h3⟩ := FC.2.2 ((D (τ.setS i v)).setS i w) fun l hl => by
    by_cases e : l = (i, [])
    · rw [e, at_setS_same, at_setS_same]
    · rw [at_setS e, at_setS e, FD.2.1 l (fun h => (A.apart v hv w hw hne l).1 h hl), at_setS e]
  obtain rfl : τ1 = C ((D (τ.setS i v)).setS i w) := h1.2
  obtain ⟨τ2, g1, g2, g3⟩ := FD.2.2 ((C (τ.setS i w)).setS i v) fun l hl => by
    by_cases e : l = (i, [])
    · rw [e, at_setS_same, at_setS_same]
    · rw [at_setS e, at_setS e, FC.2.1 l (fun h => (A.apart w hw v hv hne.symm l).2.1 h hl), at_setS e]
  obtain rfl : τ2 = D ((C (τ.setS i w)).setS i v) := g1.2
  intro l hl
  have e : l ≠ (i, []) := fun e => hl (Or.inl (by rw [e]))
  by_cases hC : Wc w l
  · have hD : ¬ Wd v l := (A.apart w hw v hv hne.symm l).2.2 hC
    rw [h2 l hC, g3 l hD, at_setS e]
  · rw [h3 l hC, at_setS e]
    by_cases hD : Wd v l
    · rw [g2 l hD]
    · rw [g3 l hD, at_setS e, FC.2.1 l hC, FD.2.1 l hD, at_setS e, at_setS e]

theorem fold_P {f : St → St} (h : ∀ τ v, P τ → P (f (τ.setS i v))) : (ws : List Int) → (τ : St) → P τ → P (ws.foldl (fun τ v => f (τ.setS i v)) τ)
  | [], _, hτ => hτ
  | w :: ws, τ, hτ => fold_P h ws _ (h τ w hτ)

theorem fold_congr {f : St → St} {R W : Int → Loc → Prop} (hP : ∀ τ v, P τ → P (f (τ.setS i v)))
    (F : ∀ v τ, P τ → (Rel.upd f).Foot (τ.setS i v) .normal (f (τ.setS i v)) (R v) (W v))
    (hr : ∀ v l, R v l → l.1 ≠ i' ∧ (l.1 = i → l = (i, []))) : (ws : List Int) → (τ τ2 : St) → P τ → P τ2 → Off2 i i' τ τ2 →
    Off2 i i' (ws.foldl (fun τ v => f (τ.setS i v)) τ) (ws.foldl (fun τ v => f (τ.setS i v)) τ2)
  | [], _, _, _, _, h => h
  | w :: ws, τ, τ2, h1, h2, h => fold_congr hP F hr ws _ _ (hP τ w h1) (hP τ2 w h2) (foot_congr h (F w τ h1) (hr w))

theorem Apart.comm_fold (A : Apart i i' P vs C D Rc Wc Rd Wd) {v : Int} (hv : v ∈ vs) : (ws : List Int) → (∀ w ∈ ws, w ∈ vs) → v ∉ ws →
    (τ : St) → P τ → Off2 i i' (ws.foldl (fun τ v => C (τ.setS i v)) (D (τ.setS i v))) (D ((ws.foldl (fun τ v => C (τ.setS i v)) τ).setS i v))
  | [], _, _, _, _ => fun _ _ => rfl
  | w :: ws, hs, hn, τ, hτ => by
    rw [List.foldl_cons, List.foldl_cons]
    have h1 := A.comm hv (hs w (List.mem_cons_self ..)) (fun e => hn (e ▸ List.mem_cons_self ..)) hτ
    have h2 := fold_congr (fun τ v h => (A.set τ v h).1) A.footC (fun v l h => A.reads v l (Or.inl h)) ws _ _
      (A.set _ w (A.set τ v hτ).2).1 (A.set _ v (A.set τ w hτ).1).2 h1
    have h3 := A.comm_fold hv ws (fun x hx => hs x (List.mem_cons_of_mem _ hx)) (fun h => hn (List.mem_cons_of_mem _ h)) _ (A.set τ w hτ).1
    exact fun l hl => (h2 l hl).trans (h3 l hl)

/-- running `C` and `D` alternately is running all of `C` and then all of `D` -/
theorem Apart.split (A : Apart i i' P vs C D Rc Wc Rd Wd) : (ws : List Int) → (∀ w ∈ ws, w ∈ vs) → ws.Nodup → (τ : St) → P τ →
    Off2 i i' (ws.foldl (fun τ v => D (C (τ.setS i v))) τ)
      (ws.foldl (fun τ v => D (τ.setS i v)) (ws.foldl (fun τ v => C (τ.setS i v)) τ))
  | [], _, _, _, _ => fun _ _ => rfl
  | w :: ws, hs, hn, τ, hτ => by
    rw [List.foldl_cons, List.foldl_cons, List.foldl_cons]
    obtain ⟨hn1, hn2⟩ := List.nodup_cons.1 hn
    have hC := A.set τ w hτ
    have hset : (C (τ.setS i w)).setS i w = C (τ.setS i w) := by
      refine Tile.setS_eta _ i _ ?_
      have : (C (τ.setS i w)).at (i, []) = (τ.setS i w).at (i, []) := (A.footC w τ hτ).2.1 _ fun h => A.writes w _ (Or.inl h) rfl
      rw [at_setS_same] at this
      exact this
    have hD := A.set _ w hC.1
    rw [hset] at hD
    have ih := A.split ws (fun x hx => hs x (List.mem_cons_of_mem _ hx)) hn2 _ hD.2
    have hc := A.comm_fold (hs w (List.mem_cons_self ..)) ws (fun x hx => hs x (List.mem_cons_of_mem _ hx)) hn1 _ hC.1
    rw [hset] at hc
    have h2 := fold_congr (fun τ v h => (A.set τ v h).2) A.footD (fun v l h => A.reads v l (Or.inr h)) ws _ _
      (fold_P (fun τ v h => (A.set τ v h).1) ws _ hD.2) (A.set _ w (fold_P (fun τ v h => (A.set τ v h).1) ws _ hC.1)).2 hc
    exact fun l hl => (ih l hl).trans (h2 l hl)
end

theorem Stmt.usrs_users {pos : List Nat} (s : Stmt) : (∀ u ∈ s.readUsrs pos, (Use.read, u.cont) ∈ s.users) ∧
    ∀ u ∈ s.writeUsrs pos, (Use.write, u.cont) ∈ s.users := by
  cases s with
  | tasklet op ins out sub =>
    constructor
    · intro u hu
      simp only [Stmt.readUsrs, symUsrs, List.mem_append, List.mem_flatMap, List.mem_cons, List.mem_map] at hu
      simp only [Stmt.users, readsOf, List.mem_append, List.mem_map, List.mem_flatMap, Prod.mk.injEq, true_and, exists_eq_right]
      rcases hu with ⟨r, hr, rfl | ⟨x, hx, rfl⟩⟩ | ⟨x, hx, rfl⟩
      · exact Or.inl (Or.inl (Or.inl ⟨r, hr, rfl⟩))
      · exact Or.inl (Or.inl (Or.inr ⟨r, hr, hx⟩))
      · exact Or.inl (Or.inr hx)
    · intro u hu
      simp only [Stmt.writeUsrs, List.mem_singleton] at hu
      subst hu
      simp [Stmt.users]
  | lib op reads writes =>
    constructor
    · intro u hu
      simp only [Stmt.readUsrs, List.mem_map] at hu
      obtain ⟨x, hx, rfl⟩ := hu
      simp [Stmt.users, readsOf, hx]
    · intro u hu
      simp only [Stmt.writeUsrs, List.mem_map] at hu
      obtain ⟨x, hx, rfl⟩ := hu
      simp [Stmt.users, readsOf, hx]

theorem block_usrs_users {pos : List Nat} : (l : List Stmt) → (k : Nat) → (∀ u ∈ blockRdUsrs pos k l, (Use.read, u.cont) ∈ l.flatMap Stmt.users) ∧
    ∀ u ∈ blockWrUsrs pos k l, (Use.write, u.cont) ∈ l.flatMap Stmt.users
  | [], k => by simp [blockRdUsrs, blockWrUsrs]
  | s :: l, k => by
    obtain ⟨h1, h2⟩ := s.usrs_users (pos := pos ++ [k])
    obtain ⟨h3, h4⟩ := block_usrs_users (pos := pos) l (k + 1)
    simp only [blockRdUsrs, blockWrUsrs, List.mem_append, List.flatMap_cons]
    exact ⟨fun u hu => hu.imp (h1 u) (h3 u), fun u hu => hu.imp (h2 u) (h4 u)⟩

/-- the users of straight-line code are users -/
theorem Seq.usrs_users {pos : List Nat} : (s : Seq) → s.straight = true → (k : Nat) → (∀ u ∈ s.rdUsrs pos k, (Use.read, u.cont) ∈ s.users) ∧
    ∀ u ∈ s.wrUsrs pos k, (Use.write, u.cont) ∈ s.users
  | .nil, _, k => by simp [Seq.rdUsrs, Seq.wrUsrs]
  | .cons n t r, hs, k => by
    match n, hs with
    | .block l, hs =>
      obtain ⟨h1, h2⟩ := block_usrs_users (pos := pos ++ [k]) l 0
      obtain ⟨h3, h4⟩ := Seq.usrs_users (pos := pos) r hs (k + 1)
      simp only [Seq.rdUsrs, Seq.wrUsrs, Seq.users, Node.isRet, Node.users, List.mem_append, Bool.false_eq_true, if_false]
      refine ⟨fun u hu => ?_, fun u hu => ?_⟩
      · rcases hu with (hu | hu) | hu
        · exact Or.inl (Or.inl (h1 u hu))
        · refine Or.inl (Or.inr ?_)
          obtain ⟨x, hx, rfl⟩ := List.mem_map.1 hu
          exact List.mem_append.2 (Or.inl (List.mem_map.2 ⟨x, hx, rfl⟩))
        · exact Or.inr (h3 u hu)
      · rcases hu with (hu | hu) | hu
        · exact Or.inl (Or.inl (h2 u hu))
        · refine Or.inl (Or.inr ?_)
          obtain ⟨x, hx, rfl⟩ := List.mem_map.1 hu
          exact List.mem_append.2 (Or.inr (List.mem_map.2 ⟨x, hx, rfl⟩))
        · exact Or.inr (h4 u hu)

theorem Stmt.sub_read {pos : List Nat} (s : Stmt) {u : Usr} (hu : u ∈ s.readUsrs pos ∨ u ∈ s.writeUsrs pos) {x : String} (hx : x ∈ Expr.atomsL u.sub) :
    ∃ r ∈ s.readUsrs pos, r.cont = x := by
  cases s with
  | tasklet op ins out sub =>
    simp only [Stmt.readUsrs, Stmt.writeUsrs, symUsrs, List.mem_append, List.mem_flatMap, List.mem_cons, List.mem_map, List.not_mem_nil, or_false] at hu ⊢
    rcases hu with (⟨r, hr, rfl | ⟨y, hy, rfl⟩⟩ | ⟨y, hy, rfl⟩) | rfl
    · exact ⟨_, Or.inl ⟨r, hr, Or.inr ⟨x, hx, rfl⟩⟩, rfl⟩
    · simp [Expr.atomsL] at hx
    · simp [Expr.atomsL] at hx
    · exact ⟨_, Or.inr ⟨x, hx, rfl⟩, rfl⟩
  | lib op reads writes =>
    simp only [Stmt.readUsrs, Stmt.writeUsrs, List.mem_map] at hu
    rcases hu with ⟨y, _, rfl⟩ | ⟨y, _, rfl⟩ <;> simp [Expr.atomsL] at hx

theorem block_sub_read {pos : List Nat} : (l : List Stmt) → (k : Nat) → {u : Usr} → u ∈ blockRdUsrs pos k l ∨ u ∈ blockWrUsrs pos k l → {x : String} →
    x ∈ Expr.atomsL u.sub → ∃ r ∈ blockRdUsrs pos k l, r.cont = x
  | [], k, u, hu, x, hx => by simp [blockRdUsrs, blockWrUsrs] at hu
  | s :: l, k, u, hu, x, hx => by
    simp only [blockRdUsrs, blockWrUsrs, List.mem_append] at hu ⊢
    by_cases h : u ∈ s.readUsrs (pos ++ [k]) ∨ u ∈ s.writeUsrs (pos ++ [k])
    · obtain ⟨r, h1, h2⟩ := s.sub_read h hx
      exact ⟨r, Or.inl h1, h2⟩
    · obtain ⟨r, h1, h2⟩ := block_sub_read (pos := pos) l (k + 1) (u := u) (by grind) hx
      exact ⟨r, Or.inr h1, h2⟩

/-- the symbols of subsets are read -/
theorem Seq.sub_read {pos : List Nat} : (s : Seq) → s.straight = true → (k : Nat) → {u : Usr} → u ∈ s.rdUsrs pos k ∨ u ∈ s.wrUsrs pos k → {x : String} →
    x ∈ Expr.atomsL u.sub → ∃ r ∈ s.rdUsrs pos k, r.cont = x
  | .nil, _, k, u, hu, x, hx => by simp [Seq.rdUsrs, Seq.wrUsrs] at hu
  | .cons n t r, hs, k, u, hu, x, hx => by
    match n, hs with
    | .block l, hs =>
      simp only [Seq.rdUsrs, Seq.wrUsrs, List.mem_append] at hu ⊢
      by_cases h : u ∈ blockRdUsrs (pos ++ [k]) 0 l ∨ u ∈ blockWrUsrs (pos ++ [k]) 0 l
      · obtain ⟨y, h1, h2⟩ := block_sub_read l 0 h hx
        exact ⟨y, Or.inl (Or.inl h1), h2⟩
      · by_cases h' : u ∈ r.rdUsrs pos (k + 1) ∨ u ∈ r.wrUsrs pos (k + 1)
        · obtain ⟨y, h1, h2⟩ := r.sub_read hs (k + 1) h' hx
          exact ⟨y, Or.inr h1, h2⟩
        · have : u.sub = [] := by
            simp only [symUsrs, List.mem_map] at hu
            grind
          rw [this] at hx
          simp [Expr.atomsL] at hx

/-- **C22** (partial): if LoopDistribute accepts a loop with a straight-line body, its oracles are right about the body (`DepOk`), the body
does not write what the loop header reads, the initial value does not use the loop variable, and the new loop variable is fresh, then the
loop and the distributed loops terminate and leave the same memory except in the new variable.  Missing: bodies with nested control flow;
`DepOk.covers` and `DepOk.subset`, the header and the initial value, which `can_be_applied` does not check (see the `_violated`
theorems). -/
theorem distribute_partial {O : DepOracle} {C : MapCtx} {E : Env} {pos : List Nat} {m : Bool} {i i' : String} {a : Expr} {k : Cond} {u : Expr}
    {n : Node} {t : Trans} {r : Seq} {σ : St} {vs : List Int} {e : Int} (hc : canDistribute O C pos i u (.cons n t r) = true)
    (hs : (Seq.cons n t r).straight = true) (hI : Iters E i k u σ (σ.ev E a) vs e)
    (H : DepOk O E σ i vs ((Seq.cons n t r).rdUsrs pos 0) ((Seq.cons n t r).wrUsrs pos 0) (Seq.cons n t r).transSyms)
    (hhdr : ∀ x, x = i ∨ x ∈ a.atoms ∨ x ∈ k.atoms ∨ x ∈ u.atoms → ∀ w ∈ (Seq.cons n t r).wrUsrs pos 0, w.cont ≠ x)
    (hia : i ∉ a.atoms) (hsi : O.scalar i = true) (hfresh : i' ∉ (Node.loop m i a k u (.cons n t r)).names) :
    ∃ σ' τ', (Seq.one (.loop m i a k u (.cons n t r))).den E σ .normal σ' ∧ (distribute m i i' a k u (.cons n t r)).den E σ .normal τ' ∧
      OffX (fun x => x = i ∨ x = i') σ' τ' ∧ σ' i [] = τ' i [] := by
  have hlocal : t = [] ∧ ∀ d ∈ loopDeps O pos i u (.cons n t r), d.1 ∈ n.users.map (·.2) → d.1 ∉ r.users.map (·.2) := by
    unfold canDistribute at hc
    split at hc
    · rename_i heq
      simp only [Seq.cons.injEq] at heq
      obtain ⟨rfl, rfl, rfl⟩ := heq
      refine ⟨rfl, fun d hd hn => ?_⟩
      have := List.all_eq_true.1 hc d hd
      simp only [hn, decide_true, Bool.not_true, Bool.false_or, childLocal, Bool.and_eq_true, Bool.not_eq_true', decide_eq_false_iff_not] at this
      exact this.2.2
    · cases hc
  obtain ⟨rfl, hlocal⟩ := hlocal
  obtain ⟨l, rfl⟩ : ∃ l, n = .block l := by
    match n, hs with
    | .block l, _ => exact ⟨l, rfl⟩
  · replace hs : r.straight = true := hs
    let ch : Seq := .cons (.block l) [] .nil
    have hchr : ∀ x, x ∈ ch.rdUsrs pos 0 → x ∈ (Seq.cons (.block l) [] r).rdUsrs pos 0 := fun x hx => by
      simp only [ch, Seq.rdUsrs, List.mem_append, List.flatMap_nil, symUsrs, List.map_nil, List.not_mem_nil, or_false] at hx ⊢
      exact Or.inl hx
    have hchw : ∀ x, x ∈ ch.wrUsrs pos 0 → x ∈ (Seq.cons (.block l) [] r).wrUsrs pos 0 := fun x hx => by
      simp only [ch, Seq.wrUsrs, List.mem_append, List.map_nil, List.not_mem_nil, or_false] at hx ⊢
      exact Or.inl hx
    have hrr : ∀ x, x ∈ r.rdUsrs pos 1 → x ∈ (Seq.cons (.block l) [] r).rdUsrs pos 0 := fun x hx => by
      simp only [Seq.rdUsrs, List.mem_append]; exact Or.inr hx
    have hrw : ∀ x, x ∈ r.wrUsrs pos 1 → x ∈ (Seq.cons (.block l) [] r).wrUsrs pos 0 := fun x hx => by
      simp only [Seq.wrUsrs, List.mem_append]; exact Or.inr hx
    obtain ⟨uc1, uc2⟩ := Seq.usrs_users (pos := pos) ch rfl 0
    obtain ⟨ur1, ur2⟩ := Seq.usrs_users (pos := pos) r hs 1
    have hchu : ch.users = (Node.block l).users := by simp [ch, Seq.users, Node.isRet, transUsers, readsOf]
    rw [hchu] at uc1 uc2
    have hwholeN : ∀ x, (x ∈ (Node.block l).names ∨ x ∈ r.names) → x ≠ i' := by
      rintro x h rfl
      apply hfresh
      simp only [Node.names, Seq.names, List.mem_cons, List.mem_append] at h ⊢
      grind
    have hsubN : ∀ y, y ∈ (Seq.cons (.block l) [] r).rdUsrs pos 0 ∨ y ∈ (Seq.cons (.block l) [] r).wrUsrs pos 0 → ∀ x ∈ Expr.atomsL y.sub, x ≠ i' := by
      intro y hy x hx
      obtain ⟨z, hz, rfl⟩ := Seq.sub_read (.cons (.block l) [] r) hs 0 hy hx
      have h1 := (Seq.usrs_users (.cons (.block l) [] r) hs 0).1 z hz
      have h2 := Seq.users_names _ _ (Or.inl h1)
      refine hwholeN _ ?_
      simp only [Seq.names, List.mem_append, List.map_nil, List.flatMap_nil, List.not_mem_nil, or_false] at h2
      exact h2
    -- conflicts between the parts in different iterations are excluded
    have hconf : ∀ v ∈ vs, ∀ w ∈ vs, v ≠ w → ∀ x, usrLocs E (σ.setS i v) ((Seq.cons (.block l) [] r).wrUsrs pos 0) x →
        (usrLocs E (σ.setS i w) ((Seq.cons (.block l) [] r).rdUsrs pos 0) x ∨ usrLocs E (σ.setS i w) ((Seq.cons (.block l) [] r).wrUsrs pos 0) x) →
        x.1 ∈ (Node.block l).users.map (·.2) → x.1 ∈ r.users.map (·.2) → False := by
      intro v hv w hw hne x h1 h2 h3 h4
      obtain ⟨d, hd⟩ := loopDeps_complete_partial (u := u) (pos := pos) (s := .cons (.block l) [] r) hs H hv hw hne h1 h2
      exact hlocal _ hd h3 h4
    let X : List String := subSyms ((Seq.cons (.block l) [] r).rdUsrs pos 0) ++ subSyms ((Seq.cons (.block l) [] r).wrUsrs pos 0) ++
      (a.atoms ++ k.atoms ++ u.atoms) ++ [i]
    have hXw : ∀ w ∈ (Seq.cons (.block l) [] r).wrUsrs pos 0, w.cont ∉ X := by
      intro w hw hx
      simp only [X, List.mem_append, List.mem_singleton] at hx
      have hsub : ∀ us : List Usr, (∀ u ∈ us, u ∈ (Seq.cons (.block l) [] r).rdUsrs pos 0 ∨ u ∈ (Seq.cons (.block l) [] r).wrUsrs pos 0) →
          w.cont ∈ subSyms us → False := by
        intro us h1 h2
        obtain ⟨y, hy, hx⟩ := List.mem_flatMap.1 h2
        obtain ⟨e, he, hx⟩ := mem_atomsL.1 hx
        exact H.fixed y (h1 y hy) e he _ hx w hw rfl
      rcases hx with ((h | h) | h) | h
      · exact hsub _ (fun u hu => Or.inl hu) h
      · exact hsub _ (fun u hu => Or.inr hu) h
      · exact hhdr w.cont (by rcases h with (h | h) | h <;> simp only [h, or_true, true_or]) w hw rfl
      · exact hhdr w.cont (Or.inl h) w hw rfl
    have hXsub : ∀ us : List Usr, (∀ u ∈ us, u ∈ (Seq.cons (.block l) [] r).rdUsrs pos 0 ∨ u ∈ (Seq.cons (.block l) [] r).wrUsrs pos 0) →
        ∀ x ∈ subSyms us, x ∈ X := by
      intro us h1 x h2
      obtain ⟨y, hy, hx⟩ := List.mem_flatMap.1 h2
      simp only [X, List.mem_append]
      rcases h1 y hy with h | h
      · exact Or.inl (Or.inl (Or.inl (List.mem_flatMap.2 ⟨y, h, hx⟩)))
      · exact Or.inl (Or.inl (Or.inr (List.mem_flatMap.2 ⟨y, h, hx⟩)))
    let P : St → Prop := fun τ => ∀ x ∈ X, x ≠ i → τ x [] = σ x []
    have hPset : ∀ τ v, P τ → ∀ x ∈ X, (τ.setS i v) x [] = (σ.setS i v) x [] := by
      intro τ v hτ x hx
      by_cases e : x = i
      · rw [e, St.setS_same, St.setS_same]
      · rw [St.setS_other _ _ e, St.setS_other _ _ e]; exact hτ x hx e
    have FC : ∀ v τ, P τ → (Rel.upd (ch.fn E)).Foot (τ.setS i v) .normal (ch.fn E (τ.setS i v)) (usrLocs E (σ.setS i v) (ch.rdUsrs pos 0))
        (usrLocs E (σ.setS i v) (ch.wrUsrs pos 0)) := fun v τ hτ =>
      ch.static_foot (X := X) pos rfl 0 _ (fun x hx => by
        rcases List.mem_append.1 hx with h | h
        · exact hXsub _ (fun u hu => Or.inl (hchr u hu)) x h
        · exact hXsub _ (fun u hu => Or.inr (hchw u hu)) x h) (fun w hw => hXw w (hchw w hw)) (hPset τ v hτ)
    have FD : ∀ v τ, P τ → (Rel.upd (r.fn E)).Foot (τ.setS i v) .normal (r.fn E (τ.setS i v)) (usrLocs E (σ.setS i v) (r.rdUsrs pos 1))
        (usrLocs E (σ.setS i v) (r.wrUsrs pos 1)) := fun v τ hτ =>
      r.static_foot (X := X) pos hs 1 _ (fun x hx => by
        rcases List.mem_append.1 hx with h | h
        · exact hXsub _ (fun u hu => Or.inl (hrr u hu)) x h
        · exact hXsub _ (fun u hu => Or.inr (hrw u hu)) x h) (fun w hw => hXw w (hrw w hw)) (hPset τ v hτ)
    have hkeepX : ∀ {f : St → St} {R W : Loc → Prop} {v : Int} {τ : St}, (Rel.upd f).Foot (τ.setS i v) .normal (f (τ.setS i v)) R W →
        (∀ x, W x → ∃ w ∈ (Seq.cons (.block l) [] r).wrUsrs pos 0, x.1 = w.cont) → ∀ x ∈ X, (f (τ.setS i v)) x [] = (τ.setS i v) x [] := by
      intro f R W v τ F hW x hx
      exact F.2.1 (x, []) fun h => by
        obtain ⟨w, hw, e⟩ := hW _ h
        exact hXw w hw (e ▸ hx)
    have hWc : ∀ v x, usrLocs E (σ.setS i v) (ch.wrUsrs pos 0) x → ∃ w ∈ (Seq.cons (.block l) [] r).wrUsrs pos 0, x.1 = w.cont :=
      fun v x ⟨w, hw, h⟩ => ⟨w, hchw w hw, h.1⟩
    have hWd : ∀ v x, usrLocs E (σ.setS i v) (r.wrUsrs pos 1) x → ∃ w ∈ (Seq.cons (.block l) [] r).wrUsrs pos 0, x.1 = w.cont :=
      fun v x ⟨w, hw, h⟩ => ⟨w, hrw w hw, h.1⟩
    have hPC : ∀ τ v, P τ → P (ch.fn E (τ.setS i v)) := fun τ v hτ x hx hne => by
      rw [hkeepX (FC v τ hτ) (hWc v) x hx, St.setS_other _ _ hne]; exact hτ x hx hne
    have hPD : ∀ τ v, P τ → P (r.fn E (τ.setS i v)) := fun τ v hτ x hx hne => by
      rw [hkeepX (FD v τ hτ) (hWd v) x hx, St.setS_other _ _ hne]; exact hτ x hx hne
    have hiX : i ∈ X := by simp [X]
    have hkC : ∀ τ v, P τ → (ch.fn E (τ.setS i v)) i [] = v := fun τ v hτ => by rw [hkeepX (FC v τ hτ) (hWc v) i hiX, St.setS_same]
    have hkD : ∀ τ v, P τ → (r.fn E (τ.setS i v)) i [] = v := fun τ v hτ => by rw [hkeepX (FD v τ hτ) (hWd v) i hiX, St.setS_same]
    have hreadsOk : ∀ v x (us : List Usr), (∀ u ∈ us, u ∈ (Seq.cons (.block l) [] r).rdUsrs pos 0 ∧ ((Use.read, u.cont) ∈ (Node.block l).users ∨ (Use.read, u.cont) ∈ r.users)) →
        usrLocs E (σ.setS i v) us x → x.1 ≠ i' ∧ (x.1 = i → x = (i, [])) := by
      rintro v x us hus ⟨y, hy, hl⟩
      obtain ⟨h1, h2⟩ := hus y hy
      refine ⟨?_, fun e => ?_⟩
      · rw [hl.1]
        exact hwholeN _ (h2.imp (fun h => Node.users_names _ _ (Or.inl h)) (fun h => Seq.users_names _ _ (Or.inl h)))
      · obtain ⟨h3, h4⟩ := H.scalar y (Or.inl h1) (by rw [← hl.1, e]; exact hsi)
        have h5 := hl.2
        rw [h3, h4] at h5
        exact Prod.ext e (by simpa using h5)
    have A : Apart i i' P vs (ch.fn E) (r.fn E) (fun v => usrLocs E (σ.setS i v) (ch.rdUsrs pos 0)) (fun v => usrLocs E (σ.setS i v) (ch.wrUsrs pos 0))
        (fun v => usrLocs E (σ.setS i v) (r.rdUsrs pos 1)) (fun v => usrLocs E (σ.setS i v) (r.wrUsrs pos 1)) := by
      have mem2 : ∀ {k : Use} {x : String} {us : List User}, (k, x) ∈ us → x ∈ us.map (·.2) := fun h => List.mem_map.2 ⟨_, h, rfl⟩
      refine ⟨fun τ v h => ⟨hPC τ v h, hPD τ v h⟩, FC, FD, ?_, ?_, ?_⟩
      · rintro v x (h | h)
        · exact hreadsOk v x _ (fun u hu => ⟨hchr u hu, Or.inl (uc1 u hu)⟩) h
        · exact hreadsOk v x _ (fun u hu => ⟨hrr u hu, Or.inr (ur1 u hu)⟩) h
      · rintro v x (h | h)
        · obtain ⟨w, hw, e⟩ := hWc v x h
          rw [e]; exact hhdr i (Or.inl rfl) w hw
        · obtain ⟨w, hw, e⟩ := hWd v x h
          rw [e]; exact hhdr i (Or.inl rfl) w hw
      · intro v hv w hw hne x
        refine ⟨?_, ?_, ?_⟩
        · rintro ⟨p, hp, hpl⟩ ⟨q, hq, hql⟩
          exact hconf v hv w hw hne x ⟨p, hrw p hp, hpl⟩ (Or.inl ⟨q, hchr q hq, hql⟩) (by rw [hql.1]; exact mem2 (uc1 q hq))
            (by rw [hpl.1]; exact mem2 (ur2 p hp))
        · rintro ⟨p, hp, hpl⟩ ⟨q, hq, hql⟩
          exact hconf v hv w hw hne x ⟨p, hchw p hp, hpl⟩ (Or.inl ⟨q, hrr q hq, hql⟩) (by rw [hpl.1]; exact mem2 (uc2 p hp))
            (by rw [hql.1]; exact mem2 (ur1 q hq))
        · rintro ⟨p, hp, hpl⟩ ⟨q, hq, hql⟩
          exact hconf v hv w hw hne x ⟨p, hchw p hp, hpl⟩ (Or.inr ⟨q, hrw q hq, hql⟩) (by rw [hpl.1]; exact mem2 (uc2 p hp))
            (by rw [hql.1]; exact mem2 (ur2 q hq))
    have hhdrP : ∀ τ, P τ → ∀ x, x ∈ k.atoms ∨ x ∈ u.atoms → x ≠ i → τ x [] = σ x [] := fun τ hτ x hx hne =>
      hτ x (by simp only [X, List.mem_append]; grind) hne
    have hinit : ∀ τ, P τ → τ.ev E a = σ.ev E a := fun τ hτ => St.ev_congr E fun x hx =>
      hτ x (by simp only [X, List.mem_append]; grind) fun e' : x = i => hia (e' ▸ hx)
    have hset' : ∀ τ v, P τ → (ch.fn E (τ.setS i v)).setS i v = ch.fn E (τ.setS i v) := fun τ v hτ => Tile.setS_eta _ i _ (hkC τ v hτ)
    have hPσ : P σ := fun _ _ _ => rfl
    -- the original loop
    have hwfn : (Seq.cons (.block l) [] r).fn E = fun τ => r.fn E (ch.fn E τ) := rfl
    have horig : (Node.loop m i a k u (.cons (.block l) [] r)).den E σ .normal
        ((vs.foldl (fun τ v => r.fn E (ch.fn E (τ.setS i v))) σ).setS i e) := by
      rw [Node.den, Rel.upd_seq, Seq.fn_den E (.cons (.block l) [] r) hs, hwfn]
      exact loop_fold (P := P) (f := fun τ => r.fn E (ch.fn E τ)) (fun τ v hτ => by
        have := hPD _ v (hPC τ v hτ); rwa [hset' τ v hτ] at this) (fun τ v hτ => by
        have := hkD _ v (hPC τ v hτ); rwa [hset' τ v hτ] at this) hhdrP hI σ hPσ
    -- the loop over the first child, with the old name
    let σL : St := fun z => if z = i then σ i' else σ z
    have hPL : P σL := fun x _ hne => by simp only [σL, if_neg hne]
    have hL : (Node.loop true i a k u ch).den E σL .normal ((vs.foldl (fun τ v => ch.fn E (τ.setS i v)) σL).setS i e) := by
      rw [Node.den, Rel.upd_seq, Seq.fn_den E ch rfl]; dsimp only; rw [hinit σL hPL]
      exact loop_fold (P := P) (f := ch.fn E) hPC hkC hhdrP hI σL hPL
    have hii : i ≠ i' := fun e' => hfresh (by simp [Node.names, e'])
    have hchN : i' ∉ (Node.loop true i a k u ch).names := fun h => hfresh (by
      simp only [ch, Node.names, Seq.names, List.mem_cons, List.mem_append, List.map_nil, List.flatMap_nil, List.not_mem_nil, or_false] at h ⊢
      grind)
    have hren : Ren i i' σL σ := ⟨fun z h1 _ => by simp only [σL, if_neg h1], by simp [σL]⟩
    obtain ⟨τ1, hτ1, hr1⟩ := (Node.rename_bis E i i' hii _ hchN (by simp [ch, Node.rets, Seq.rets])).1 _ _ _ _ hren hL
    have hPτ1 : P τ1 := fun x hx hne => by
      have hxi' : x ≠ i' := fun e' => by
        simp only [X, List.mem_append, List.mem_singleton] at hx
        rcases hx with ((h | h) | h) | h
        · obtain ⟨y, hy, hx⟩ := List.mem_flatMap.1 h
          exact hsubN y (Or.inl hy) x hx e'
        · obtain ⟨y, hy, hx⟩ := List.mem_flatMap.1 h
          exact hsubN y (Or.inr hy) x hx e'
        · exact hfresh (by simp only [Node.names, List.mem_cons, List.mem_append]; rw [← e']; grind)
        · exact hne h
      rw [← hr1.1 x hne hxi', St.setS_other _ _ hne]
      exact fold_P hPC vs σL hPL x hx hne
    have hD : (Node.loop m i a k u r).den E τ1 .normal ((vs.foldl (fun τ v => r.fn E (τ.setS i v)) τ1).setS i e) := by
      rw [Node.den, Rel.upd_seq, Seq.fn_den E r hs]; dsimp only; rw [hinit τ1 hPτ1]
      exact loop_fold (P := P) (f := r.fn E) hPD hkD hhdrP hI τ1 hPτ1
    refine ⟨_, (vs.foldl (fun τ v => r.fn E (τ.setS i v)) τ1).setS i e, by rw [Seq.one, one_child_den]; exact horig, ?_, ?_, ?_⟩
    · rw [distribute, Seq.den]
      refine Or.inl ⟨τ1, hτ1, Or.inl ⟨τ1, ⟨rfl, rfl⟩, ?_⟩⟩
      rw [one_child_den]; exact hD
    · have h1 := A.split vs (fun _ h => h) hI.distinct σ hPσ
      have h2 : Off2 i i' τ1 (vs.foldl (fun τ v => ch.fn E (τ.setS i v)) σ) := by
        have h3 := fold_congr (i := i) (i' := i') hPC FC (fun v x h => A.reads v x (Or.inl h)) vs σL σ hPL hPσ (fun x hx => by
          simp only [St.at, σL, if_neg (fun e' => hx (Or.inl e'))])
        intro x hx
        have hx1 : x.1 ≠ i := fun e' => hx (Or.inl e')
        have h4 : τ1.at x = ((vs.foldl (fun τ v => ch.fn E (τ.setS i v)) σL).setS i e).at x := by
          show τ1 x.1 x.2 = _
          rw [← hr1.1 x.1 hx1 (fun e' => hx (Or.inr e'))]; rfl
        rw [h4, at_setS fun e' => hx1 (by rw [e'])]
        exact h3 x hx
      have h5 := fold_congr (i := i) (i' := i') hPD FD (fun v x h => A.reads v x (Or.inr h)) vs _ _ hPτ1 (fold_P hPC vs σ hPσ) h2
      intro x hx
      have hx1 : x ≠ (i, []) := fun e' => hx (Or.inl (by rw [e']))
      rw [at_setS hx1, at_setS hx1, h1 x hx]
      exact (h5 x hx).symm
    · rw [St.setS_same, St.setS_same]

/-! ### the new loop is a Map -/

theorem foldl_readName_undef {x : Usr} : (l : List Usr) → (st : DepSt) → x ∈ st.undef → x ∈ (l.foldl readName st).undef
  | [], _, h => h
  | r :: l, st, h => foldl_readName_undef l _ (readName_undef st r x h)
theorem foldl_writeUsr_undef (O : DepOracle) (d : Bool) : (l : List Usr) → (st : DepSt) → (l.foldl (writeUsr O d) st).undef = st.undef
  | [], _ => rfl
  | w :: l, st => by rw [List.foldl_cons, foldl_writeUsr_undef O d l]; rfl
theorem visitTrans_undef (O : DepOracle) (pos : List Nat) (t : Trans) (st : DepSt) {x : Usr} (h : x ∈ st.undef) :
    x ∈ (visitTrans O pos t st).undef := by
  rw [visitTrans, foldl_writeUsr_undef]; exact foldl_readName_undef _ _ h
theorem visitBlock_undef (O : DepOracle) (pos : List Nat) {x : Usr} : (l : List Stmt) → (k : Nat) → (st : DepSt) → x ∈ st.undef →
    x ∈ (visitBlock O pos k l st).undef
  | [], _, _, h => h
  | s :: l, k, st, h => by
    rw [visitBlock]
    exact visitBlock_undef O pos l _ _ (by rw [foldl_writeUsr_undef]; exact foldl_readUsr_undef O _ _ h)
theorem visit_undef (O : DepOracle) (pos : List Nat) {x : Usr} : (s : Seq) → (k : Nat) → s.straight = true → (st : DepSt) → x ∈ st.undef →
    x ∈ (s.visit O pos k st).undef
  | .nil, _, _, _, h => h
  | .cons n t r, k, hs, st, h => by
    obtain ⟨l, rfl⟩ : ∃ l, n = .block l := by
      match n, hs with
      | .block l, _ => exact ⟨l, rfl⟩
    rw [Seq.visit]
    exact visit_undef O pos r _ hs _ (visitTrans_undef O _ t _ (visitBlock_undef O _ l _ _ h))

theorem DepOk.mono {O : DepOracle} {E : Env} {σ : St} {i : String} {vs : List Int} {rs ws rs' ws' : List Usr} {ts ts' : List String}
    (H : DepOk O E σ i vs rs ws ts) (hr : ∀ x, x ∈ rs' → x ∈ rs) (hw : ∀ x, x ∈ ws' → x ∈ ws) (ht : ∀ x ∈ ts', x ∈ ts) :
    DepOk O E σ i vs rs' ws' ts' :=
  ⟨fun p hp c hc => H.meets p (hw p hp) c (hc.imp (hr c) (hw c)), fun p hp c hc => H.subset p (hw p hp) c (hw c hc),
    fun p hp c hc => H.covers p (hw p hp) c (hr c hc), fun u hu => H.scalar u (hu.imp (hr u) (hw u)),
    fun u hu e he x hx w h => H.fixed u (hu.imp (hr u) (hw u)) e he x hx w (hw w h), H.order, fun x hx => H.trans x (ht x hx)⟩

/-- transients used in the first child and nowhere else -/
def PrivateTo (C : MapCtx) (n : Node) (r : Seq) (x : String) : Prop :=
  C.transient x = true ∧ x ∈ n.users.map (·.2) ∧ x ∉ C.outside ∧ x ∉ r.users.map (·.2)

/-- **C22**, second half (partial): under the same conditions the iterations of the new Map may run in any order, each with its own copy of
the locals of the first child, if a local the child reads before it writes it is read from another iteration. -/
theorem distribute_map_partial {O : DepOracle} {C : MapCtx} {E : Env} {pos : List Nat} {i : String} {a : Expr} {k : Cond} {u : Expr}
    {n : Node} {t : Trans} {r : Seq} {σ : St} {vs : List Int} {e : Int} (hc : canDistribute O C pos i u (.cons n t r) = true)
    (hs : (Seq.cons n t r).straight = true) (hI : Iters E i k u σ (σ.ev E a) vs e)
    (H : DepOk O E σ i vs ((Seq.cons n t r).rdUsrs pos 0) ((Seq.cons n t r).wrUsrs pos 0) (Seq.cons n t r).transSyms)
    (hhdr : ∀ x, x = i ∨ x ∈ k.atoms ∨ x ∈ u.atoms → x ∈ C.outside ∧ ∀ w ∈ (Seq.cons n t r).wrUsrs pos 0, w.cont ≠ x)
    (hsi : O.scalar i = true)
    (hinit : ∀ x ∈ ((Seq.one n).visit O pos 0 {}).undef, PrivateTo C n r x.cont →
      ∃ w ∈ ((Seq.cons n t r).visit O pos 0 {}).opn, (if O.mono i u then loopDepends O i else depends O) w x = true) :
    ∃ σ', (Node.loop true i a k u (.one n)).den E σ .normal σ' ∧
      ∀ ws : List Int, ws.Perm vs → (∃ τ', RunPar ((Seq.one n).den E) i (fun x => x = i ∨ PrivateTo C n r x) ws σ τ') ∧
        ∀ τ', RunPar ((Seq.one n).den E) i (fun x => x = i ∨ PrivateTo C n r x) ws σ τ' →
          OffX (fun x => x = i ∨ PrivateTo C n r x) τ' σ' := by
  have hpriv : ∀ x, PrivateTo C n r x ↔ childLocal C n r x = true := fun x => by simp [PrivateTo, childLocal, and_assoc]
  simp only [hpriv] at hinit ⊢
  have hlocal : t = [] ∧ ∀ d ∈ loopDeps O pos i u (.cons n t r), d.1 ∈ n.users.map (·.2) → d.2 = .writeWrite ∧ childLocal C n r d.1 = true := by
    unfold canDistribute at hc
    split at hc
    · rename_i heq
      simp only [Seq.cons.injEq] at heq
      obtain ⟨rfl, rfl, rfl⟩ := heq
      refine ⟨rfl, fun d hd hn => ?_⟩
      have := List.all_eq_true.1 hc d hd
      simp only [hn, decide_true, Bool.not_true, Bool.false_or, Bool.and_eq_true, decide_eq_true_eq] at this
      exact this
    · cases hc
  obtain ⟨rfl, hlocal⟩ := hlocal
  obtain ⟨l, rfl⟩ : ∃ l, n = .block l := by
    match n, hs with
    | .block l, _ => exact ⟨l, rfl⟩
  replace hs : r.straight = true := hs
  have hloc : ∀ x, x ∈ C.outside → childLocal C (.block l) r x = false := fun x hx => by simp [childLocal, hx]
  have hchr : ∀ x, x ∈ (Seq.one (.block l)).rdUsrs pos 0 → x ∈ (Seq.cons (.block l) [] r).rdUsrs pos 0 := fun x hx => by
    simp only [Seq.one, Seq.rdUsrs, List.mem_append, List.flatMap_nil, symUsrs, List.map_nil, List.not_mem_nil, or_false] at hx ⊢
    exact Or.inl hx
  have hchw : ∀ x, x ∈ (Seq.one (.block l)).wrUsrs pos 0 → x ∈ (Seq.cons (.block l) [] r).wrUsrs pos 0 := fun x hx => by
    simp only [Seq.one, Seq.wrUsrs, List.mem_append, List.map_nil, List.not_mem_nil, or_false] at hx ⊢
    exact Or.inl hx
  obtain ⟨uc1, uc2⟩ := Seq.usrs_users (pos := pos) (Seq.one (.block l)) rfl 0
  have hchu : (Seq.one (.block l)).users = (Node.block l).users := by simp [Seq.one, Seq.users, Node.isRet, transUsers, readsOf]
  rw [hchu] at uc1 uc2
  have mem2 : ∀ {k : Use} {x : String} {us : List User}, (k, x) ∈ us → x ∈ us.map (·.2) := fun h => List.mem_map.2 ⟨_, h, rfl⟩
  generalize hb : (Seq.one (.block l)).visit O pos 0 {} = b at hinit
  have hund : ∀ x ∈ b.undef, x ∈ (loopBody O pos u (.cons (.block l) [] r)).undef := fun x hx => by
    rw [loopBody]
    refine foldl_readUsr_undef O _ _ ?_
    rw [Seq.visit]
    refine visit_undef O pos r _ hs _ ?_
    rw [← hb] at hx
    simpa [Seq.one, Seq.visit] using hx
  have hopn : (loopBody O pos u (.cons (.block l) [] r)).opn = ((Seq.cons (.block l) [] r).visit O pos 0 {}).opn := by
    rw [loopBody, foldl_readUsr_opn]
  have hfoot : ∀ v, ∃ τ, v ∈ vs → ((Seq.one (.block l)).den E).Foot (σ.setS i v) .normal τ (fun x => ∃ r ∈ b.undef, r.locs E (σ.setS i v) x)
      (fun x => ∃ w ∈ b.opn, w.locs E (σ.setS i v) x) ∧ (∀ w ∈ b.opn, w.art = false ∧ w ∈ (Seq.one (.block l)).wrUsrs pos 0) ∧
      ∀ x ∈ b.undef, x.art = false ∧ x ∈ (Seq.one (.block l)).rdUsrs pos 0 := by
    intro v
    by_cases hv : v ∈ vs
    · have H' : DepOk O E σ i vs ((Seq.one (.block l)).rdUsrs pos 0) ((Seq.one (.block l)).wrUsrs pos 0) (Seq.one (.block l)).transSyms := 
        H.mono hchr hchw fun x hx => by simp [Seq.one, Seq.transSyms] at hx
      obtain ⟨τ, R, W, F, I⟩ := visit_foot H' hv pos (Seq.one (.block l)) 0 rfl (fun _ h => h) (fun _ h => h) (fun _ h => h) (Rel.upd id) _ _ _ {}
        (Rel.Foot.skip (σ.setS i v)) ⟨fun _ h => h.elim, fun l => by simp, fun w hw => by simp at hw, fun r hr => by simp at hr⟩
      rw [Rel.skip_seq] at F
      rw [hb] at I
      exact ⟨τ, fun _ => ⟨F.congr I.rd I.wr, I.real, I.und⟩⟩
    · exact ⟨σ, fun h => absurd h hv⟩
  generalize hR : (fun v => Classical.choose (hfoot v)) = res
  have hres : ∀ v ∈ vs, ((Seq.one (.block l)).den E).Foot (σ.setS i v) .normal (res v) (fun x => ∃ r ∈ b.undef, r.locs E (σ.setS i v) x)
      (fun x => ∃ w ∈ b.opn, w.locs E (σ.setS i v) x) ∧ (∀ w ∈ b.opn, w.art = false ∧ w ∈ (Seq.one (.block l)).wrUsrs pos 0) ∧
      ∀ x ∈ b.undef, x.art = false ∧ x ∈ (Seq.one (.block l)).rdUsrs pos 0 := by
    intro v hv; rw [← hR]; exact Classical.choose_spec (hfoot v) hv
  have hconf : ∀ v ∈ vs, ∀ w ∈ vs, v ≠ w → ∀ x, usrLocs E (σ.setS i v) ((Seq.one (.block l)).wrUsrs pos 0) x →
      (usrLocs E (σ.setS i w) ((Seq.one (.block l)).rdUsrs pos 0) x ∨ usrLocs E (σ.setS i w) ((Seq.one (.block l)).wrUsrs pos 0) x) →
      childLocal C (.block l) r x.1 = true := by
    rintro v hv w hw hne x ⟨p, hp, hpl⟩ h2
    obtain ⟨d, hd⟩ := loopDeps_complete_partial (u := u) (pos := pos) (s := .cons (.block l) [] r) hs H hv hw hne ⟨p, hchw p hp, hpl⟩
      (h2.imp (fun ⟨q, hq, h⟩ => ⟨q, hchr q hq, h⟩) (fun ⟨q, hq, h⟩ => ⟨q, hchw q hq, h⟩))
    exact (hlocal _ hd (by rw [hpl.1]; exact mem2 (uc2 p hp))).2
  refine any_order hI (X := fun x => x = i ∨ childLocal C (.block l) r x = true) (res := res)
    (R := fun v x => (∃ r ∈ b.undef, r.locs E (σ.setS i v) x)) (W := fun v x => ∃ w ∈ b.opn, w.locs E (σ.setS i v) x)
    ⟨Or.inl rfl, fun v hv => ⟨.normal, Or.inl rfl, (hres v hv).1⟩, ?_, ?_, ?_⟩ ?_
  · rintro v hv ⟨w, hw, hl⟩
    exact (hhdr i (Or.inl rfl)).2 w (hchw w ((hres v hv).2.1 w hw).2) hl.1.symm
  · rintro v hv x ⟨y, hy, hl⟩ hne (hx | hx)
    · obtain ⟨h3, h4⟩ := H.scalar y (Or.inl (hchr _ ((hres v hv).2.2 y hy).2)) (by rw [← hl.1, hx]; exact hsi)
      have h2 := hl.2
      rw [h3, h4] at h2
      exact hne (Prod.ext hx (by simpa using h2))
    · obtain ⟨w, hw, hd⟩ := hinit y hy (by rw [← hl.1]; exact hx)
      have hm : (y.cont, Dep.readWrite) ∈ loopDeps O pos i u (.cons (.block l) [] r) := by
        simp only [loopDeps, List.mem_append, List.mem_map, List.mem_filter]
        exact Or.inl ⟨y.cont, ⟨y, ⟨hund y hy, List.any_eq_true.2 ⟨w, by rw [hopn]; exact hw, hd⟩⟩, rfl⟩, rfl⟩
      have := (hlocal _ hm (mem2 (uc1 y ((hres v hv).2.2 y hy).2))).1
      cases this
  · rintro v hv w hw hne x ⟨p, hp, hpl⟩ hX
    refine ⟨?_, ?_⟩
    · rintro ⟨q, hq, hql⟩
      exact absurd (hconf v hv w hw hne x ⟨p, ((hres v hv).2.1 p hp).2, hpl⟩ (Or.inl ⟨q, ((hres v hv).2.2 q hq).2, hql⟩)) fun h => hX (Or.inr h)
    · rintro ⟨q, hq, hql⟩
      exact absurd (hconf v hv w hw hne x ⟨p, ((hres v hv).2.1 p hp).2, hpl⟩ (Or.inr ⟨q, ((hres v hv).2.1 q hq).2, hql⟩)) fun h => hX (Or.inr h)
  · intro x hx hne
    refine ⟨?_, ?_⟩
    · rintro (h | h)
      · exact hne h
      · rw [hloc x (hhdr x (Or.inr hx)).1] at h; cases h
    · rintro v hv ⟨w, hw, hl⟩
      exact (hhdr x (Or.inr hx)).2 w (hchw w ((hres v hv).2.1 w hw).2) hl.1.symm

/-! ### the hypotheses can be met; violations -/

/-- `t := B[i]; A[i] := t` in the first child, `C[i] := A[i]` in the second -/
def exDistBody : Seq := .cons (.block [.tasklet "assign" [("B", [.sym "i"])] "t" [], .tasklet "assign" [("t", [])] "A" [.sym "i"]]) []
  (.one (.block [.tasklet "assign" [("A", [.sym "i"])] "C" [.sym "i"]]))

/-- the hypotheses of `distribute_partial` hold for it -/
example (σ : St) : canDistribute (exDep id) exMC [] "i" (exInc "i") exDistBody = true ∧ exDistBody.straight = true ∧
    Iters exEnv "i" (exLt "i" 2) (exInc "i") σ (σ.ev exEnv (.int 0)) [0, 1] 2 ∧
    DepOk (exDep id) exEnv σ "i" [0, 1] (exDistBody.rdUsrs [] 0) (exDistBody.wrUsrs [] 0) exDistBody.transSyms ∧
    (∀ x, x = "i" ∨ x ∈ (Expr.int 0).atoms ∨ x ∈ (exLt "i" 2).atoms ∨ x ∈ (exInc "i").atoms → ∀ w ∈ exDistBody.wrUsrs [] 0, w.cont ≠ x) ∧
    "i" ∉ (Expr.int 0).atoms ∧ (exDep id).scalar "i" = true ∧
    "i_1" ∉ (Node.loop false "i" (.int 0) (exLt "i" 2) (exInc "i") exDistBody).names := by
  refine ⟨by decide, by decide, exIters _ _, ⟨?_, ?_, ?_,
    fun u hu => (by decide : ∀ u ∈ exDistBody.rdUsrs [] 0 ++ exDistBody.wrUsrs [] 0, (exDep id).scalar u.cont = true → u.sub = [] ∧ u.whole = false) u
      (List.mem_append.2 hu),
    fun u hu => (by decide : ∀ u ∈ exDistBody.rdUsrs [] 0 ++ exDistBody.wrUsrs [] 0, ∀ e ∈ u.sub, ∀ x ∈ e.atoms, ∀ w ∈ exDistBody.wrUsrs [] 0, w.cont ≠ x) u
      (List.mem_append.2 hu), fun _ _ h => h, by decide⟩, ?_, by decide, by decide, by decide⟩
  · intro p _ c _ _ h v _ w _ hne l hp hc
    exact (exDep_true id σ).meets p c h v w hne l hp hc
  · intro p _ c _ _ h; simp [exDep] at h
  · intro p hp r hr he _ v _ l hl
    have : ∀ p ∈ exDistBody.wrUsrs [] 0, ∀ r ∈ exDistBody.rdUsrs [] 0, p.cont = r.cont → p.sub = r.sub ∧ p.whole = r.whole := by decide
    obtain ⟨h1, h2⟩ := this p hp r hr he
    exact ⟨by rw [he]; exact hl.1, by rw [h1, h2]; exact hl.2⟩
  · intro x hx
    have : x = "i" := by simpa [exLt, exInc, Cond.atoms, Expr.atoms, Expr.atomsL] using hx
    subst this
    decide

/-- and the further hypotheses of `distribute_map_partial`: the local `t` is written before it is read -/
example : (∀ x, x = "i" ∨ x ∈ (exLt "i" 2).atoms ∨ x ∈ (exInc "i").atoms → x ∈ exMC.outside ∧ ∀ w ∈ exDistBody.wrUsrs [] 0, w.cont ≠ x) ∧
    match exDistBody with
    | .cons n _ r => childLocal exMC n r "t" = true ∧ ∀ x ∈ ((Seq.one n).visit (exDep id) [] 0 {}).undef, childLocal exMC n r x.cont = false
    | .nil => False := by
  refine ⟨fun x hx => ?_, by unfold exDistBody; decide⟩
  have : x = "i" := by simpa [exLt, exInc, Cond.atoms, Expr.atoms, Expr.atomsL] using hx
  subst this
  decide

/-- the outcome of a distribution that goes wrong: the oracles are truthful, the loop is accepted, and the distributed loops leave a
different value in a cell -/
def DistWrong (a : Expr) (k : Cond) (s : Seq) (x : String) (j : List Int) : Prop :=
  ∃ (E : Env) (O : DepOracle) (C : MapCtx) (σ σ' : St), O.True E "i" (exInc "i") σ ∧ canDistribute O C [] "i" (exInc "i") s = true ∧
    "i_1" ∉ (Node.loop false "i" a k (exInc "i") s).names ∧ (Seq.one (.loop false "i" a k (exInc "i") s)).den E σ .normal σ' ∧
    ∀ c τ', (distribute false "i" "i_1" a k (exInc "i") s).den E σ c τ' → τ' x j ≠ σ' x j

/-- **C22 fails** when the second child may leave the loop: `A[i] := B; if (i == 0) break`: the loop writes `A[0]` only, the new Map
writes `A[1]` too. -/
theorem distribute_break_violated : DistWrong (.int 0) (exLt "i" 2) (.cons (.block [.tasklet "assign" [("B", [])] "A" [.sym "i"]]) []
    (.one (.ifElse (.cons (.eq (.sym "i") (.int 0)) (.one .brk) .nil)))) "A" [1] := by
  obtain ⟨σ', h1, h2⟩ := Seq.run_obs (E := exEnv) (σ := fun x _ => if x = "B" then 1 else 0) 60 (x := "A") (j := [1]) (c := .normal) (v := 0)
    (s := .one (.loop false "i" (.int 0) (exLt "i" 2) (exInc "i") (.cons (.block [.tasklet "assign" [("B", [])] "A" [.sym "i"]]) []
      (.one (.ifElse (.cons (.eq (.sym "i") (.int 0)) (.one .brk) .nil)))))) (by decide)
  refine ⟨exEnv, exDep id, exMC, _, σ', exDep_true _ _, by decide, by decide, h1, fun c τ' h => ?_⟩
  have := (Seq.run_obs_all 60 (x := "A") (j := [1]) (c := .normal) (v := 1) (by decide) h).2
  rw [this, h2]; decide

/-- **C22 fails** when the second child reads a location another iteration of the first child writes and the read may overlap the write of
its own iteration: `A[i] := B; C[i] := A[1]`: the loop stores the old `A[1]` in `C[0]`. -/
theorem distribute_overlap_violated : DistWrong (.int 0) (exLt "i" 2) (.cons (.block [.tasklet "assign" [("B", [])] "A" [.sym "i"]]) []
    (.one (.block [.tasklet "assign" [("A", [.int 1])] "C" [.sym "i"]]))) "C" [0] := by
  obtain ⟨σ', h1, h2⟩ := Seq.run_obs (E := exEnv) (σ := fun x _ => if x = "B" then 1 else 0) 60 (x := "C") (j := [0]) (c := .normal) (v := 0)
    (s := .one (.loop false "i" (.int 0) (exLt "i" 2) (exInc "i") (.cons (.block [.tasklet "assign" [("B", [])] "A" [.sym "i"]]) []
      (.one (.block [.tasklet "assign" [("A", [.int 1])] "C" [.sym "i"]]))))) (by decide)
  refine ⟨exEnv, exDep id, exMC, _, σ', exDep_true _ _, by decide, by decide, h1, fun c τ' h => ?_⟩
  have := (Seq.run_obs_all 60 (x := "C") (j := [0]) (c := .normal) (v := 1) (by decide) h).2
  rw [this, h2]; decide

/-- **C22 fails** when the second child changes the bound: `for (i = 0; i < N; i++) { A[i] := B; N := 1 }` with `N = 2`: the dependency on
`N` is skipped because the first child does not use `N`; the new Map runs both iterations. -/
theorem distribute_bound_violated : DistWrong (.int 0) (.lt (.sym "i") (.sym "N")) (.cons (.block [.tasklet "assign" [("B", [])] "A" [.sym "i"]]) []
    (.cons (.block []) [("N", .int 1)] .nil)) "A" [1] := by
  obtain ⟨σ', h1, h2⟩ := Seq.run_obs (E := exEnv) (σ := fun x _ => if x = "B" then 1 else if x = "N" then 2 else 0) 60 (x := "A") (j := [1])
    (c := .normal) (v := 0) (s := .one (.loop false "i" (.int 0) (.lt (.sym "i") (.sym "N")) (exInc "i")
      (.cons (.block [.tasklet "assign" [("B", [])] "A" [.sym "i"]]) [] (.cons (.block []) [("N", .int 1)] .nil)))) (by decide)
  refine ⟨exEnv, exDep id, exMC, _, σ', exDep_true _ _, by decide, by decide, h1, fun c τ' h => ?_⟩
  have := (Seq.run_obs_all 60 (x := "A") (j := [1]) (c := .normal) (v := 1) (by decide) h).2
  rw [this, h2]; decide

/-- **C22 fails** when the loop starts from its own variable: `for (i = i; i < 2; i++) { A[i] := B; C[i] := B }` with `i = 1`: the renamed
Map starts from the new variable, which was never assigned. -/
theorem distribute_init_violated : DistWrong (.sym "i") (exLt "i" 2) (.cons (.block [.tasklet "assign" [("B", [])] "A" [.sym "i"]]) []
    (.one (.block [.tasklet "assign" [("B", [])] "C" [.sym "i"]]))) "A" [0] := by
  obtain ⟨σ', h1, h2⟩ := Seq.run_obs (E := exEnv) (σ := fun x _ => if x = "B" ∨ x = "i" then 1 else 0) 60 (x := "A") (j := [0]) (c := .normal) (v := 0)
    (s := .one (.loop false "i" (.sym "i") (exLt "i" 2) (exInc "i") (.cons (.block [.tasklet "assign" [("B", [])] "A" [.sym "i"]]) []
      (.one (.block [.tasklet "assign" [("B", [])] "C" [.sym "i"]]))))) (by decide)
  refine ⟨exEnv, exDep id, exMC, _, σ', exDep_true _ _, by decide, by decide, h1, fun c τ' h => ?_⟩
  have := (Seq.run_obs_all 60 (x := "A") (j := [0]) (c := .normal) (v := 1) (by decide) h).2
  rw [this, h2]; decide

end Docc.IR
