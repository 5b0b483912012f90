import Verif.IR.OutLocalProps
import Verif.IR.InterchangeProps
import Verif.IR.WhileToForProps
import Verif.IR.CudaProps

/-! C92: OutLocalStorage with a local array. -/
namespace Docc.IR
open Docc.Sym

/-! ### relations -/

theorem Rel.bis_comp {A B : St → St → Prop} {R S T : Rel} (h1 : Rel.bis A R S) (h2 : Rel.bis B S T) :
    Rel.bis (fun σ τ => ∃ μ, A σ μ ∧ B μ τ) R T := by
  constructor
  · rintro σ τ c σ' ⟨μ, ha, hb⟩ hd
    obtain ⟨μ', hd', ha'⟩ := h1.1 σ μ c σ' ha hd
    obtain ⟨τ', hd'', hb'⟩ := h2.1 μ τ c μ' hb hd'
    exact ⟨τ', hd'', μ', ha', hb'⟩
  · rintro τ σ c τ' ⟨μ, ha, hb⟩ hd
    obtain ⟨μ', hd', hb'⟩ := h2.2 τ μ c τ' hb hd
    obtain ⟨σ', hd'', ha'⟩ := h1.2 μ σ c μ' ha hd'
    exact ⟨σ', hd'', μ', ha', hb'⟩

/-- `R` from `σ` and `S` from `τ` have the same outcomes and end related by `B` -/
def Rel.BisAt (B : St → St → Prop) (R S : Rel) (σ τ : St) : Prop :=
  (∀ c σ', R σ c σ' → ∃ τ', S τ c τ' ∧ B σ' τ') ∧ ∀ c τ', S τ c τ' → ∃ σ', R σ c σ' ∧ B σ' τ'

theorem Rel.iter_bisAt {A B F : St → St → Prop} {b b' : St → Bool} {u u' : St → St} {R R' : Rel} (hb : ∀ σ τ, A σ τ → b σ = b' τ)
    (hR : ∀ σ τ, A σ τ → b σ = true → Rel.BisAt B R R' σ τ) (hu : ∀ σ τ, B σ τ → A (u σ) (u' τ)) (hA : ∀ σ τ, A σ τ → F σ τ)
    (hB : ∀ σ τ, B σ τ → F σ τ) {σ τ : St} (h : A σ τ) : Rel.BisAt F (Rel.iter b u R) (Rel.iter b' u' R') σ τ := by
  constructor
  · intro c σ' hd
    induction hd generalizing τ with
    | done hc => exact ⟨τ, .done (by rw [← hb _ _ h]; exact hc), hA _ _ h⟩
    | step k hc hr hk _ ih =>
      obtain ⟨τ1, hr', h1⟩ := (hR _ _ h hc).1 _ _ hr
      obtain ⟨τ2, hr2, h2⟩ := ih (hu _ _ h1)
      exact ⟨τ2, .step k (by rw [← hb _ _ h]; exact hc) hr' hk hr2, h2⟩
    | stop hc hr =>
      obtain ⟨τ1, hr', h1⟩ := (hR _ _ h hc).1 _ _ hr
      exact ⟨τ1, .stop (by rw [← hb _ _ h]; exact hc) hr', hB _ _ h1⟩
    | ret d q hc hr =>
      obtain ⟨τ1, hr', h1⟩ := (hR _ _ h hc).1 _ _ hr
      exact ⟨τ1, .ret d q (by rw [← hb _ _ h]; exact hc) hr', hB _ _ h1⟩
  · intro c τ' hd
    induction hd generalizing σ with
    | done hc => exact ⟨σ, .done (by rw [hb _ _ h]; exact hc), hA _ _ h⟩
    | step k hc hr hk _ ih =>
      have hc' : b σ = true := by rw [hb _ _ h]; exact hc
      obtain ⟨τ1, hr', h1⟩ := (hR _ _ h hc').2 _ _ hr
      obtain ⟨τ2, hr2, h2⟩ := ih (hu _ _ h1)
      exact ⟨τ2, .step k hc' hr' hk hr2, h2⟩
    | stop hc hr =>
      have hc' : b σ = true := by rw [hb _ _ h]; exact hc
      obtain ⟨τ1, hr', h1⟩ := (hR _ _ h hc').2 _ _ hr
      exact ⟨τ1, .stop hc' hr', hB _ _ h1⟩
    | ret d q hc hr =>
      have hc' : b σ = true := by rw [hb _ _ h]; exact hc
      obtain ⟨τ1, hr', h1⟩ := (hR _ _ h hc').2 _ _ hr
      exact ⟨τ1, .ret d q hc' hr', hB _ _ h1⟩

/-- the value after the update is the next iteration or the last value -/
theorem Iters.next {E : Env} {i : String} {k : Cond} {u : Expr} {σ : St} {v : Int} {vs : List Int} {e : Int}
    (h : Iters E i k u σ v vs e) : (v ∈ vs ∨ v = e) ∧ ∀ w ∈ vs, (σ.setS i w).ev E u ∈ vs ∨ (σ.setS i w).ev E u = e := by
  induction h with
  | done hc => exact ⟨Or.inr rfl, by simp⟩
  | @step v vs e hc _ ih =>
    refine ⟨Or.inl (by simp), fun w hw => ?_⟩
    rcases List.mem_cons.1 hw with rfl | hw
    · exact ih.1.imp (fun h => by simp [h]) id
    · exact (ih.2 w hw).imp (fun h => by simp [h]) id

/-! ### the copy loops -/

theorem copy_loop {E : Env} (hop : ∀ v, E.op "assign" [v] = v) {j : String} {a : Expr} {q : Cond} {u : Expr} {x y : String} {s t : List Expr}
    {τ : St} {vs : List Int} {e : Int} (hI : Iters E j q u τ (τ.ev E a) vs e) (ha : j ∉ a.atoms) (hxy : x ≠ y) (hjx : j ≠ x) (hjy : j ≠ y)
    (hy : ∀ z, z ∈ a.atoms ∨ z ∈ q.atoms ∨ z ∈ u.atoms ∨ z ∈ Expr.atomsL s ∨ z ∈ Expr.atomsL t → z ≠ y)
    (hinj : ∀ v ∈ vs, ∀ w ∈ vs, t.map ((τ.setS j v).ev E) = t.map ((τ.setS j w).ev E) → v = w) :
    ∃ τ', (Node.loop false j a q u (.one (.block [copyStmt x s y t]))).den E τ .normal τ' ∧ (∀ z, z ≠ j → z ≠ y → τ' z = τ z) ∧
      (∀ v ∈ vs, τ' y (t.map ((τ.setS j v).ev E)) = τ x (s.map ((τ.setS j v).ev E))) ∧
      ∀ l, (∀ v ∈ vs, l ≠ t.map ((τ.setS j v).ev E)) → τ' y l = τ y l := by
  have hnd := hI.distinct
  refine Exists.imp (fun τ' h => ⟨h.1, h.2.1, fun v hv => h.2.2.1 v (by rw [List.take_length]; exact hv), fun l hl => h.2.2.2 l fun v hv =>
    hl v (List.mem_of_mem_take hv)⟩) (loop_steps (m := false) (s := .one (.block [copyStmt x s y t]))
    (P := fun n τ' => (∀ z, z ≠ j → z ≠ y → τ' z = τ z) ∧ (∀ v ∈ vs.take n, τ' y (t.map ((τ.setS j v).ev E)) = τ x (s.map ((τ.setS j v).ev E))) ∧
      ∀ l, (∀ v ∈ vs.take n, l ≠ t.map ((τ.setS j v).ev E)) → τ' y l = τ y l) hI ha ?_ ?_ ?_ τ ⟨fun _ _ _ => rfl, by simp, fun _ _ => rfl⟩)
  · intro n τ' z _ hP hz hzj
    rw [hP.1 z hzj (hy z (by rcases hz with h | h | h <;> simp [h]))]
  · intro n τ' b hP
    refine ⟨fun z h1 h2 => by rw [St.setS_other _ _ h1]; exact hP.1 z h1 h2, ?_, ?_⟩
    · rw [St.setS_other _ _ (Ne.symm hjy)]; exact hP.2.1
    · rw [St.setS_other _ _ (Ne.symm hjy)]; exact hP.2.2
  · intro n hn τ1 hP hj
    have hat : ∀ z, z ≠ y → τ1 z [] = (τ.setS j vs[n]) z [] := by
      intro z hz
      by_cases e : z = j
      · subst e; rw [St.setS_same]; exact hj
      · rw [St.setS_other _ _ e, hP.1 z e hz]
    have hev : ∀ l : List Expr, (∀ z ∈ Expr.atomsL l, z ≠ y) → l.map (τ1.ev E) = l.map ((τ.setS j vs[n]).ev E) := fun l hl =>
      List.map_congr_left fun e he => St.ev_congr E fun z hz => hat z (hl z ((Expr.mem_atomsL z l).2 ⟨e, he, hz⟩))
    refine ⟨.normal, τ1.set y (t.map ((τ.setS j vs[n]).ev E)) (τ x (s.map ((τ.setS j vs[n]).ev E))), Or.inl rfl, ?_, ⟨fun z h1 h2 => ?_, ?_, ?_⟩, ?_⟩
    · rw [Seq.one, one_child_den, Node.den]
      refine ⟨rfl, ?_⟩
      show _ = τ1.set y (t.map (τ1.ev E)) (E.op "assign" [τ1 x (s.map (τ1.ev E))])
      rw [hop, hev t fun z hz => hy z (Or.inr (Or.inr (Or.inr (Or.inr hz)))), hev s fun z hz => hy z (Or.inr (Or.inr (Or.inr (Or.inl hz)))), hP.1 x (Ne.symm hjx) hxy]
    · rw [St.set_other _ _ _ h2]; exact hP.1 z h1 h2
    · intro v hv
      rw [List.take_succ_eq_append_getElem hn, List.mem_append, List.mem_singleton] at hv
      by_cases e : v = vs[n]
      · subst e; simp [St.set]
      · have hv := hv.resolve_right e
        have : t.map ((τ.setS j v).ev E) ≠ t.map ((τ.setS j vs[n]).ev E) := fun e' => e (hinj v (List.mem_of_mem_take hv) _ (List.getElem_mem hn) e')
        simp only [St.set, this, and_false, if_false]
        exact hP.2.1 v hv
    · intro l hl
      rw [List.take_succ_eq_append_getElem hn] at hl
      have : l ≠ t.map ((τ.setS j vs[n]).ev E) := hl _ (List.mem_append.2 (Or.inr (List.mem_singleton.2 rfl)))
      simp only [St.set, this, and_false, if_false]
      exact hP.2.2 l fun v hv => hl v (List.mem_append.2 (Or.inl hv))
    · simp only [St.at]; rw [St.set_other _ _ _ hjy]; exact hj

/-- a fresh loop variable does not change the iterations -/
theorem Iters.fresh {E : Env} {i j : String} {k : Cond} {u : Expr} {σ τ : St} {v : Int} {vs : List Int} {e : Int} (h : Iters E i k u σ v vs e)
    (hj : j ∉ k.atoms ∧ j ∉ u.atoms) (hs : ∀ z, z ∈ k.atoms ∨ z ∈ u.atoms → z ≠ i → σ z [] = τ z []) :
    Iters E j (k.subs (.sym i) (.sym j)) (u.subs (.sym i) (.sym j)) τ v vs e := by
  have key : ∀ w : Int, Ren i j (fun z l => if z = i then (if l = [] then w else τ j l) else τ z l) (τ.setS j w) := by
    intro w
    refine ⟨fun z h1 h2 => ?_, ?_⟩
    · rw [St.setS_other _ _ h2]; simp [h1]
    · funext l; simp [St.setS, St.set]
  have hc : ∀ w, (σ.setS i w).cond E k = (τ.setS j w).cond E (k.subs (.sym i) (.sym j)) := fun w => by
    rw [← (key w).cond hj.1]
    refine St.cond_congr E fun z hz => ?_
    by_cases e : z = i
    · subst e; simp [St.setS, St.set]
    · rw [St.setS_other _ _ e, hs z (Or.inl hz) e]; simp [e]
  have hu : ∀ w, (σ.setS i w).ev E u = (τ.setS j w).ev E (u.subs (.sym i) (.sym j)) := fun w => by
    rw [← (key w).ev hj.2]
    refine St.ev_congr E fun z hz => ?_
    by_cases e : z = i
    · subst e; simp [St.setS, St.set]
    · rw [St.setS_other _ _ e, hs z (Or.inr hz) e]; simp [e]
  clear hs
  induction h with
  | @done v hcc => exact .done (by rw [← hc]; exact hcc)
  | @step v vs e hcc _ ih => exact .step (by rw [← hc]; exact hcc) (by rw [← hu]; exact ih)

theorem subs_fresh {E : Env} {i j : String} {s : List Expr} {σ τ : St} (hj : j ∉ Expr.atomsL s) (hs : ∀ z ∈ Expr.atomsL s, z ≠ i → σ z [] = τ z []) (w : Int) :
    (s.map (Expr.subs · (.sym i) (.sym j))).map ((τ.setS j w).ev E) = s.map ((σ.setS i w).ev E) := by
  have key : Ren i j (fun z l => if z = i then (if l = [] then w else τ j l) else τ z l) (τ.setS j w) := by
    refine ⟨fun z h1 h2 => ?_, ?_⟩
    · rw [St.setS_other _ _ h2]; simp [h1]
    · funext l; simp [St.setS, St.set]
  rw [List.map_map]
  refine List.map_congr_left fun e he => ?_
  have hm : ∀ z ∈ e.atoms, z ∈ Expr.atomsL s := fun z hz => (Expr.mem_atomsL z s).2 ⟨e, he, hz⟩
  simp only [Function.comp]
  rw [← key.ev fun h => hj (hm _ h)]
  refine St.ev_congr E fun z hz => ?_
  by_cases e' : z = i
  · subst e'; simp [St.setS, St.set]
  · rw [St.setS_other _ _ e', hs z (hm z hz) e']; simp [e']

/-! ### the transformed loop -/

/-- the iterations `vs` of the loop have their elements of `C` in the local array -/
structure InArray (C M j i : String) (σ0 : St) (g : Int → List Int) (vs : List Int) (K : List String) (σ τ : St) : Prop where
  other : ∀ z, z ≠ C → z ≠ M → z ≠ j → σ z = τ z
  here : ∀ v ∈ vs, σ C (g v) = τ M [v]
  rest : ∀ l, (∀ v ∈ vs, l ≠ g v) → σ C l = σ0 C l
  kept : τ C = σ0 C
  froz : ∀ y ∈ K, y ≠ i → σ y [] = σ0 y []

theorem AgreeOff.bis_of {E : Env} {X : String → Prop} (s : Seq) (h : ∀ x, X x → x ∉ s.names) : Rel.bis (AgreeOff X) (s.den E) (s.den E) :=
  Rel.bis_of_sim_symm (fun _ _ h x hx => (h x hx).symm) (s.agree_sim E X fun x hx hr => h x hx (s.users_names x (Or.inl hr)))

/-- one iteration -/
theorem array_body {E : Env} {C M j i : String} {s : List Expr} {body : Seq} {σ0 : St} {vs : List Int} {K : List String} {w : Int} (hCM : C ≠ M) (hCj : C ≠ j)
    (hp : ∀ u ∈ body.places C, u = s) (hl : C ∉ body.libs) (hw : ∀ y, y ∈ K ∨ y = i → y ∉ body.written) (hsK : ∀ y ∈ Expr.atomsL s, y ∈ K)
    (his : i ∈ Expr.atomsL s) (hCs : C ∉ Expr.atomsL s) (hr : body.returns = false) (hM : M ∉ body.names) (hj : j ∉ body.names) (hMj : M ≠ j)
    (hjK : j ∉ K) (hji : j ≠ i) (hMi : M ≠ i)
    (hinj : ∀ v ∈ vs, ∀ w ∈ vs, s.map ((σ0.setS i v).ev E) = s.map ((σ0.setS i w).ev E) → v = w) (hwv : w ∈ vs) {σ τ : St}
    (h : InArray C M j i σ0 (fun v => s.map ((σ0.setS i v).ev E)) vs K σ τ) (hi : σ i [] = w) :
    Rel.BisAt (fun σ' τ' => InArray C M j i σ0 (fun v => s.map ((σ0.setS i v).ev E)) vs K σ' τ' ∧ σ' i [] = w) (body.den E)
      (((body.clearTo C [.sym i]).replace C (.sym M)).den E) σ τ := by
  have hCi : C ≠ i := fun e => hCs (e ▸ his)
  have hsame : ∀ y ∈ Expr.atomsL s, σ y [] = (σ0.setS i w) y [] := by
    intro y hy
    by_cases e : y = i
    · subst e; rw [St.setS_same]; exact hi
    · rw [St.setS_other _ _ e, h.froz y (hsK y hy) e]
  have P : PlaceOk E C (s.map ((σ0.setS i w).ev E)) [w] (Expr.atomsL s) (fun y => σ y []) s [.sym i] := by
    refine ⟨fun σ' hσ' => List.map_congr_left fun e he => St.ev_congr E fun y hy => ?_, fun σ' hσ' => ?_, fun e => ?_, hCs⟩
    · have hm := (Expr.mem_atomsL y s).2 ⟨e, he, hy⟩
      rw [hσ' y hm, hsame y hm]
    · simp only [List.map_cons, List.map_nil, St.ev_sym, hσ' i his, hi]
    · rw [e] at his; simp [Expr.atomsL] at his
  have b0 : Rel.bis (AgreeOff (· = j)) (body.den E) (body.den E) := AgreeOff.bis_of body fun x hx => hx ▸ hj
  have b1 : Rel.bis (Moved C (s.map ((σ0.setS i w).ev E)) [w] (σ C) (τ M) (Expr.atomsL s) (fun y => σ y [])) (body.den E) ((body.clearTo C [.sym i]).den E) :=
    body.clear_bis P hp hl fun y hy => hw y (Or.inl (hsK y hy))
  have hM' : M ∉ (body.clearTo C [.sym i]).names := fun h => (body.clearTo_names h).elim hM (by simp [Expr.atomsL, Expr.atoms, hMi])
  have b2 := (body.clearTo C [.sym i]).rename_bis E C M hCM hM' (by rw [body.clearTo_rets C [.sym i] hr]; simp)
  have hk := (body.clearTo C [.sym i]).unwritten_ren hCM
  have b := Rel.bis_comp b0 (Rel.bis_comp b1 b2)
  have hyj : ∀ y ∈ Expr.atomsL s, y ≠ j := fun y hy e => hjK (e ▸ hsK y hy)
  have start : ∃ μ, AgreeOff (· = j) σ μ ∧ ∃ ν, Moved C (s.map ((σ0.setS i w).ev E)) [w] (σ C) (τ M) (Expr.atomsL s) (fun y => σ y []) μ ν ∧ Ren C M ν τ := by
    refine ⟨fun z => if z = j then τ j else σ z, fun z hz => by simp [hz], fun z => if z = C then τ M else if z = j then τ j else σ z,
      ⟨fun z hz => by simp [hz], ?_, fun l _ => by simp [hCj], fun l _ => by simp, fun y hy => by simp [hyj y hy]⟩, fun z h1 h2 => ?_, by simp⟩
    · simp only [if_neg hCj, if_true]; exact h.here w hwv
    · by_cases e : z = j
      · simp only [if_neg h1, if_pos e]; rw [e]
      · simp only [if_neg h1, if_neg e]; exact h.other z h1 h2 e
  have fin : ∀ c σ' τ', body.den E σ c σ' → ((body.clearTo C [.sym i]).replace C (.sym M)).den E τ c τ' →
      (∃ μ, AgreeOff (· = j) σ' μ ∧ ∃ ν, Moved C (s.map ((σ0.setS i w).ev E)) [w] (σ C) (τ M) (Expr.atomsL s) (fun y => σ y []) μ ν ∧ Ren C M ν τ') →
      InArray C M j i σ0 (fun v => s.map ((σ0.setS i v).ev E)) vs K σ' τ' ∧ σ' i [] = w := by
    rintro c σ' τ' d1 d2 ⟨μ, h0, ν, h1, h2⟩
    refine ⟨⟨fun z a b c => ?_, fun v hv => ?_, fun l hl => ?_, ?_, fun y hy hyi => ?_⟩, ?_⟩
    · rw [h0 z c, h1.other z a, h2.1 z a b]
    · rw [h0 C hCj]
      by_cases e : v = w
      · subst e
        rw [h1.here, ← h2.2]
      · have hne : s.map ((σ0.setS i v).ev E) ≠ s.map ((σ0.setS i w).ev E) := fun e' => e (hinj v hv w hwv e')
        rw [h1.rest _ hne, ← h2.2, h1.away [v] (by simpa using e)]
        exact h.here v hv
    · rw [h0 C hCj, h1.rest l (hl w hwv)]
      exact h.rest l hl
    · rw [Seq.keeps E _ C hk d2]; exact h.kept
    · rw [Seq.keeps E _ y (hw y (Or.inl hy)) d1]; exact h.froz y hy hyi
    · rw [Seq.keeps E _ i (hw i (Or.inr rfl)) d1]; exact hi
  constructor
  · intro c σ' hd
    obtain ⟨τ', hd', hB⟩ := b.1 σ τ c σ' start hd
    exact ⟨τ', hd', fin c σ' τ' hd hd' hB⟩
  · intro c τ' hd
    obtain ⟨σ', hd', hB⟩ := b.2 τ σ c τ' start hd
    exact ⟨σ', hd', fin c σ' τ' hd' hd hB⟩

theorem ev_ren_other {E : Env} {C M : String} {e : Expr} (hC : C ∉ e.atoms) (hM : M ∉ e.atoms) (τ : St) : τ.ev E (e.subs (.sym C) (.sym M)) = τ.ev E e := by
  have : Ren C M (fun z => if z = C then τ M else τ z) τ := ⟨fun z h1 _ => by simp [h1], by simp⟩
  rw [← this.ev hM]
  exact St.ev_congr E fun z hz => by simp [show z ≠ C from fun e' => hC (e' ▸ hz)]

theorem cond_ren_other {E : Env} {C M : String} {e : Cond} (hC : C ∉ e.atoms) (hM : M ∉ e.atoms) (τ : St) : τ.cond E (e.subs (.sym C) (.sym M)) = τ.cond E e := by
  have : Ren C M (fun z => if z = C then τ M else τ z) τ := ⟨fun z h1 _ => by simp [h1], by simp⟩
  rw [← this.cond hM]
  exact St.cond_congr E fun z hz => by simp [show z ≠ C from fun e' => hC (e' ▸ hz)]

/-- the whole loop -/
theorem array_loop {E : Env} {C M j i : String} {s : List Expr} {m : Bool} {a : Expr} {cc : Cond} {u : Expr} {body : Seq} {σ0 : St} {vs : List Int}
    {e : Int} (hCM : C ≠ M) (hCj : C ≠ j)
    (hp : ∀ u ∈ body.places C, u = s) (hl : C ∉ body.libs)
    (hw : ∀ y, y ∈ cc.atoms ++ u.atoms ++ Expr.atomsL s → y ∉ body.written)
    (his : i ∈ Expr.atomsL s) (hCs : C ∉ Expr.atomsL s) (hCh : C ∉ a.atoms ++ cc.atoms ++ u.atoms) (hr : body.returns = false)
    (hM : M ∉ (Node.loop m i a cc u body).names) (hj : j ∉ (Node.loop m i a cc u body).names) (hMj : M ≠ j) (hMs : M ∉ Expr.atomsL s) (hjs : j ∉ Expr.atomsL s)
    (hinj : ∀ v ∈ vs, ∀ w ∈ vs, s.map ((σ0.setS i v).ev E) = s.map ((σ0.setS i w).ev E) → v = w)
    (hI : Iters E i cc u σ0 (σ0.ev E a) vs e) {σ τ : St}
    (h : InArray C M j i σ0 (fun v => s.map ((σ0.setS i v).ev E)) vs (cc.atoms ++ u.atoms ++ Expr.atomsL s) σ τ) (ha : σ.ev E a = σ0.ev E a) :
    Rel.BisAt (InArray C M j i σ0 (fun v => s.map ((σ0.setS i v).ev E)) vs (cc.atoms ++ u.atoms ++ Expr.atomsL s)) ((Node.loop m i a cc u body).den E)
      (((Node.loop m i a cc u (body.clearTo C [.sym i])).replace C (.sym M)).den E) σ τ := by
  have hCi : C ≠ i := fun e => hCs (e ▸ his)
  simp only [Node.names, List.mem_cons, List.mem_append, not_or] at hM hj
  simp only [List.mem_append, not_or] at hCh
  have hset : ∀ σ τ b, InArray C M j i σ0 (fun v => s.map ((σ0.setS i v).ev E)) vs (cc.atoms ++ u.atoms ++ Expr.atomsL s) σ τ →
      InArray C M j i σ0 (fun v => s.map ((σ0.setS i v).ev E)) vs (cc.atoms ++ u.atoms ++ Expr.atomsL s) (σ.setS i b) (τ.setS i b) := by
    intro σ τ b h
    refine ⟨fun z h1 h2 h3 => ?_, ?_, ?_, ?_, fun y hy hyi => ?_⟩
    · funext l; simp only [St.setS, St.set, h.other z h1 h2 h3]
    · rw [St.setS_other _ _ hCi, St.setS_other _ _ hM.1]; exact h.here
    · rw [St.setS_other _ _ hCi]; exact h.rest
    · rw [St.setS_other _ _ hCi]; exact h.kept
    · rw [St.setS_other _ _ hyi]; exact h.froz y hy hyi
  have hnj : ∀ z, (z ∈ a.atoms ∨ z ∈ cc.atoms ∨ z ∈ u.atoms) → z ≠ C ∧ z ≠ M ∧ z ≠ j := by
    intro z hz
    refine ⟨?_, ?_, ?_⟩ <;> rintro rfl
    · rcases hz with h | h | h
      · exact hCh.1.1 h
      · exact hCh.1.2 h
      · exact hCh.2 h
    · rcases hz with h | h | h
      · exact hM.2.1.1.1 h
      · exact hM.2.1.1.2 h
      · exact hM.2.1.2 h
    · rcases hz with h | h | h
      · exact hj.2.1.1.1 h
      · exact hj.2.1.1.2 h
      · exact hj.2.1.2 h
  have hhd : ∀ σ τ, InArray C M j i σ0 (fun v => s.map ((σ0.setS i v).ev E)) vs (cc.atoms ++ u.atoms ++ Expr.atomsL s) σ τ →
      σ.cond E cc = τ.cond E cc ∧ σ.ev E u = τ.ev E u ∧ σ.ev E a = τ.ev E a ∧ σ.cond E cc = (σ0.setS i (σ i [])).cond E cc ∧ σ.ev E u = (σ0.setS i (σ i [])).ev E u := by
    intro σ τ h
    have f1 : ∀ z, (z ∈ a.atoms ∨ z ∈ cc.atoms ∨ z ∈ u.atoms) → σ z [] = τ z [] := fun z hz => by
      obtain ⟨h1, h2, h3⟩ := hnj z hz; rw [h.other z h1 h2 h3]
    have f2 : ∀ z, z ∈ cc.atoms ∨ z ∈ u.atoms → σ z [] = (σ0.setS i (σ i [])) z [] := fun z hz => by
      by_cases e : z = i
      · rw [e, St.setS_same]
      · rw [St.setS_other _ _ e, h.froz z (by simp only [List.mem_append]; exact Or.inl hz) e]
    exact ⟨St.cond_congr E fun z hz => f1 z (Or.inr (Or.inl hz)), St.ev_congr E fun z hz => f1 z (Or.inr (Or.inr hz)), St.ev_congr E fun z hz => f1 z (Or.inl hz),
      St.cond_congr E fun z hz => f2 z (Or.inl hz), St.ev_congr E fun z hz => f2 z (Or.inr hz)⟩
  have hden : ((Node.loop m i a cc u (body.clearTo C [.sym i])).replace C (.sym M)).den E = fun τ => Rel.iter (fun τ => τ.cond E cc) (fun τ => τ.setS i (τ.ev E u))
      (((body.clearTo C [.sym i]).replace C (.sym M)).den E) (τ.setS i (τ.ev E a)) := by
    rw [Node.replace, Node.den, Rel.upd_seq, renameTo_other hCi.symm]
    simp only [ev_ren_other hCh.1.1 hM.2.1.1.1, cond_ren_other hCh.1.2 hM.2.1.1.2, ev_ren_other hCh.2 hM.2.1.2]
  have hden0 : (Node.loop m i a cc u body).den E = fun σ => Rel.iter (fun τ => τ.cond E cc) (fun τ => τ.setS i (τ.ev E u)) (body.den E) (σ.setS i (σ.ev E a)) := by
    rw [Node.den, Rel.upd_seq]
  have hc := hI.conds
  have hnx := hI.next
  have := Rel.iter_bisAt (b := fun τ => τ.cond E cc) (b' := fun τ => τ.cond E cc) (u := fun τ => τ.setS i (τ.ev E u)) (u' := fun τ => τ.setS i (τ.ev E u))
    (R := body.den E) (R' := ((body.clearTo C [.sym i]).replace C (.sym M)).den E)
    (A := fun σ τ => InArray C M j i σ0 (fun v => s.map ((σ0.setS i v).ev E)) vs (cc.atoms ++ u.atoms ++ Expr.atomsL s) σ τ ∧ (σ i [] ∈ vs ∨ σ i [] = e))
    (B := fun σ τ => InArray C M j i σ0 (fun v => s.map ((σ0.setS i v).ev E)) vs (cc.atoms ++ u.atoms ++ Expr.atomsL s) σ τ ∧ σ i [] ∈ vs)
    (F := InArray C M j i σ0 (fun v => s.map ((σ0.setS i v).ev E)) vs (cc.atoms ++ u.atoms ++ Expr.atomsL s))
    (fun σ τ h => (hhd σ τ h.1).1) ?_ ?_ (fun _ _ h => h.1) (fun _ _ h => h.1)
    (σ := σ.setS i (σ.ev E a)) (τ := τ.setS i (τ.ev E a)) ?_
  · rw [hden, hden0]; exact this
  · rintro σ τ ⟨h, hi⟩ hb
    have hiv : σ i [] ∈ vs := by
      refine hi.resolve_right fun he => ?_
      have hb' : (σ0.setS i (σ i [])).cond E cc = true := by rw [← (hhd σ τ h).2.2.2.1]; exact hb
      rw [he, hc.2] at hb'
      cases hb'
    have hb := array_body hCM hCj hp hl (fun y hy => hw y (by
      rcases hy with hy | hy
      · exact hy
      · rw [hy]; simp only [List.mem_append]; exact Or.inr his)) (fun y hy => List.mem_append.2 (Or.inr hy)) his hCs hr hM.2.2 hj.2.2 hMj
      (by simp only [List.mem_append, not_or]; exact ⟨⟨hj.2.1.1.2, hj.2.1.2⟩, hjs⟩) hj.1 hM.1 hinj hiv h rfl
    exact ⟨fun c σ' hd => Exists.imp (fun τ' h => ⟨h.1, h.2.1, by rw [h.2.2]; exact hiv⟩) (hb.1 c σ' hd),
      fun c τ' hd => Exists.imp (fun σ' h => ⟨h.1, h.2.1, by rw [h.2.2]; exact hiv⟩) (hb.2 c τ' hd)⟩
  · rintro σ τ ⟨h, hi⟩
    obtain ⟨_, h2, _, _, h5⟩ := hhd σ τ h
    rw [← h2]
    refine ⟨hset _ _ _ h, ?_⟩
    rw [St.setS_same, h5]
    exact hnx.2 _ hi
  · obtain ⟨_, _, h3, _⟩ := hhd σ τ h
    rw [← h3]
    refine ⟨hset _ _ _ h, ?_⟩
    rw [St.setS_same, ha]
    exact hnx.1

theorem runTrans_three {E : Env} {X : String → Prop} : ∀ (t : Trans), (∀ z, X z → z ∉ t.flatMap (fun a => a.2.atoms)) → ∀ σ τ : St,
    (∀ z, ¬ X z → σ z = τ z) → ∀ z, ¬ X z → runTrans E t σ z = runTrans E t τ z
  | [], _, _, _, h => h
  | a :: t, hX, σ, τ, h => by
    simp only [List.flatMap_cons, List.mem_append, not_or] at hX
    refine runTrans_three t (fun z hz => (hX z hz).2) _ _ fun z hz => ?_
    have : σ.ev E a.2 = τ.ev E a.2 := St.ev_congr E fun y hy => by rw [h y fun hx => (hX y hx).1 hy]
    funext l
    simp only [St.setS, St.set, this, h z hz]

/-- copy in, loop, transition, copy out -/
theorem array_storage {E : Env} (hop : ∀ v, E.op "assign" [v] = v) {C M j i : String} {s : List Expr} {m : Bool} {a : Expr} {cc : Cond} {u : Expr} {body : Seq} {t : Trans}
    {σ : St} {vs : List Int} {e : Int} (hCM : C ≠ M) (hCj : C ≠ j) (hMj : M ≠ j)
    (hp : ∀ u ∈ body.places C, u = s) (hl : C ∉ body.libs)
    (hw : ∀ y, y ∈ a.atoms ++ cc.atoms ++ u.atoms ++ Expr.atomsL s → y ∉ body.written) (hia : i ∉ a.atoms)
    (his : i ∈ Expr.atomsL s) (hCs : C ∉ Expr.atomsL s) (hCh : C ∉ a.atoms ++ cc.atoms ++ u.atoms) (hr : body.returns = false)
    (hM : M ∉ (Node.loop m i a cc u body).names) (hj : j ∉ (Node.loop m i a cc u body).names) (hMs : M ∉ Expr.atomsL s) (hjs : j ∉ Expr.atomsL s)
    (ht : ∀ z, z = C ∨ z = M ∨ z = j → z ∉ t.map (·.1) ∧ z ∉ t.flatMap (fun a => a.2.atoms))
    (hts : ∀ y, y ∈ a.atoms ++ cc.atoms ++ u.atoms ++ Expr.atomsL s → y ≠ i → y ∉ t.map (·.1))
    (hinj : ∀ v ∈ vs, ∀ w ∈ vs, s.map ((σ.setS i v).ev E) = s.map ((σ.setS i w).ev E) → v = w)
    (hI : Iters E i cc u σ (σ.ev E a) vs e) {τ : St} (h : ∀ z, z ≠ M → z ≠ j → σ z = τ z) :
    Rel.BisAt (fun σ τ => ∀ z, z ≠ M → z ≠ j → σ z = τ z) ((Seq.cons (.loop m i a cc u body) t .nil).den E)
      ((olsArray C M j s m i a cc u body t).den E) σ τ := by
  have hM0 := hM
  have hj0 := hj
  simp only [Node.names, List.mem_cons, List.mem_append, not_or] at hM hj
  have hCh0 := hCh
  simp only [List.mem_append, not_or] at hCh
  have hCi : C ≠ i := fun e => hCs (e ▸ his)
  have inj1 : ∀ {τ' : St} {v w : Int}, [Expr.sym j].map ((τ'.setS j v).ev E) = [Expr.sym j].map ((τ'.setS j w).ev E) → v = w := by
    intro τ' v w h
    simpa only [List.map_cons, List.map_nil, St.ev_sym, St.setS_same, List.cons.injEq, and_true] using h
  have val1 : ∀ (τ' : St) (v : Int), [Expr.sym j].map ((τ'.setS j v).ev E) = [v] := by
    intro τ' v; simp only [List.map_cons, List.map_nil, St.ev_sym, St.setS_same]
  have hnot : ∀ z, (z ∈ a.atoms ∨ z ∈ (cc.subs (.sym i) (.sym j)).atoms ∨ z ∈ (u.subs (.sym i) (.sym j)).atoms ∨ z = j ∨ z ∈ Expr.atomsL (s.map (Expr.subs · (.sym i) (.sym j)))) →
      z ≠ M ∧ z ≠ C := by
    intro z hz
    rcases hz with h | h | h | h | h
    · exact ⟨fun e => hM.2.1.1.1 (e ▸ h), fun e => hCh.1.1 (e ▸ h)⟩
    · rcases Cond.atoms_ren _ _ _ _ h with h | h
      · exact ⟨fun e => hM.2.1.1.2 (e ▸ h), fun e => hCh.1.2 (e ▸ h)⟩
      · rw [h]; exact ⟨hMj.symm, hCj.symm⟩
    · rcases Expr.atoms_ren _ _ _ _ h with h | h
      · exact ⟨fun e => hM.2.1.2 (e ▸ h), fun e => hCh.2 (e ▸ h)⟩
      · rw [h]; exact ⟨hMj.symm, hCj.symm⟩
    · rw [h]; exact ⟨hMj.symm, hCj.symm⟩
    · rcases atomsMap_ren _ _ _ _ h with h | h
      · exact ⟨fun e => hMs (e ▸ h), fun e => hCs (e ▸ h)⟩
      · rw [h]; exact ⟨hMj.symm, hCj.symm⟩
  have symj : ∀ z, z ∈ Expr.atomsL [Expr.sym j] → z = j := fun z hz => by simpa [Expr.atomsL, Expr.atoms] using hz
  have hna : ∀ z, z ∈ a.atoms ∨ z ∈ cc.atoms ∨ z ∈ u.atoms ∨ z ∈ Expr.atomsL s → z ≠ M ∧ z ≠ j := by
    intro z hz
    rcases hz with h | h | h | h
    · exact ⟨fun e => hM.2.1.1.1 (e ▸ h), fun e => hj.2.1.1.1 (e ▸ h)⟩
    · exact ⟨fun e => hM.2.1.1.2 (e ▸ h), fun e => hj.2.1.1.2 (e ▸ h)⟩
    · exact ⟨fun e => hM.2.1.2 (e ▸ h), fun e => hj.2.1.2 (e ▸ h)⟩
    · exact ⟨fun e => hMs (e ▸ h), fun e => hjs (e ▸ h)⟩
  -- the first copy
  have hva : ∀ τ' : St, (∀ z, z ∈ a.atoms ∨ z ∈ cc.atoms ∨ z ∈ u.atoms ∨ z ∈ Expr.atomsL s → z ≠ i → σ z [] = τ' z []) →
      Iters E j (cc.subs (.sym i) (.sym j)) (u.subs (.sym i) (.sym j)) τ' (τ'.ev E a) vs e ∧
      ∀ w, (s.map (Expr.subs · (.sym i) (.sym j))).map ((τ'.setS j w).ev E) = s.map ((σ.setS i w).ev E) := by
    intro τ' h'
    refine ⟨?_, fun w => subs_fresh hjs (fun z hz => h' z (Or.inr (Or.inr (Or.inr hz)))) w⟩
    rw [show τ'.ev E a = σ.ev E a from (St.ev_congr E fun z hz => h' z (Or.inl hz) fun e => hia (e ▸ hz)).symm]
    exact hI.fresh ⟨hj.2.1.1.2, hj.2.1.2⟩ fun z hz => h' z (Or.inr (hz.imp id Or.inl))
  obtain ⟨hI1, hg1⟩ := hva τ fun z hz _ => by rw [h z (hna z hz).1 (hna z hz).2]
  obtain ⟨τ1, d1, o1, w1, _⟩ := copy_loop hop (x := C) (y := M) (s := s.map (Expr.subs · (.sym i) (.sym j))) (t := [.sym j]) hI1 hj.2.1.1.1 hCM hCj.symm hMj.symm
    (by
      intro z hz
      rcases hz with h | h | h | h | h
      · exact (hnot z (Or.inl h)).1
      · exact (hnot z (Or.inr (Or.inl h))).1
      · exact (hnot z (Or.inr (Or.inr (Or.inl h)))).1
      · exact (hnot z (Or.inr (Or.inr (Or.inr (Or.inr h))))).1
      · rw [symj z h]; exact hMj.symm) fun v _ w _ => inj1
  have h1 : InArray C M j i σ (fun v => s.map ((σ.setS i v).ev E)) vs (cc.atoms ++ u.atoms ++ Expr.atomsL s) σ τ1 := by
    refine ⟨fun z _ hz1 hz2 => ?_, fun v hv => ?_, fun _ _ => rfl, ?_, fun _ _ _ => rfl⟩
    · rw [o1 z hz2 hz1, h z hz1 hz2]
    · have := w1 v hv
      rw [val1, hg1 v] at this
      rw [this, h C hCM hCj]
    · rw [o1 C hCj hCM, h C hCM hCj]
  have hb := array_loop (m := m) hCM hCj hp hl (fun y hy => hw y (by
    simp only [List.mem_append] at hy ⊢
    rcases hy with (h | h) | h
    · exact Or.inl (Or.inl (Or.inr h))
    · exact Or.inl (Or.inr h)
    · exact Or.inr h)) his hCs hCh0 hr hM0 hj0 hMj hMs hjs hinj hI h1 rfl
  have hdet := (copyLoop i j a cc u C (s.map (Expr.subs · (.sym i) (.sym j))) M [.sym j]).den_det E
  -- the last copy
  have fin : ∀ c σ2 τ2, (Node.loop m i a cc u body).den E σ c σ2 →
      InArray C M j i σ (fun v => s.map ((σ.setS i v).ev E)) vs (cc.atoms ++ u.atoms ++ Expr.atomsL s) σ2 τ2 →
      ∃ τ4, (copyLoop i j a cc u M [.sym j] C (s.map (Expr.subs · (.sym i) (.sym j)))).den E (runTrans E t τ2) .normal τ4 ∧
        ∀ z, z ≠ M → z ≠ j → runTrans E t σ2 z = τ4 z := by
    intro c σ2 τ2 d2 h2
    have h3 := runTrans_three (E := E) (X := fun z => z = C ∨ z = M ∨ z = j) t (fun z hz => (ht z hz).2) σ2 τ2
      fun z hz => h2.other z (fun e => hz (Or.inl e)) (fun e => hz (Or.inr (Or.inl e))) (fun e => hz (Or.inr (Or.inr e)))
    have hfz : ∀ z, z ∈ a.atoms ∨ z ∈ cc.atoms ∨ z ∈ u.atoms ∨ z ∈ Expr.atomsL s → z ≠ i → σ z [] = runTrans E t τ2 z [] := by
      intro z hz hzi
      have hzm : z ∈ a.atoms ++ cc.atoms ++ u.atoms ++ Expr.atomsL s := by
        simp only [List.mem_append]
        rcases hz with h | h | h | h
        · exact Or.inl (Or.inl (Or.inl h))
        · exact Or.inl (Or.inl (Or.inr h))
        · exact Or.inl (Or.inr h)
        · exact Or.inr h
      have hzC : z ≠ C := by
        rintro rfl
        rcases hz with h | h | h | h
        · exact hCh.1.1 h
        · exact hCh.1.2 h
        · exact hCh.2 h
        · exact hCs h
      rw [runTrans_keeps t (hts z hzm hzi), ← h2.other z hzC (hna z hz).1 (hna z hz).2]
      rw [Node.keeps E _ z (by rw [Node.written, List.mem_cons, not_or]; exact ⟨hzi, hw z hzm⟩) d2]
    obtain ⟨hI2, hg2⟩ := hva _ hfz
    obtain ⟨τ4, d4, o4, w4, r4⟩ := copy_loop hop (x := M) (y := C) (s := [.sym j]) (t := s.map (Expr.subs · (.sym i) (.sym j))) hI2 hj.2.1.1.1 hCM.symm hMj.symm hCj.symm
      (by
        intro z hz
        rcases hz with h | h | h | h | h
        · exact (hnot z (Or.inl h)).2
        · exact (hnot z (Or.inr (Or.inl h))).2
        · exact (hnot z (Or.inr (Or.inr (Or.inl h)))).2
        · rw [symj z h]; exact hCj.symm
        · exact (hnot z (Or.inr (Or.inr (Or.inr (Or.inr h))))).2) (fun v hv w hw => by rw [hg2, hg2]; exact hinj v hv w hw)
    refine ⟨τ4, d4, fun z hz1 hz2 => ?_⟩
    by_cases hc : z = C
    · subst hc
      rw [runTrans_keeps t (ht z (Or.inl rfl)).1]
      funext l
      by_cases hex : ∃ v ∈ vs, l = s.map ((σ.setS i v).ev E)
      · obtain ⟨v, hv, rfl⟩ := hex
        have := w4 v hv
        rw [hg2, val1] at this
        rw [this, runTrans_keeps t (ht M (Or.inr (Or.inl rfl))).1]
        exact h2.here v hv
      · rw [r4 l fun v hv => by rw [hg2]; exact fun e => hex ⟨v, hv, e⟩, runTrans_keeps t (ht z (Or.inl rfl)).1, h2.kept]
        exact h2.rest l fun v hv e => hex ⟨v, hv, e⟩
    · rw [o4 z hz2 hc]
      exact h3 z fun hz => hz.elim hc fun hz => hz.elim hz1 hz2
  have den1 : (Seq.cons (.loop m i a cc u body) t .nil).den E = Rel.seq ((Node.loop m i a cc u body).den E) (Rel.upd (runTrans E t)) := by
    rw [Seq.den, Seq.den, Rel.seq_skip]
  have den2 : (olsArray C M j s m i a cc u body t).den E = Rel.seq ((copyLoop i j a cc u C (s.map (Expr.subs · (.sym i) (.sym j))) M [.sym j]).den E)
      (Rel.seq (((Node.loop m i a cc u (body.clearTo C [.sym i])).replace C (.sym M)).den E) fun τ => (copyLoop i j a cc u M [.sym j] C (s.map (Expr.subs · (.sym i) (.sym j)))).den E (runTrans E t τ)) := by
    rw [olsArray, Seq.den, Rel.upd_seq]
    rw [Seq.den, Rel.upd_seq, Seq.one, one_child_den]
    rfl
  have stays : ∀ (n : Node) (x y : String) (p q : List Expr) σ c σ', n = copyLoop i j a cc u x p y q → n.den E σ c σ' → c = .normal := by
    rintro n x y p q σ c σ' rfl hd
    exact loop_normal (by rfl) hd
  rw [den1, den2]
  constructor
  · intro c σ' hd
    rcases hd with ⟨σ2, hd, rfl, rfl⟩ | ⟨hc, hd⟩
    · obtain ⟨τ2, d2, h2⟩ := hb.1 _ _ hd
      obtain ⟨τ4, d4, h4⟩ := fin _ σ2 τ2 hd h2
      exact ⟨τ4, Or.inl ⟨τ1, d1, Or.inl ⟨τ2, d2, d4⟩⟩, h4⟩
    · exact absurd (loop_normal hr hd) hc
  · intro c τ' hd
    rcases hd with ⟨τ1', d1', hd⟩ | ⟨hc, hd⟩
    · obtain ⟨-, rfl⟩ := hdet _ _ _ _ _ d1 d1'
      rcases hd with ⟨τ2, d2, d4⟩ | ⟨hc, hd⟩
      · obtain ⟨σ2, hd, h2⟩ := hb.2 _ _ d2
        obtain ⟨τ4, d4', h4⟩ := fin _ σ2 τ2 hd h2
        obtain ⟨rfl, rfl⟩ := (copyLoop i j a cc u M [.sym j] C (s.map (Expr.subs · (.sym i) (.sym j)))).den_det E _ _ _ _ _ d4' d4
        exact ⟨_, Or.inl ⟨σ2, hd, rfl, rfl⟩, h4⟩
      · obtain ⟨σ2, hd', _⟩ := hb.2 _ _ hd
        exact absurd (loop_normal hr hd') hc
    · exact absurd (stays _ _ _ _ _ _ _ _ rfl hd) hc

end Docc.IR
