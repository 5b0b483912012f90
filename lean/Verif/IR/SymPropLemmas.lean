import Verif.IR.SymProp

/-! C75, lemmas: executions with a history of performed uses. -/
namespace Docc.IR
open Docc.Sym

/-- `x` has the value of `e` -/
def Eqv (E : Env) (x : String) (e : Expr) (σ : St) : Prop := e.eval (σ.val E) = .fin (σ x [])

theorem Eqv.ev {E : Env} {x : String} {e : Expr} {σ : St} (h : Eqv E x e σ) (d : Expr) : σ.ev E (d.subs (.sym x) e) = σ.ev E d :=
  (Subst.ev (σ := σ) (τ := σ) ⟨fun _ _ => rfl, h⟩ d).symm

theorem Eqv.cond {E : Env} {x : String} {e : Expr} {σ : St} (h : Eqv E x e σ) (c : Cond) : σ.cond E (c.subs (.sym x) e) = σ.cond E c := by
  unfold St.cond
  apply Cond.eval_subs
  · intro d; exact h.ev d
  · intro y _
    simp only [Cond.subs]
    split
    · rename_i hy
      cases hy
      cases e <;> try rfl
      rename_i z
      have h : (Expr.sym z).eval (σ.val E) = .fin (σ x []) := h
      rw [Expr.eval] at h
      have h' : σ z [] = σ x [] := by injection h
      simp only [Cond.eval, h']
    · rfl

theorem Eqv.keep {E : Env} {x : String} {e : Expr} {σ τ : St} (h : Eqv E x e σ) (hx : ∀ y ∈ x :: e.atoms, τ y = σ y) : Eqv E x e τ := by
  unfold Eqv at *
  rw [hx x (by simp), ← h]
  exact eval_congr_atoms e _ _ rfl fun z hz => by simp only [St.val, hx z (by simp [hz])]

theorem Brs.propC_den {E : Env} {x : String} {e : Expr} {σ : St} (h : Eqv E x e σ) : (b : Brs) → ∀ c τ, (b.propC x e).den E σ c τ ↔ b.den E σ c τ
  | .nil, _, _ => Iff.rfl
  | .cons d s r, c, τ => by
    rw [Brs.propC, Brs.den, Brs.den]
    simp only [Rel.ite, h.cond d]
    split
    · exact Iff.rfl
    · exact Brs.propC_den h r c τ

theorem propTrans_run {E : Env} {x : String} {e : Expr} : ∀ (t : Trans) {σ : St}, Eqv E x e σ → (∀ a ∈ t, a.1 ∉ x :: e.atoms) →
    runTrans E (propTrans x e t) σ = runTrans E t σ
  | [], _, _, _ => rfl
  | a :: t, σ, h, ha => by
    have h1 : Eqv E x e (σ.setS a.1 (σ.ev E a.2)) :=
      h.keep fun y hy => St.setS_other _ _ (fun he => ha a (by simp) (he ▸ hy))
    have := propTrans_run t h1 fun b hb => ha b (by simp [hb])
    unfold runTrans propTrans at *
    simp only [List.map_cons, List.foldl_cons, h.ev]
    exact this

theorem map_subs_ev {E : Env} {x : String} {e : Expr} {σ : St} (h : Eqv E x e σ) (l : List Expr) :
    (l.map fun d => d.subs (.sym x) e).map (σ.ev E) = l.map (σ.ev E) := by
  rw [List.map_map]; exact List.map_congr_left fun d _ => h.ev d

theorem propIns_vals {E : Env} {x : String} {e : Expr} {σ : St} (h : Eqv E x e σ) : ∀ (l : List (String × List Expr)) (j : Nat),
    (propIns x e l j).map (fun r => σ r.1 (r.2.map (σ.ev E))) = l.map fun r => σ r.1 (r.2.map (σ.ev E))
  | [], _ => rfl
  | m :: r, j => by
    rw [propIns]
    split
    · simp only [List.map_cons, map_subs_ev h]
    · simp only [List.map_cons, propIns_vals h r]

theorem propAcc_vals {E : Env} {x : String} {e : Expr} {σ : St} (h : Eqv E x e σ) (l : List (String × List Expr)) (j : Nat) :
    (propAcc x e l j).map (fun r => σ r.1 (r.2.map (σ.ev E))) = l.map fun r => σ r.1 (r.2.map (σ.ev E)) := by
  unfold propAcc
  cases e <;> try rfl
  rename_i z
  have h : (Expr.sym z).eval (σ.val E) = .fin (σ x []) := h
  rw [Expr.eval] at h
  have h' : σ z [] = σ x [] := by injection h
  apply List.ext_getElem?
  intro i
  simp only [List.getElem?_map, List.getElem?_modify]
  cases l[i]? with
  | none => rfl
  | some m =>
    simp only [Option.map_some]
    by_cases hj : j = i
    · simp only [hj, if_true]
      by_cases hm : m = (x, [])
      · subst hm; simp [h']
      · simp [hm]
    · simp [hj]

theorem Stmt.prop_run {E : Env} {x : String} {e : Expr} {σ : St} (h : Eqv E x e σ) (j : Nat) (s : Stmt) : (s.prop x e j).run E σ = s.run E σ := by
  cases s with
  | lib => rfl
  | tasklet op ins out sub =>
    rw [Stmt.prop]
    split
    · simp only [Stmt.run, propAcc_vals h]
    · split
      · simp only [Stmt.run, propIns_vals h]
      · simp only [Stmt.run, map_subs_ev h]

/-! ### invariants with a history -/

/-- if the last use of the history that concerns `x` and the symbols of `e` is the write `w`, then `x` has the value of `e` -/
def Avail (E : Env) (x : String) (e : Expr) (w : V) (h : List V) (σ : St) : Prop :=
  ∀ a b, h = a ++ w :: b → (∀ v ∈ b, ∀ y ∈ x :: e.atoms, v.wr y = false) → Eqv E x e σ

namespace TR
def Keeps (I : List V → St → Prop) (T : TR) : Prop := ∀ h σ l c τ, I h σ → T σ l (some (c, τ)) → I (h ++ l) τ

theorem keeps_jump {I : List V → St → Prop} {us : List V} {c : Ctl} (h : ∀ h σ, I h σ → I (h ++ us) σ) : Keeps I (jump us c) := by
  rintro p σ l k τ hI (⟨rfl, h'⟩ | ⟨_, h'⟩)
  · cases h'; exact h _ _ hI
  · cases h'

theorem keeps_emit {I : List V → St → Prop} {us : List V} {f : St → St} (h : ∀ h σ, I h σ → I (h ++ us) (f σ)) : Keeps I (emit us f) := by
  rintro p σ l k τ hI (⟨rfl, h'⟩ | ⟨_, h'⟩)
  · cases h'; exact h _ _ hI
  · cases h'

theorem keeps_seq {I : List V → St → Prop} {R S : TR} (h1 : Keeps I R) (h2 : Keeps I S) : Keeps I (seq R S) := by
  rintro h σ l c τ hI (⟨l1, l2, σ1, hr, hs, rfl⟩ | ⟨hr, _⟩)
  · have := h2 _ _ _ _ _ (h1 _ _ _ _ _ hI hr) hs
    rwa [List.append_assoc] at this
  · exact h1 _ _ _ _ _ hI hr

theorem keeps_ite {I : List V → St → Prop} {b : St → Bool} {R S : TR} (h1 : Keeps I R) (h2 : Keeps I S) : Keeps I (ite b R S) := by
  intro h σ l c τ hI hr
  rw [ite] at hr
  split at hr
  · exact h1 _ _ _ _ _ hI hr
  · exact h2 _ _ _ _ _ hI hr

theorem keeps_forever {I : List V → St → Prop} {R : TR} (h1 : Keeps I R) : Keeps I (forever R) := by
  intro h σ l c τ hI hr
  generalize ho : some (c, τ) = o at hr
  induction hr generalizing h with
  | cut => cases ho
  | step k hr _ _ ih =>
    have := ih (h ++ _) (h1 _ _ _ _ _ hI hr) ho
    rwa [List.append_assoc] at this
  | stop hr => cases ho; exact h1 _ _ _ _ _ hI hr
  | ret d q hr => cases ho; exact h1 _ _ _ _ _ hI hr

theorem keeps_iter {I : List V → St → Prop} {b : St → Bool} {u : St → St} {cs us : List V} {R : TR} (h1 : Keeps I R)
    (hc : ∀ h σ, I h σ → I (h ++ cs) σ) (hu : ∀ h σ, I h σ → I (h ++ us) (u σ)) : Keeps I (iter b u cs us R) := by
  intro h σ l c τ hI hr
  generalize ho : some (c, τ) = o at hr
  induction hr generalizing h with
  | cut => cases ho
  | done _ => cases ho; exact hc _ _ hI
  | cutBody => cases ho
  | cutUpd => cases ho
  | step k _ hr _ _ ih =>
    have := ih _ (hu _ _ (h1 _ _ _ _ _ (hc _ _ hI) hr)) ho
    simpa [List.append_assoc] using this
  | stop _ hr =>
    cases ho
    have := h1 _ _ _ _ _ (hc _ _ hI) hr
    simpa [List.append_assoc] using this
  | ret d q _ hr =>
    cases ho
    have := h1 _ _ _ _ _ (hc _ _ hI) hr
    simpa [List.append_assoc] using this

/-- From states that satisfy the invariant and where the program arrives, `R'` behaves like the original `T`. -/
def Same (I : List V → St → Prop) (Perf : List V → Prop) (R' : Rel) (T : TR) : Prop :=
  ∀ h σ, I h σ → (∀ l, T σ l none → Perf (h ++ l)) → ∀ c τ, R' σ c τ ↔ T.rel σ c τ

theorem same_jump {I : List V → St → Prop} {Perf : List V → Prop} (us : List V) (c : Ctl) : Same I Perf (Rel.exit c) (jump us c) := by
  intro h σ _ _ c τ
  rw [rel_jump]

theorem same_emit {I : List V → St → Prop} {Perf : List V → Prop} {us : List V} {f f' : St → St}
    (hf : ∀ h σ, I h σ → (∀ l, l <+: us → Perf (h ++ l)) → f' σ = f σ) : Same I Perf (Rel.upd f') (emit us f) := by
  intro h σ hI hP c τ
  rw [rel_emit]
  simp only [Rel.upd, hf h σ hI fun l hl => hP l (Or.inr ⟨hl, rfl⟩)]

theorem same_seq {I : List V → St → Prop} {Perf : List V → Prop} {R' S' : Rel} {R S : TR} (h1 : Same I Perf R' R) (hk : Keeps I R)
    (h2 : Same I Perf S' S) : Same I Perf (Rel.seq R' S') (seq R S) := by
  intro h σ hI hP c τ
  have e1 := h1 h σ hI fun l hl => hP l (Or.inr ⟨hl, by simp⟩)
  have e2 : ∀ σ1, R.rel σ .normal σ1 → ∀ c τ, S' σ1 c τ ↔ S.rel σ1 c τ := by
    rintro σ1 ⟨l1, hl1⟩
    refine h2 (h ++ l1) σ1 (hk _ _ _ _ _ hI hl1) fun l hl => ?_
    rw [List.append_assoc]
    exact hP _ (Or.inl ⟨l1, l, σ1, hl1, hl, rfl⟩)
  rw [rel_seq]
  simp only [Rel.seq]
  constructor
  · rintro (⟨σ1, ha, hb⟩ | ⟨hc, ha⟩)
    · have ha := (e1 _ _).1 ha
      exact Or.inl ⟨σ1, ha, (e2 σ1 ha _ _).1 hb⟩
    · exact Or.inr ⟨hc, (e1 _ _).1 ha⟩
  · rintro (⟨σ1, ha, hb⟩ | ⟨hc, ha⟩)
    · exact Or.inl ⟨σ1, (e1 _ _).2 ha, (e2 σ1 ha _ _).2 hb⟩
    · exact Or.inr ⟨hc, (e1 _ _).2 ha⟩

theorem same_ite {I : List V → St → Prop} {Perf : List V → Prop} {b : St → Bool} {R' S' : Rel} {R S : TR} (h1 : Same I Perf R' R)
    (h2 : Same I Perf S' S) : Same I Perf (Rel.ite b R' S') (ite b R S) := by
  intro h σ hI hP c τ
  rw [rel_ite]
  simp only [Rel.ite]
  by_cases hb : b σ = true
  · simp only [hb, if_true]
    exact h1 h σ hI (fun l hl => hP l (by simp only [ite, hb, if_true]; exact hl)) c τ
  · simp only [hb]
    exact h2 h σ hI (fun l hl => hP l (by simp only [ite, hb]; exact hl)) c τ

theorem same_forever {I : List V → St → Prop} {Perf : List V → Prop} {R' : Rel} {R : TR} (h1 : Same I Perf R' R) (hk : Keeps I R) :
    Same I Perf (Rel.forever R') (forever R) := by
  intro h σ hI hP c τ
  rw [rel_forever]
  have e1 : ∀ h σ, I h σ → (∀ l, forever R σ l none → Perf (h ++ l)) → ∀ c τ, R' σ c τ ↔ R.rel σ c τ :=
    fun h σ hI hP => h1 h σ hI fun l hl => hP l (.cut hl)
  have e2 : ∀ h σ l k σ1, I h σ → (∀ l, forever R σ l none → Perf (h ++ l)) → R σ l (some (k, σ1)) → (k = .normal ∨ k = .cont) →
      I (h ++ l) σ1 ∧ (∀ l', forever R σ1 l' none → Perf (h ++ l ++ l')) := fun h σ l k σ1 hI hP hr hk' =>
    ⟨hk _ _ _ _ _ hI hr, fun l' hl' => by rw [List.append_assoc]; exact hP _ (.step k hr hk' hl')⟩
  constructor
  · intro hr
    induction hr generalizing h with
    | step k hr hk' _ ih =>
      have hr := (e1 h _ hI hP _ _).1 hr
      obtain ⟨l, hl⟩ := hr
      obtain ⟨hI', hP'⟩ := e2 h _ _ _ _ hI hP hl hk'
      exact .step k ⟨l, hl⟩ hk' (ih _ hI' hP')
    | stop hr => exact .stop ((e1 h _ hI hP _ _).1 hr)
    | ret d q hr => exact .ret d q ((e1 h _ hI hP _ _).1 hr)
  · intro hr
    induction hr generalizing h with
    | step k hr hk' _ ih =>
      have hr' := (e1 h _ hI hP _ _).2 hr
      obtain ⟨l, hl⟩ := hr
      obtain ⟨hI', hP'⟩ := e2 h _ _ _ _ hI hP hl hk'
      exact .step k hr' hk' (ih _ hI' hP')
    | stop hr => exact .stop ((e1 h _ hI hP _ _).2 hr)
    | ret d q hr => exact .ret d q ((e1 h _ hI hP _ _).2 hr)

theorem same_iter {I : List V → St → Prop} {Perf : List V → Prop} {b b' : St → Bool} {u u' : St → St} {cs us : List V} {R' : Rel} {R : TR}
    (h1 : Same I Perf R' R) (hk : Keeps I R) (hc : ∀ h σ, I h σ → I (h ++ cs) σ) (hu : ∀ h σ, I h σ → I (h ++ us) (u σ))
    (hb : ∀ h σ, I h σ → (∀ l, l <+: cs → Perf (h ++ l)) → b' σ = b σ)
    (hu' : ∀ h σ, I h σ → (∀ l, l <+: us → Perf (h ++ l)) → u' σ = u σ) :
    Same I Perf (Rel.iter b' u' R') (iter b u cs us R) := by
  intro h σ hI hP c τ
  rw [rel_iter]
  have e0 : ∀ h σ, I h σ → (∀ l, iter b u cs us R σ l none → Perf (h ++ l)) → b' σ = b σ :=
    fun h σ hI hP => hb h σ hI fun l hl => hP l (.cut hl)
  have e1 : ∀ h σ, I h σ → (∀ l, iter b u cs us R σ l none → Perf (h ++ l)) → b σ = true → ∀ c τ, R' σ c τ ↔ R.rel σ c τ :=
    fun h σ hI hP hb => h1 (h ++ cs) σ (hc _ _ hI) fun l hl => by rw [List.append_assoc]; exact hP _ (.cutBody hb hl)
  have e2 : ∀ h σ l k σ1, I h σ → (∀ l, iter b u cs us R σ l none → Perf (h ++ l)) → b σ = true → R σ l (some (k, σ1)) →
      (k = .normal ∨ k = .cont) → u' σ1 = u σ1 ∧ I (h ++ (cs ++ (l ++ us))) (u σ1) ∧
        (∀ l', iter b u cs us R (u σ1) l' none → Perf (h ++ (cs ++ (l ++ us)) ++ l')) := fun h σ l k σ1 hI hP hb hr hk' => by
    have hI1 : I (h ++ (cs ++ l)) σ1 := by
      have := hk _ _ _ _ _ (hc _ _ hI) hr
      rwa [List.append_assoc] at this
    refine ⟨hu' _ _ hI1 fun l' hl' => ?_, ?_, fun l' hl' => ?_⟩
    · have := hP _ (.cutUpd k hb hr hk' hl')
      simpa [List.append_assoc] using this
    · have := hu _ _ hI1
      simpa [List.append_assoc] using this
    · have := hP _ (.step k hb hr hk' hl')
      simpa [List.append_assoc] using this
  constructor
  · intro hr
    induction hr generalizing h with
    | done hf => exact .done ((e0 h _ hI hP).symm.trans hf)
    | step k hf hr hk' hr2 ih =>
      have hf := (e0 h _ hI hP).symm.trans hf
      have hr := (e1 h _ hI hP hf _ _).1 hr
      obtain ⟨l, hl⟩ := hr
      obtain ⟨hU, hI', hP'⟩ := e2 h _ _ _ _ hI hP hf hl hk'
      rw [hU] at ih
      exact .step k hf ⟨l, hl⟩ hk' (ih _ hI' hP')
    | stop hf hr =>
      have hf := (e0 h _ hI hP).symm.trans hf
      exact .stop hf ((e1 h _ hI hP hf _ _).1 hr)
    | ret d q hf hr =>
      have hf := (e0 h _ hI hP).symm.trans hf
      exact .ret d q hf ((e1 h _ hI hP hf _ _).1 hr)
  · intro hr
    induction hr generalizing h with
    | done hf => exact .done ((e0 h _ hI hP).trans hf)
    | step k hf hr hk' hr2 ih =>
      have hr' := (e1 h _ hI hP hf _ _).2 hr
      obtain ⟨l, hl⟩ := hr
      obtain ⟨hU, hI', hP'⟩ := e2 h _ _ _ _ hI hP hf hl hk'
      refine .step k ((e0 h _ hI hP).trans hf) hr' hk' ?_
      rw [hU]
      exact ih _ hI' hP'
    | stop hf hr => exact .stop ((e0 h _ hI hP).trans hf) ((e1 h _ hI hP hf _ _).2 hr)
    | ret d q hf hr => exact .ret d q ((e0 h _ hI hP).trans hf) ((e1 h _ hI hP hf _ _).2 hr)
end TR

end Docc.IR
