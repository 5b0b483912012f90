import Verif.IR.Skew
import Verif.IR.LoopNormProps

/-
C21: LoopSkewing.
-/
namespace Docc.IR
open Docc.Sym

/-- the states agree except for one variable -/
abbrev EqOff (j : String) (σ τ : St) : Prop := ∀ z, z ≠ j → σ z = τ z

/-- a loop related to one with a substituted body -/
theorem loop_subst_bis {E : Env} {m : Bool} {j : String} {r : Expr} {a a' : Expr} {k k' : Cond} {u u' : Expr} {s : Seq}
    (ha : ∀ σ τ : St, EqOff j σ τ → r.eval ((τ.setS j (τ.ev E a')).val E) = .fin (σ.ev E a))
    (hk : ∀ σ τ, Subst E j r σ τ → σ.cond E k = τ.cond E k')
    (hu : ∀ σ τ, Subst E j r σ τ → r.eval ((τ.setS j (τ.ev E u')).val E) = .fin (σ.ev E u))
    (hs : Rel.bis (Subst E j r) (s.den E) ((s.replace j r).den E)) :
    Rel.bis (EqOff j) ((Node.loop m j a k u s).den E) ((Node.loop m j a' k' u' (s.replace j r)).den E) := by
  have hb := Rel.iter_bis (u := fun σ => σ.setS j (σ.ev E u)) (u' := fun σ => σ.setS j (σ.ev E u')) hk
    (fun σ τ h => Subst.setI h.1 (hu σ τ h)) hs
  rw [Node.den, Node.den, Rel.upd_seq, Rel.upd_seq]
  refine ⟨fun σ τ c σ' hag h => ?_, fun τ σ c τ' hag h => ?_⟩
  · obtain ⟨τ', h1, h2⟩ := hb.1 _ _ c σ' (Subst.setI hag (ha σ τ hag)) h
    exact ⟨τ', h1, h2.1⟩
  · obtain ⟨σ', h1, h2⟩ := hb.2 _ _ c τ' (Subst.setI hag (ha σ τ hag)) h
    exact ⟨σ', h1, h2.1⟩

theorem EqOff.ev {E : Env} {j : String} {σ τ : St} (h : EqOff j σ τ) {e : Expr} (he : j ∉ e.atoms) : σ.ev E e = τ.ev E e :=
  St.ev_congr E fun x hx => by rw [h x fun hj : x = j => he (hj ▸ hx)]
theorem EqOff.cond {E : Env} {j : String} {σ τ : St} (h : EqOff j σ τ) {c : Cond} (he : j ∉ c.atoms) : σ.cond E c = τ.cond E c :=
  St.cond_congr E fun x hx => by rw [h x fun hj : x = j => he (hj ▸ hx)]

/-- a loop whose body keeps agreement off `j`, and whose header does not use `j` -/
theorem loop_off_bis {E : Env} {m : Bool} {i j : String} {a : Expr} {k : Cond} {u : Expr} {s s' : Seq} (ha : j ∉ a.atoms)
    (hk : j ∉ k.atoms) (hu : j ∉ u.atoms) (hs : Rel.bis (EqOff j) (s.den E) (s'.den E)) :
    Rel.bis (EqOff j) ((Node.loop m i a k u s).den E) ((Node.loop m i a k u s').den E) := by
  have hset : ∀ (σ τ : St) (e : Expr), j ∉ e.atoms → EqOff j σ τ → EqOff j (σ.setS i (σ.ev E e)) (τ.setS i (τ.ev E e)) := by
    intro σ τ e he h z hz
    rw [h.ev he]
    by_cases hzi : z = i
    · subst hzi; funext w; simp only [St.setS, St.set, h z hz]
    · rw [St.setS_other _ _ hzi, St.setS_other _ _ hzi, h z hz]
  rw [Node.den, Node.den]
  exact Rel.seq_bis (Rel.upd_bis fun σ τ h => hset σ τ a ha h)
    (Rel.iter_bis (fun σ τ h => h.cond hk) (fun σ τ h => hset σ τ u hu h) hs)

/-- What skewing relies on: the inner update adds a constant; the inner loop variable is an integer used only in memlet subsets,
not in the headers of the outer loop nor in the inner initial value; and the body changes neither of the loop variables nor the
symbols of the outer initial value. -/
structure SkewOk (E : Env) (i : String) (ai : Expr) (ci : Cond) (ui : Expr) (j : String) (aj : Expr) (cj : Cond) (uj : Expr) (s : Seq)
    (d : Int) : Prop where
  step : ∀ τ : St, τ.ev E uj = τ j [] + d
  ne : i ≠ j
  outer : j ∉ ai.atoms ∧ j ∉ ci.atoms ∧ j ∉ ui.atoms
  inner : j ∉ aj.atoms ∧ j ∉ cj.boolSyms
  memlets : j ∉ s.accessed ∧ j ∉ s.boolSyms
  keep : ∀ x ∈ s.written, x ≠ j ∧ x ≠ i ∧ x ∉ ai.atoms
  def1 : ∀ τ : St, τ.defd E ai
  def2 : ∀ τ : St, τ.defd E aj

/-- **C21** (partial): under `SkewOk` the skewed nest has the same outcomes and final states as the original, except for the inner loop
variable: the body runs for the same index pairs in the same order.  Missing: what `SkewOk` asks beyond `can_be_applied` (see the
`_violated` theorems) and the final value of the inner loop variable. -/
theorem skew_partial (E : Env) (k : Int) (m mj : Bool) (i : String) (ai : Expr) (ci : Cond) (ui : Expr) (j : String) (aj : Expr) (cj : Cond)
    (uj : Expr) (s : Seq) (t : Trans) (r : Seq) (d : Int) (hc : canSkew k i (.cons (.loop mj j aj cj uj s) t r) = true)
    (hok : SkewOk E i ai ci ui j aj cj uj s d) (σ : St) :
    SameOff j σ ((Node.loop m i ai ci ui (.cons (.loop mj j aj cj uj s) t r)).den E)
      ((skew k m i ai ci ui (.cons (.loop mj j aj cj uj s) t r)).den E) := by
  obtain ⟨rfl, rfl⟩ : t = [] ∧ r = .nil := by
    simp only [canSkew, Bool.and_eq_true] at hc
    obtain ⟨_, hc⟩ := hc
    split at hc
    · rename_i heq
      simp only [Seq.cons.injEq] at heq
      exact heq.2
    · cases hc
  have hoffA : ∀ x ∈ (skewOff k i ai).atoms, x = i ∨ x ∈ ai.atoms := by
    intro x hx
    simpa [skewOff, ssub, Expr.atoms, Expr.atomsL] using hx
  have hj : j ∉ (skewOff k i ai).atoms := fun h => by
    rcases hoffA j h with h | h
    · exact hok.ne h.symm
    · exact hok.outer.1 h
  have hoff : ∀ τ : St, (skewOff k i ai).eval (τ.val E) = .fin (τ.ev E (skewOff k i ai)) := fun τ =>
    St.eval_of_defd ⟨_, eval_mul2 rfl (eval_ssub rfl (St.eval_of_defd (hok.def1 τ)))⟩
  have hr : ∀ (τ : St) (v : Int), (ssub (.sym j) (skewOff k i ai)).eval ((τ.setS j v).val E) = .fin (v - τ.ev E (skewOff k i ai)) := by
    intro τ v
    refine eval_ssub ?_ ?_
    · simp [Expr.eval, St.val, St.setS_same]
    · rw [eval_setS_free hj, hoff]
  have hval : ∀ σ τ, Subst E j (ssub (.sym j) (skewOff k i ai)) σ τ → σ j [] = τ j [] - τ.ev E (skewOff k i ai) := by
    intro σ τ h
    have h1 := h.2
    have h2 := hr τ (τ j [])
    rw [Tile.setS_eta τ j _ rfl] at h2
    rw [h2] at h1
    simpa using h1.symm
  have hbis := Rel.seq_bis (loop_subst_bis (E := E) (m := mj) (j := j) (r := ssub (.sym j) (skewOff k i ai)) (a := aj)
    (a' := .add [aj, skewOff k i ai]) (k := cj) (k' := cj.subs (.sym j) (ssub (.sym j) (skewOff k i ai))) (u := uj) (u' := uj) (s := s)
    (fun σ τ h => by
      rw [hr, St.ev_of_eval (eval_add2 (St.eval_of_defd (hok.def2 τ)) (hoff τ)), h.ev hok.inner.1]
      congr 1; omega)
    (fun σ τ h => h.cond cj hok.inner.2)
    (fun σ τ h => by
      rw [hr, hok.step, hok.step, hval σ τ h]
      congr 1; omega)
    (s.replace_bis E j _ hok.memlets.1 (fun h => (hok.keep j h).1 rfl) hok.memlets.2 (fun o ho hx => by
      simp only [ssub, Expr.atoms, Expr.atomsL, List.append_nil, List.nil_append, List.cons_append, List.mem_cons] at hx
      obtain ⟨h1, h2, h3⟩ := hok.keep o ho
      rcases hx with h | h
      · exact h1 h
      · rcases hoffA o h with h | h
        · exact h2 h
        · exact h3 h)))
    (Rel.upd_bis (A := EqOff j) (f := runTrans E []) (g := runTrans E []) fun σ τ h => h)
  have hfull := loop_off_bis (E := E) (m := m) (i := i) (j := j) (a := ai) (k := ci) (u := ui) (s := .cons (.loop mj j aj cj uj s) [] .nil)
    (s' := .cons (.loop mj j (.add [aj, skewOff k i ai]) (cj.subs (.sym j) (ssub (.sym j) (skewOff k i ai))) uj
      (s.replace j (ssub (.sym j) (skewOff k i ai)))) [] .nil) hok.outer.1 hok.outer.2.1 hok.outer.2.2 (by
      simp only [Seq.den, Rel.seq_skip]; exact hbis)
  intro c
  exact ⟨fun σ' h => hfull.1 σ σ c σ' (fun _ _ => rfl) h, fun τ' h => hfull.2 σ σ c τ' (fun _ _ => rfl) h⟩

/-- the nest `for (i = 0; i < 3; i++) for (j = 0; j < 4; uj) body` -/
def exSkewInner (uj : Expr) (s : Seq) : Seq := .one (.loop true "j" (.int 0) (.lt (.sym "j") (.int 4)) uj s)
/-- its outer loop -/
def exSkewNest (uj : Expr) (s : Seq) : Node :=
  .loop false "i" (.int 0) (.lt (.sym "i") (.int 3)) (.add [.sym "i", .int 1]) (exSkewInner uj s)
/-- the skewed nest -/
def exSkewed (uj : Expr) (s : Seq) : Node :=
  skew 1 false "i" (.int 0) (.lt (.sym "i") (.int 3)) (.add [.sym "i", .int 1]) (exSkewInner uj s)
/-- `A[i, j] := B` -/
def exSkewBody : Seq := .one (.block [.tasklet "assign" [("B", [])] "A" [.sym "i", .sym "j"]])

/-- the hypotheses of `skew_partial` hold for `A[i, j] := B` -/
example : canSkew 1 "i" (exSkewInner (.add [.sym "j", .int 1]) exSkewBody) = true ∧
    SkewOk exEnv "i" (.int 0) (.lt (.sym "i") (.int 3)) (.add [.sym "i", .int 1]) "j" (.int 0) (.lt (.sym "j") (.int 4))
      (.add [.sym "j", .int 1]) exSkewBody 1 :=
  ⟨by decide, fun τ => St.ev_of_eval (eval_add2 rfl rfl), by decide, by decide, by decide, by decide, by decide, fun _ => ⟨_, rfl⟩,
    fun _ => ⟨_, rfl⟩⟩

/-- **C21 fails** for updates that do not add a constant: with `j = 2*j + 1` the original runs `j = 0, 1, 3` for each `i`; skewed, the
second row misses `j = 1`. -/
theorem skew_update_violated : ∃ (E : Env) (σ σ' : St) (uj : Expr) (s : Seq), canSkew 1 "i" (exSkewInner uj s) = true ∧
    (exSkewNest uj s).den E σ .normal σ' ∧ ∀ c τ', (exSkewed uj s).den E σ c τ' → τ' "A" [1, 1] ≠ σ' "A" [1, 1] := by
  obtain ⟨σ', h1, h2⟩ := Node.run_obs (E := exEnv) (σ := fun x _ => if x = "B" then 1 else 0) 60 (x := "A") (j := [1, 1])
    (c := .normal) (v := 1) (s := exSkewNest (.add [.mul [.int 2, .sym "j"], .int 1]) exSkewBody) (by decide)
  refine ⟨exEnv, _, σ', _, _, by decide, h1, ?_⟩
  intro c τ' h
  have := (Node.run_obs_all 60 (x := "A") (j := [1, 1]) (c := .normal) (v := 0) (by decide) h).2
  rw [this, h2]; decide

/-- **C21 fails** for bodies that read the inner loop variable as data: `A[i, j] := j`; the access node is not rewritten. -/
theorem skew_access_violated : ∃ (E : Env) (σ σ' : St) (uj : Expr) (s : Seq), canSkew 1 "i" (exSkewInner uj s) = true ∧
    (exSkewNest uj s).den E σ .normal σ' ∧ ∀ c τ', (exSkewed uj s).den E σ c τ' → τ' "A" [1, 1] ≠ σ' "A" [1, 1] := by
  obtain ⟨σ', h1, h2⟩ := Node.run_obs (E := exEnv) (σ := fun x _ => if x = "B" then 1 else 0) 60 (x := "A") (j := [1, 1])
    (c := .normal) (v := 1) (s := exSkewNest (.add [.sym "j", .int 1])
      (.one (.block [.tasklet "assign" [("j", [])] "A" [.sym "i", .sym "j"]]))) (by decide)
  refine ⟨exEnv, _, σ', _, _, by decide, h1, ?_⟩
  intro c τ' h
  have := (Node.run_obs_all 60 (x := "A") (j := [1, 1]) (c := .normal) (v := 2) (by decide) h).2
  rw [this, h2]; decide

end Docc.IR
