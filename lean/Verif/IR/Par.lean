import Verif.IR.AgreeS

/-
Executing the iterations of a loop in any order, with private containers: what a Map promises
(sdfg/include/sdfg/structured_control_flow/map.h; sdfg/src/codegen/dispatchers/map_dispatcher.cpp).
-/
namespace Docc.IR
open Docc.Sym

/-- a memory location: container and index -/
abbrev Loc := String × List Int
/-- content of a location -/
def St.at (σ : St) (l : Loc) : Int := σ l.1 l.2

/-- Dynamic footprint of one execution: the run of `D` from `σ` finishes with `c` in `σ'`; it changes only locations of `W`; and from
any other state that has the same content on `R` the run finishes in the same way, leaves the same content on `W` and changes
nothing else.  (`R`: locations read before they are written.) -/
def Rel.Foot (D : Rel) (σ : St) (c : Ctl) (σ' : St) (R W : Loc → Prop) : Prop :=
  D σ c σ' ∧ (∀ l, ¬ W l → σ'.at l = σ.at l) ∧
    ∀ τ : St, (∀ l, R l → τ.at l = σ.at l) →
      ∃ τ', D τ c τ' ∧ (∀ l, W l → τ'.at l = σ'.at l) ∧ (∀ l, ¬ W l → τ'.at l = τ.at l)

/-- the states have the same content outside the containers `X` -/
def OffX (X : String → Prop) (σ τ : St) : Prop := ∀ l : Loc, ¬ X l.1 → σ.at l = τ.at l

/-- Run the body `D` once for each value of the list, in that order, with the loop variable `i` set to the value.  Before each
instance the private containers `X` have arbitrary content (each thread has its own copy). -/
inductive RunPar (D : Rel) (i : String) (X : String → Prop) : List Int → St → St → Prop
  | nil {σ} : RunPar D i X [] σ σ
  | cons {v vs σ τ k σ1 σ'} : OffX X σ τ → (k = .normal ∨ k = .cont) → D (τ.setS i v) k σ1 → RunPar D i X vs σ1 σ' →
    RunPar D i X (v :: vs) σ σ'

/-- The values the loop variable takes when loop condition `k` and update `u` are evaluated with everything else as in `σ`: from `v`,
through `vs`, until the condition fails at `e`. -/
inductive Iters (E : Env) (i : String) (k : Cond) (u : Expr) (σ : St) : Int → List Int → Int → Prop
  | done {v} : (σ.setS i v).cond E k = false → Iters E i k u σ v [] v
  | step {v vs e} : (σ.setS i v).cond E k = true → Iters E i k u σ ((σ.setS i v).ev E u) vs e → Iters E i k u σ v (v :: vs) e

/-- the start value determines the iterations -/
theorem Iters.unique {E : Env} {i : String} {k : Cond} {u : Expr} {σ : St} {v : Int} {vs ws : List Int} {e f : Int}
    (h : Iters E i k u σ v vs e) (h' : Iters E i k u σ v ws f) : vs = ws := by
  induction h generalizing ws with
  | done hc => cases h' with
    | done => rfl
    | step hc' => rw [hc] at hc'; cases hc'
  | step hc _ ih => cases h' with
    | done hc' => rw [hc] at hc'; cases hc'
    | step _ h2 => rw [ih h2]

theorem Iters.suffix {E : Env} {i : String} {k : Cond} {u : Expr} {σ : St} {v w : Int} {vs : List Int} {e : Int}
    (h : Iters E i k u σ v vs e) (hw : w ∈ vs) : ∃ ws, Iters E i k u σ w ws e ∧ ws.length ≤ vs.length := by
  induction h with
  | done => simp at hw
  | @step v vs e hc h ih =>
    rcases List.mem_cons.1 hw with rfl | hw
    · exact ⟨_, .step hc h, Nat.le_refl _⟩
    · obtain ⟨ws, h1, h2⟩ := ih hw
      exact ⟨ws, h1, by simp only [List.length_cons]; omega⟩

/-- a loop that ends does not repeat a value -/
theorem Iters.distinct {E : Env} {i : String} {k : Cond} {u : Expr} {σ : St} {v : Int} {vs : List Int} {e : Int}
    (h : Iters E i k u σ v vs e) : vs.Nodup := by
  induction h with
  | done => exact List.nodup_nil
  | @step v vs e hc h ih =>
    refine List.nodup_cons.2 ⟨fun hv => ?_, ih⟩
    obtain ⟨ws, h1, h2⟩ := h.suffix hv
    have := h1.unique (.step hc h)
    rw [this] at h2
    simp only [List.length_cons] at h2
    omega

/-- The iterations `vs` of body `D`, each started in `σ`, are independent up to private containers `X`: each has a footprint and ends
normally; the loop variable is private and not written by the body; it reads no private container before writing it; and what it reads
outside `X` is not written by another iteration, and what it writes is written by another one only with the same value. -/
structure Independent (D : Rel) (i : String) (X : String → Prop) (σ : St) (vs : List Int) (res : Int → St) (R W : Int → Loc → Prop) : Prop where
  ivar : X i
  foot : ∀ v ∈ vs, ∃ k, (k = .normal ∨ k = .cont) ∧ D.Foot (σ.setS i v) k (res v) (R v) (W v)
  keep : ∀ v ∈ vs, ¬ W v (i, [])
  priv : ∀ v ∈ vs, ∀ l, R v l → l ≠ (i, []) → ¬ X l.1
  apart : ∀ v ∈ vs, ∀ w ∈ vs, v ≠ w → ∀ l, W v l → ¬ X l.1 → ¬ R w l ∧ (W w l → (res v).at l = (res w).at l)

/-- the state that holds what the iterations `vs` wrote, outside `X` -/
def Merged (X : String → Prop) (σ : St) (vs : List Int) (res : Int → St) (W : Int → Loc → Prop) (σ' : St) : Prop :=
  ∀ l : Loc, ¬ X l.1 → (∀ v ∈ vs, W v l → σ'.at l = (res v).at l) ∧ ((∀ v ∈ vs, ¬ W v l) → σ'.at l = σ.at l)

/-! ### composition of footprints -/

theorem Rel.Foot.mono {D : Rel} {σ : St} {c : Ctl} {σ' : St} {R W R' W' : Loc → Prop} (h : D.Foot σ c σ' R W) (hR : ∀ l, R l → R' l)
    (hW : ∀ l, W l → W' l) (hWR : ∀ l, W' l → ¬ W l → R' l) : D.Foot σ c σ' R' W' := by
  obtain ⟨h1, h2, h3⟩ := h
  refine ⟨h1, fun l hl => h2 l fun hw => hl (hW l hw), fun τ hτ => ?_⟩
  obtain ⟨τ', a, b, d⟩ := h3 τ fun l hl => hτ l (hR l hl)
  refine ⟨τ', a, fun l hl => ?_, fun l hl => d l fun hw => hl (hW l hw)⟩
  by_cases hw : W l
  · exact b l hw
  · rw [d l hw, h2 l hw, hτ l (hWR l hl hw)]

theorem Rel.Foot.seq {D1 D2 : Rel} {σ σ1 σ' : St} {c : Ctl} {R1 W1 R2 W2 : Loc → Prop} (h1 : D1.Foot σ .normal σ1 R1 W1)
    (h2 : D2.Foot σ1 c σ' R2 W2) : (Rel.seq D1 D2).Foot σ c σ' (fun l => R1 l ∨ (R2 l ∧ ¬ W1 l)) (fun l => W1 l ∨ W2 l) := by
  obtain ⟨a1, a2, a3⟩ := h1
  obtain ⟨b1, b2, b3⟩ := h2
  refine ⟨Or.inl ⟨_, a1, b1⟩, fun l hl => ?_, fun τ hτ => ?_⟩
  · rw [b2 l fun h => hl (Or.inr h), a2 l fun h => hl (Or.inl h)]
  · obtain ⟨τ1, x1, x2, x3⟩ := a3 τ fun l hl => hτ l (Or.inl hl)
    obtain ⟨τ', y1, y2, y3⟩ := b3 τ1 fun l hl => by
      by_cases hw : W1 l
      · exact x2 l hw
      · rw [x3 l hw, a2 l hw, hτ l (Or.inr ⟨hl, hw⟩)]
    refine ⟨τ', Or.inl ⟨_, x1, y1⟩, fun l hl => ?_, fun l hl => ?_⟩
    · by_cases hw : W2 l
      · exact y2 l hw
      · rw [y3 l hw, b2 l hw, x2 l (hl.resolve_right hw)]
    · rw [y3 l fun h => hl (Or.inr h), x3 l fun h => hl (Or.inl h)]

theorem Rel.Foot.seq_exit {D1 D2 : Rel} {σ σ' : St} {c : Ctl} {R W : Loc → Prop} (hc : c ≠ .normal) (h : D1.Foot σ c σ' R W) :
    (Rel.seq D1 D2).Foot σ c σ' R W := by
  obtain ⟨h1, h2, h3⟩ := h
  refine ⟨Or.inr ⟨hc, h1⟩, h2, fun τ hτ => ?_⟩
  obtain ⟨τ', a, b⟩ := h3 τ hτ
  exact ⟨τ', Or.inr ⟨hc, a⟩, b⟩

theorem Rel.Foot.exit (k : Ctl) (σ : St) : (Rel.exit k).Foot σ k σ (fun _ => False) (fun _ => False) :=
  ⟨⟨rfl, rfl⟩, fun _ _ => rfl, fun τ _ => ⟨τ, ⟨rfl, rfl⟩, fun _ h => h.elim, fun _ _ => rfl⟩⟩

theorem Rel.Foot.skip (σ : St) : (Rel.upd id).Foot σ .normal σ (fun _ => False) (fun _ => False) :=
  ⟨⟨rfl, rfl⟩, fun _ _ => rfl, fun τ _ => ⟨τ, ⟨rfl, rfl⟩, fun _ h => h.elim, fun _ _ => rfl⟩⟩

/-! ### footprints of computations -/

/-- locations a computation reads in `σ`: its inputs and the symbols of its subsets -/
def Stmt.rd (E : Env) (σ : St) : Stmt → Loc → Prop
  | .tasklet _ ins _ sub, l => (∃ r ∈ ins, l = (r.1, r.2.map (σ.ev E)) ∨ ∃ e ∈ r.2, l.1 ∈ e.atoms ∧ l.2 = []) ∨ ∃ e ∈ sub, l.1 ∈ e.atoms ∧ l.2 = []
  | .lib _ reads _, l => l.1 ∈ reads
/-- locations a computation writes in `σ` -/
def Stmt.wr (E : Env) (σ : St) : Stmt → Loc → Prop
  | .tasklet _ _ out sub, l => l = (out, sub.map (σ.ev E))
  | .lib _ _ writes, l => l.1 ∈ writes

theorem setMany_not_mem (ws : List String) (f : Nat → List Int → Int) (σ : St) {x : String} (h : x ∉ ws) : (σ.setMany ws f) x = σ x := by
  unfold St.setMany
  generalize hz : ws.zipIdx = zs
  have hz' : ∀ p ∈ zs, p.1 ≠ x := by
    intro p hp e
    rw [← hz] at hp
    exact h (e ▸ (List.mem_zipIdx' hp).2 ▸ List.getElem_mem _)
  clear hz
  induction zs generalizing σ with
  | nil => rfl
  | cons p zs ih =>
    rw [List.foldl_cons, ih _ fun q hq => hz' q (List.mem_cons_of_mem _ hq)]
    simp [Ne.symm (hz' p (List.mem_cons_self ..))]

theorem setMany_mem (ws : List String) (f : Nat → List Int → Int) (σ τ : St) {x : String} (h : x ∈ ws) :
    (σ.setMany ws f) x = (τ.setMany ws f) x := by
  unfold St.setMany
  have hx : ∃ k, (x, k) ∈ ws.zipIdx := by
    obtain ⟨k, hk, e⟩ := List.mem_iff_getElem.1 h
    exact ⟨k, by rw [List.mem_zipIdx_iff_getElem?]; simp [hk, e]⟩
  generalize ws.zipIdx = zs at hx
  induction zs generalizing σ τ with
  | nil => obtain ⟨k, hk⟩ := hx; simp at hk
  | cons p zs ih =>
    rw [List.foldl_cons, List.foldl_cons]
    by_cases hz : ∃ k, (x, k) ∈ zs
    · exact ih _ _ hz
    · obtain ⟨k, hk⟩ := hx
      rcases List.mem_cons.1 hk with e | hk
      · have hno : ∀ q ∈ zs, q.1 ≠ x := fun q hq e => hz ⟨q.2, by rw [← e]; exact hq⟩
        clear ih hz
        have : ∀ (zs : List (String × Nat)) (σ : St), (∀ q ∈ zs, q.1 ≠ x) →
            (zs.foldl (fun s wk => fun y => if y = wk.1 then f wk.2 else s y) σ) x = σ x := by
          intro zs
          induction zs with
          | nil => intro _ _; rfl
          | cons q zs ih =>
            intro σ h
            rw [List.foldl_cons, ih _ fun r hr => h r (List.mem_cons_of_mem _ hr)]
            simp [Ne.symm (h q (List.mem_cons_self ..))]
        rw [this zs _ hno, this zs _ hno, ← e]; simp
      · exact absurd ⟨k, hk⟩ hz

theorem Stmt.foot (E : Env) (s : Stmt) (σ : St) : (Rel.upd (s.run E)).Foot σ .normal (s.run E σ) (s.rd E σ) (s.wr E σ) := by
  match s with
  | .tasklet op ins out sub =>
    have hsub : ∀ (τ : St), (∀ l, (Stmt.tasklet op ins out sub).rd E σ l → τ.at l = σ.at l) → sub.map (τ.ev E) = sub.map (σ.ev E) := by
      intro τ h
      refine List.map_congr_left fun e he => St.ev_congr E fun x hx => ?_
      exact h (x, []) (Or.inr ⟨e, he, hx, rfl⟩)
    refine ⟨⟨rfl, rfl⟩, fun l hl => ?_, fun τ hτ => ⟨_, ⟨rfl, rfl⟩, fun l hl => ?_, fun l hl => ?_⟩⟩
    · simp only [Stmt.run, St.at, St.set]
      rw [if_neg fun h => hl (Prod.ext h.1 h.2)]
    · have hl' : l = (out, sub.map (σ.ev E)) := hl
      subst hl'
      simp only [Stmt.run, St.at, St.set, hsub τ hτ, and_self, if_true]
      refine congrArg _ (List.map_congr_left fun r hr => ?_)
      have : r.2.map (τ.ev E) = r.2.map (σ.ev E) :=
        List.map_congr_left fun e he => St.ev_congr E fun x hx => hτ (x, []) (Or.inl ⟨r, hr, Or.inr ⟨e, he, hx, rfl⟩⟩)
      rw [this]
      exact hτ (r.1, r.2.map (σ.ev E)) (Or.inl ⟨r, hr, Or.inl rfl⟩)
    · simp only [Stmt.run, St.at, St.set]
      rw [if_neg fun h => hl (by rw [hsub τ hτ] at h; exact Prod.ext h.1 h.2)]
  | .lib op reads writes =>
    have hf : ∀ (τ : St), (∀ l, (Stmt.lib op reads writes).rd E σ l → τ.at l = σ.at l) → reads.map τ = reads.map σ := by
      intro τ h
      exact List.map_congr_left fun x hx => funext fun idx => h (x, idx) hx
    refine ⟨⟨rfl, rfl⟩, fun l hl => ?_, fun τ hτ => ⟨_, ⟨rfl, rfl⟩, fun l hl => ?_, fun l hl => ?_⟩⟩
    · simp only [Stmt.run, St.at]; rw [setMany_not_mem _ _ _ hl]
    · simp only [Stmt.run, St.at]; rw [hf τ hτ]; exact congrFun (setMany_mem _ _ _ _ hl) _
    · simp only [Stmt.run, St.at]; rw [setMany_not_mem _ _ _ hl]

/-- locations a block reads before writing them -/
def blockRd (E : Env) : List Stmt → St → Loc → Prop
  | [], _, _ => False
  | s :: r, σ, l => s.rd E σ l ∨ (blockRd E r (s.run E σ) l ∧ ¬ s.wr E σ l)
/-- locations a block writes -/
def blockWr (E : Env) : List Stmt → St → Loc → Prop
  | [], _, _ => False
  | s :: r, σ, l => s.wr E σ l ∨ blockWr E r (s.run E σ) l

theorem runBlock_cons (E : Env) (s : Stmt) (r : List Stmt) : Rel.upd (runBlock E (s :: r)) = Rel.seq (Rel.upd (s.run E)) (Rel.upd (runBlock E r)) := by
  rw [Rel.upd_upd]; rfl

theorem block_foot (E : Env) : (l : List Stmt) → (σ : St) → (Rel.upd (runBlock E l)).Foot σ .normal (runBlock E l σ) (blockRd E l σ) (blockWr E l σ)
  | [], σ => Rel.Foot.skip σ
  | s :: r, σ => by rw [runBlock_cons]; exact (s.foot E σ).seq (block_foot E r (s.run E σ))

/-! ### order independence -/

theorem at_setS {σ : St} {i : String} {v : Int} {l : Loc} (h : l ≠ (i, [])) : (σ.setS i v).at l = σ.at l := by
  simp only [St.at, St.setS, St.set]
  split
  · rename_i hc; exact absurd (Prod.ext hc.1 hc.2) h
  · rfl

theorem at_setS_same {σ : St} {i : String} {v : Int} : (σ.setS i v).at (i, []) = v := by simp [St.at, St.setS, St.set]

/-- one iteration started in a state that other iterations have changed -/
theorem Independent.inst {D : Rel} {i : String} {X : String → Prop} {σ : St} {vs : List Int} {res : Int → St} {R W : Int → Loc → Prop}
    (I : Independent D i X σ vs res R W) {done : List Int} {v : Int} (hv : v ∈ vs) (hd : ∀ w ∈ done, w ∈ vs) (hvd : v ∉ done) {τ τ1 : St}
    (hm : Merged X σ done res W τ) (hX : OffX X τ τ1) :
    ∃ k τ', (k = .normal ∨ k = .cont) ∧ D (τ1.setS i v) k τ' ∧ Merged X σ (v :: done) res W τ' ∧ τ'.at (i, []) = v := by
  obtain ⟨k, hk, h1, h2, h3⟩ := I.foot v hv
  have hread : ∀ l, R v l → (τ1.setS i v).at l = (σ.setS i v).at l := by
    intro l hl
    by_cases hi : l = (i, [])
    · rw [hi, at_setS_same, at_setS_same]
    · rw [at_setS hi, at_setS hi]
      have hx := I.priv v hv l hl hi
      rw [← hX l hx]
      refine (hm l hx).2 fun w hw hW => ?_
      have hne : w ≠ v := fun e : w = v => hvd (e ▸ hw)
      exact (I.apart w (hd w hw) v hv hne l hW hx).1 hl
  obtain ⟨τ', a, b, c⟩ := h3 _ hread
  refine ⟨k, τ', hk, a, fun l hx => ⟨fun w hw hW => ?_, fun hall => ?_⟩, ?_⟩
  · by_cases hWv : W v l
    · rw [b l hWv]
      by_cases e : w = v
      · rw [e]
      · have hw' : w ∈ done := by simpa [e] using hw
        exact (I.apart v hv w (hd w hw') (Ne.symm e) l hWv hx).2 hW
    · have e : w ≠ v := fun e : w = v => hWv (e ▸ hW)
      have hw' : w ∈ done := by simpa [e] using hw
      rw [c l hWv]
      by_cases hi : l = (i, [])
      · exact absurd (hi ▸ hW) (I.keep w (hd w hw'))
      · rw [at_setS hi, ← hX l hx]
        exact (hm l hx).1 w hw' hW
  · rw [c l (hall v (List.mem_cons_self ..))]
    by_cases hi : l = (i, [])
    · exact absurd (hi ▸ I.ivar) hx
    · rw [at_setS hi, ← hX l hx]
      exact (hm l hx).2 fun w hw => hall w (List.mem_cons_of_mem _ hw)
  · rw [c _ (I.keep v hv), at_setS_same]

theorem Merged.congr {X : String → Prop} {σ : St} {vs ws : List Int} {res : Int → St} {W : Int → Loc → Prop} {τ : St}
    (h : Merged X σ vs res W τ) (he : ∀ v, v ∈ ws ↔ v ∈ vs) : Merged X σ ws res W τ :=
  fun l hx => ⟨fun v hv => (h l hx).1 v ((he v).1 hv), fun hall => (h l hx).2 fun v hv => hall v ((he v).2 hv)⟩

theorem Merged.offX {X : String → Prop} {σ : St} {vs : List Int} {res : Int → St} {W : Int → Loc → Prop} {τ τ' : St}
    (h : Merged X σ vs res W τ) (h' : Merged X σ vs res W τ') : OffX X τ τ' := by
  intro l hx
  by_cases hw : ∃ v ∈ vs, W v l
  · obtain ⟨v, hv, hW⟩ := hw
    rw [(h l hx).1 v hv hW, (h' l hx).1 v hv hW]
  · have : ∀ v ∈ vs, ¬ W v l := fun v hv hW => hw ⟨v, hv, hW⟩
    rw [(h l hx).2 this, (h' l hx).2 this]

/-- some execution in the given order exists, whatever was executed before -/
theorem Independent.exists_run {D : Rel} {i : String} {X : String → Prop} {σ : St} {vs : List Int} {res : Int → St} {R W : Int → Loc → Prop}
    (I : Independent D i X σ vs res R W) : (ws done : List Int) → (∀ w ∈ ws, w ∈ vs) → (∀ w ∈ done, w ∈ vs) → ws.Nodup →
    (∀ w ∈ ws, w ∉ done) → (τ : St) → Merged X σ done res W τ → ∃ τ', RunPar D i X ws τ τ'
  | [], _, _, _, _, _, τ, _ => ⟨τ, .nil⟩
  | w :: ws, done, h1, h2, h3, h4, τ, hm => by
    obtain ⟨hnw, hnd⟩ := List.nodup_cons.1 h3
    obtain ⟨k, τ1, hk, a, b, _⟩ := I.inst (h1 w (List.mem_cons_self ..)) h2 (h4 w (List.mem_cons_self ..)) hm (fun _ _ => rfl)
    obtain ⟨τ', hr⟩ := I.exists_run ws (w :: done) (fun x hx => h1 x (List.mem_cons_of_mem _ hx))
      (fun x hx => by
        rcases List.mem_cons.1 hx with e | hx
        · exact e ▸ h1 w (List.mem_cons_self ..)
        · exact h2 x hx)
      hnd (fun x hx hx' => by
        rcases List.mem_cons.1 hx' with e | hx'
        · exact hnw (e ▸ hx)
        · exact h4 x (List.mem_cons_of_mem _ hx) hx') τ1 b
    exact ⟨τ', .cons (fun _ _ => rfl) hk a hr⟩

/-- every execution in any order merges the iterations -/
theorem Independent.run_merged {D : Rel} {i : String} {X : String → Prop} {σ : St} {vs : List Int} {res : Int → St} {R W : Int → Loc → Prop}
    (I : Independent D i X σ vs res R W) (hD : D.Det) {ws : List Int} {τ τ' : St} (hr : RunPar D i X ws τ τ') (done : List Int)
    (h1 : ∀ w ∈ ws, w ∈ vs) (h2 : ∀ w ∈ done, w ∈ vs) (h3 : ws.Nodup) (h4 : ∀ w ∈ ws, w ∉ done) (hm : Merged X σ done res W τ) :
    Merged X σ (ws.reverse ++ done) res W τ' := by
  induction hr generalizing done with
  | nil => simpa using hm
  | @cons w ws τ τ1 k τ2 τ' hX hk hd _ ih =>
    obtain ⟨hnw, hnd⟩ := List.nodup_cons.1 h3
    obtain ⟨k', τ2', hk', a, b, _⟩ := I.inst (h1 w (List.mem_cons_self ..)) h2 (h4 w (List.mem_cons_self ..)) hm hX
    obtain ⟨_, rfl⟩ := hD _ _ _ _ _ hd a
    have := ih (w :: done) (fun x hx => h1 x (List.mem_cons_of_mem _ hx))
      (fun x hx => by
        rcases List.mem_cons.1 hx with e | hx
        · exact e ▸ h1 w (List.mem_cons_self ..)
        · exact h2 x hx)
      hnd (fun x hx hx' => by
        rcases List.mem_cons.1 hx' with e | hx'
        · exact hnw (e ▸ hx)
        · exact h4 x (List.mem_cons_of_mem _ hx) hx') b
    simpa using this

/-- what the loop header reads besides the loop variable is neither private nor written by an iteration -/
def HeaderStable (i : String) (X : String → Prop) (k : Cond) (u : Expr) (vs : List Int) (W : Int → Loc → Prop) : Prop :=
  ∀ x, (x ∈ k.atoms ∨ x ∈ u.atoms) → x ≠ i → ¬ X x ∧ ∀ v ∈ vs, ¬ W v (x, [])

/-- the sequential loop executes its iterations in order -/
theorem Independent.loop_run {E : Env} {i : String} {X : String → Prop} {σ : St} {vs : List Int} {res : Int → St} {R W : Int → Loc → Prop}
    {k : Cond} {u : Expr} {s : Seq} (I : Independent (s.den E) i X σ vs res R W) (hH : HeaderStable i X k u vs W) {v e : Int} {ws : List Int}
    (hI : Iters E i k u σ v ws e) (done : List Int) (h1 : ∀ w ∈ ws, w ∈ vs) (h2 : ∀ w ∈ done, w ∈ vs) (h3 : ws.Nodup)
    (h4 : ∀ w ∈ ws, w ∉ done) (τ : St) (hm : Merged X σ done res W τ) (hi : τ.at (i, []) = v) :
    ∃ τ', Rel.iter (fun σ => σ.cond E k) (fun σ => σ.setS i (σ.ev E u)) (s.den E) τ .normal τ' ∧
      Merged X σ (ws.reverse ++ done) res W τ' := by
  have hsame : ∀ (done : List Int) (τ : St) (v : Int), (∀ w ∈ done, w ∈ vs) → Merged X σ done res W τ → τ.at (i, []) = v →
      ∀ x, (x ∈ k.atoms ∨ x ∈ u.atoms) → τ x [] = (σ.setS i v) x [] := by
    intro done τ v hd hm hi x hx
    by_cases e : x = i
    · rw [e]; simpa [St.at, St.setS, St.set] using hi
    · rw [St.setS_other _ _ e]
      obtain ⟨a, b⟩ := hH x hx e
      exact (hm (x, []) a).2 fun w hw => b w (hd w hw)
  induction hI generalizing done τ with
  | @done v hc =>
    refine ⟨τ, .done ?_, by simpa using hm⟩
    rw [← hc]; exact St.cond_congr E fun x hx => hsame done τ v h2 hm hi x (Or.inl hx)
  | @step v ws e hc _ ih =>
    obtain ⟨hnw, hnd⟩ := List.nodup_cons.1 h3
    have hτ : τ.setS i v = τ := by
      funext x idx
      simp only [St.setS, St.set]
      split
      · rename_i h; rw [h.1, h.2]; exact hi.symm
      · rfl
    have hd' : ∀ x ∈ v :: done, x ∈ vs := fun x hx => by
      rcases List.mem_cons.1 hx with e | hx
      · exact e ▸ h1 v (List.mem_cons_self ..)
      · exact h2 x hx
    obtain ⟨k', τ1, hk', a, b, hi1⟩ := I.inst (h1 v (List.mem_cons_self ..)) h2 (h4 v (List.mem_cons_self ..)) hm (fun _ _ => rfl)
    rw [hτ] at a
    have hu : τ1.ev E u = (σ.setS i v).ev E u := St.ev_congr E fun x hx => hsame _ τ1 v hd' b hi1 x (Or.inr hx)
    obtain ⟨τ', hr, hm'⟩ := ih (v :: done) (fun x hx => h1 x (List.mem_cons_of_mem _ hx)) hd' hnd
      (fun x hx hx' => by
        rcases List.mem_cons.1 hx' with e | hx'
        · exact hnw (e ▸ hx)
        · exact h4 x (List.mem_cons_of_mem _ hx) hx') (τ1.setS i (τ1.ev E u))
      (fun l hx => by
        have hl : l ≠ (i, []) := fun e => hx (by rw [e]; exact I.ivar)
        refine ⟨fun w hw hW => ?_, fun hall => ?_⟩
        · rw [at_setS hl]; exact (b l hx).1 w hw hW
        · rw [at_setS hl]; exact (b l hx).2 hall)
      (by rw [at_setS_same, hu])
    refine ⟨τ', .step k' ?_ a hk' hr, by simpa using hm'⟩
    rw [← hc]; exact St.cond_congr E fun x hx => hsame done τ v h2 hm hi x (Or.inl hx)

/-- **Order independence.**  If the iterations of a loop, each started in the initial state, are independent up to the private
containers `X` and nobody writes what the loop header reads, then the sequential loop terminates, and executing its iterations in any
order, each with arbitrary content of the private containers, terminates too and leaves the same memory outside `X`. -/
theorem any_order {E : Env} {m : Bool} {i : String} {a : Expr} {X : String → Prop} {σ : St} {vs : List Int} {res : Int → St}
    {R W : Int → Loc → Prop} {k : Cond} {u : Expr} {s : Seq} {e : Int} (hI : Iters E i k u σ (σ.ev E a) vs e)
    (I : Independent (s.den E) i X σ vs res R W) (hH : HeaderStable i X k u vs W) :
    ∃ σ', (Node.loop m i a k u s).den E σ .normal σ' ∧
      ∀ ws : List Int, ws.Perm vs → (∃ τ', RunPar (s.den E) i X ws σ τ') ∧ ∀ τ', RunPar (s.den E) i X ws σ τ' → OffX X τ' σ' := by
  have hnd := hI.distinct
  have h0 : Merged X σ [] res W σ := fun l _ => ⟨fun v hv => by simp at hv, fun _ => rfl⟩
  have h0' : Merged X σ [] res W (σ.setS i (σ.ev E a)) := fun l hx =>
    ⟨fun v hv => by simp at hv, fun _ => at_setS fun e => hx (by rw [e]; exact I.ivar)⟩
  obtain ⟨σ', hr, hm⟩ := I.loop_run hH hI [] (fun _ h => h) (fun _ h => by simp at h) hnd (fun _ _ h => by simp at h) _ h0' at_setS_same
  refine ⟨σ', ?_, fun ws hp => ⟨?_, fun τ' h => ?_⟩⟩
  · rw [Node.den, Rel.upd_seq]; exact hr
  · exact I.exists_run ws [] (fun w hw => hp.mem_iff.1 hw) (fun _ h => by simp at h) (hp.nodup_iff.2 hnd) (fun _ _ h => by simp at h) σ h0
  · have h1 := I.run_merged (s.den_det E) h [] (fun w hw => hp.mem_iff.1 hw) (fun _ h => by simp at h) (hp.nodup_iff.2 hnd)
      (fun _ _ h => by simp at h) h0
    exact (h1.congr (ws := vs) fun v => by simp [hp.mem_iff]).offX (hm.congr fun v => by simp)

end Docc.IR
