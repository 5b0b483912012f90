import Verif.IR.Replace
import Verif.IR.Bis
import Verif.IR.UsersProps

/-
C51: `replace(x, r)` is substitution.
-/
namespace Docc.IR
open Docc.Sym

/-- The memories agree except on `x`, and `r` evaluates (on the right) to the value of `x` (on the left). -/
def Subst (E : Env) (x : String) (r : Expr) (σ τ : St) : Prop :=
  (∀ z, z ≠ x → σ z = τ z) ∧ r.eval (τ.val E) = .fin (σ x [])

theorem Subst.ev {E : Env} {x : String} {r : Expr} {σ τ : St} (h : Subst E x r σ τ) (e : Expr) :
    σ.ev E e = τ.ev E (e.subs (.sym x) r) := by
  unfold St.ev
  rw [eval_subs_sym e x r (τ.val E) _ h.2]
  rw [eval_congr_atoms e (σ.val E) ((τ.val E).set x (σ x [])) rfl]
  intro y _
  simp only [Val.set, St.val]
  split
  · rename_i hy; rw [hy]
  · rename_i hy; rw [h.1 y hy]

theorem Subst.cond {E : Env} {x : String} {r : Expr} {σ τ : St} (h : Subst E x r σ τ) (c : Cond) (hc : x ∉ c.boolSyms) :
    σ.cond E c = τ.cond E (c.subs (.sym x) r) := by
  unfold St.cond
  symm
  apply Cond.eval_subs
  · intro e; exact (h.ev e).symm
  · intro y hy
    have hne : y ≠ x := fun he => hc (he ▸ hy)
    have : ¬ (Expr.sym x = Expr.sym y) := by simp [Ne.symm hne]
    simp only [Cond.subs, this, if_false, Cond.eval]
    rw [h.1 y hne]

theorem Subst.eval_keep {E : Env} {x : String} {r : Expr} {σ τ σ' τ' : St} (h : Subst E x r σ τ)
    (h1 : ∀ z, z ≠ x → σ' z = τ' z) (h2 : σ' x = σ x) (h3 : ∀ z ∈ r.atoms, τ' z = τ z) : Subst E x r σ' τ' := by
  refine ⟨h1, ?_⟩
  rw [h2, ← h.2]
  exact eval_congr_atoms r _ _ rfl fun z hz => by simp only [St.val, h3 z hz]

theorem Subst.set {E : Env} {x : String} {r : Expr} {σ τ : St} (h : Subst E x r σ τ) {o : String} (ho : o ≠ x)
    (hr : o ∉ r.atoms) (i : List Int) (v : Int) : Subst E x r (σ.set o i v) (τ.set o i v) := by
  refine h.eval_keep ?_ ?_ ?_
  · intro z hz; funext j; simp only [St.set, h.1 z hz]
  · rw [St.set_other _ _ _ (Ne.symm ho)]
  · intro z hz; rw [St.set_other]; rintro rfl; exact hr hz

theorem Subst.setMany {E : Env} {x : String} {r : Expr} {σ τ : St} (h : Subst E x r σ τ) {ws : List String} (ho : x ∉ ws)
    (hr : ∀ o ∈ ws, o ∉ r.atoms) (f : Nat → List Int → Int) : Subst E x r (σ.setMany ws f) (τ.setMany ws f) := by
  refine h.eval_keep ?_ ?_ ?_
  · intro z hz
    have : AgreeOff (· = x) σ τ := fun z hz => h.1 z hz
    exact this.setMany ws f z hz
  · rw [St.setMany_other _ _ _ ho]
  · intro z hz; rw [St.setMany_other _ _ _ (fun he => hr z he hz)]

theorem renameTo_other {x : String} {r : Expr} {n : String} (h : n ≠ x) : renameTo x r n = n := by
  simp [renameTo, h]

theorem renameTo_map {x : String} {r : Expr} {l : List String} (h : x ∉ l) : l.map (renameTo x r) = l := by
  have : l.map (renameTo x r) = l.map id := List.map_congr_left fun a ha => renameTo_other fun he => h (he ▸ ha)
  rw [this, List.map_id]

theorem Stmt.replace_run {E : Env} {x : String} {r : Expr} (s : Stmt) (ha : x ∉ s.accessed)
    (hw : ∀ o ∈ s.accessed, writes s.users o → o ∉ r.atoms) {σ τ : St} (h : Subst E x r σ τ) :
    Subst E x r (s.run E σ) ((s.replace x r).run E τ) := by
  cases s with
  | tasklet op ins out sub =>
    simp only [Stmt.accessed, List.mem_append, not_or, List.mem_map, not_exists, not_and] at ha
    have ho : out ≠ x := fun he => ha.2 (by simp [he])
    have hr : out ∉ r.atoms := hw out (by simp [Stmt.accessed]) (by simp [writes, Stmt.users, readsOf])
    simp only [Stmt.replace, Stmt.run, renameTo_other ho, List.map_map]
    have e1 : sub.map (σ.ev E) = sub.map ((τ.ev E) ∘ (Expr.subs · (.sym x) r)) :=
      List.map_congr_left fun e _ => h.ev e
    have e2 : ins.map (fun r => σ r.1 (r.2.map (σ.ev E))) =
        ins.map ((fun r => τ r.1 (r.2.map (τ.ev E))) ∘ fun a => (renameTo x r a.1, a.2.map (Expr.subs · (.sym x) r))) := by
      refine List.map_congr_left fun a hi => ?_
      have hne : a.1 ≠ x := ha.1 a hi
      simp only [Function.comp, renameTo_other hne, List.map_map]
      rw [h.1 a.1 hne]
      congr 1
      exact List.map_congr_left fun e _ => h.ev e
    rw [e1, e2]
    exact h.set ho hr _ _
  | lib op rs ws =>
    simp only [Stmt.accessed, List.mem_append, not_or] at ha
    simp only [Stmt.replace, Stmt.run, renameTo_map ha.1, renameTo_map ha.2]
    have e1 : rs.map σ = rs.map τ := List.map_congr_left fun a hi => h.1 a fun he => ha.1 (he ▸ hi)
    rw [e1]
    refine h.setMany ha.2 (fun o ho => hw o (by simp [Stmt.accessed, ho]) ?_) _
    simp [writes, Stmt.users, ho]

theorem runBlock_replace {E : Env} {x : String} {r : Expr} (l : List Stmt) (ha : x ∉ l.flatMap Stmt.accessed)
    (hw : ∀ o, writes (l.flatMap Stmt.users) o → o ∉ r.atoms) {σ τ : St} (h : Subst E x r σ τ) :
    Subst E x r (runBlock E l σ) (runBlock E (l.map (Stmt.replace x r)) τ) := by
  induction l generalizing σ τ with
  | nil => exact h
  | cons a t ih =>
    simp only [List.flatMap_cons, List.mem_append, not_or] at ha
    refine ih ha.2 (fun o ho => hw o (by simp only [writes, List.flatMap_cons, List.mem_append]; exact Or.inr ho)) ?_
    exact a.replace_run ha.1 (fun o _ ho => hw o (by simp only [writes, List.flatMap_cons, List.mem_append]; exact Or.inl ho)) h

theorem transReplace_eq {x : String} {r : Expr} {t : Trans} (ha : x ∉ t.map (·.1)) :
    transReplace x r t = t.map fun a => (a.1, a.2.subs (.sym x) r) := by
  have h1 : t.any (fun a => a.1 == x) = false := by
    rw [List.any_eq_false]
    intro a hx he
    exact ha (List.mem_map.2 ⟨a, hx, by simpa using he⟩)
  unfold transReplace
  have h2 : transOverwrite x r t = t := by
    unfold transOverwrite
    split
    · simp [h1]
    · rfl
  rw [h2]
  refine List.map_congr_left fun a hi => ?_
  rw [renameTo_other fun he => ha (List.mem_map.2 ⟨a, hi, he⟩)]

theorem runTrans_replace {E : Env} {x : String} {r : Expr} (t : Trans) (ha : x ∉ t.map (·.1))
    (hw : ∀ o ∈ t.map (·.1), o ∉ r.atoms) {σ τ : St} (h : Subst E x r σ τ) :
    Subst E x r (runTrans E t σ) (runTrans E (transReplace x r t) τ) := by
  rw [transReplace_eq ha]
  induction t generalizing σ τ with
  | nil => exact h
  | cons a t ih =>
    simp only [List.map_cons, List.mem_cons, not_or] at ha
    refine ih ha.2 (fun o ho => hw o (by simp [ho])) ?_
    show Subst E x r (σ.setS a.1 (σ.ev E a.2)) (τ.setS a.1 (τ.ev E (a.2.subs (.sym x) r)))
    rw [h.ev]
    exact h.set (Ne.symm ha.1) (hw a.1 (by simp)) _ _

mutual
theorem Node.replace_bis (E : Env) (x : String) (r : Expr) : (n : Node) → x ∉ n.accessed → x ∉ n.written → x ∉ n.boolSyms →
    (∀ o ∈ n.written, o ∉ r.atoms) → Rel.bis (Subst E x r) (n.den E) ((n.replace x r).den E)
  | .block l, ha, hw, hb, hr => by
    rw [Node.replace, Node.den, Node.den]
    refine Rel.upd_bis fun σ τ h => runBlock_replace l ha (fun o ho => hr o ?_) h
    simp only [writes, List.mem_flatMap] at ho
    obtain ⟨s, hs, ho⟩ := ho
    simp only [Node.written, List.mem_flatMap]
    refine ⟨s, hs, ?_⟩
    cases s <;> simp [Stmt.users, readsOf] at ho ⊢ <;> exact ho
  | .seq s, ha, hw, hb, hr => by
    rw [Node.replace, Node.den, Node.den]; exact s.replace_bis E x r ha hw hb hr
  | .ifElse b, ha, hw, hb, hr => by
    rw [Node.replace, Node.den, Node.den]; exact b.replace_bis E x r ha hw hb hr
  | .whileL s, ha, hw, hb, hr => by
    rw [Node.replace, Node.den, Node.den]; exact Rel.forever_bis (s.replace_bis E x r ha hw hb hr)
  | .loop m i a c u s, ha, hw, hb, hr => by
    simp only [Node.accessed] at ha
    simp only [Node.written, List.mem_cons, not_or] at hw
    simp only [Node.boolSyms, List.mem_append, not_or] at hb
    simp only [Node.written, List.mem_cons, forall_eq_or_imp] at hr
    rw [Node.replace, Node.den, Node.den, renameTo_other (Ne.symm hw.1)]
    refine Rel.seq_bis (Rel.upd_bis fun σ τ h => ?_)
      (Rel.iter_bis (fun σ τ h => h.cond c hb.1) (fun σ τ h => ?_) (s.replace_bis E x r ha hw.2 hb.2 hr.2))
    · rw [h.ev]; exact h.set (Ne.symm hw.1) hr.1 _ _
    · rw [h.ev]; exact h.set (Ne.symm hw.1) hr.1 _ _
  | .brk, ha, hw, hb, hr => by rw [Node.replace, Node.den]; exact Rel.exit_bis _ _
  | .cont, ha, hw, hb, hr => by rw [Node.replace, Node.den]; exact Rel.exit_bis _ _
  | .ret d q, ha, hw, hb, hr => by
    have : (!q && d == x) = false := by
      cases q
      · simp [Node.accessed] at ha; simp [Ne.symm ha]
      · rfl
    rw [Node.replace, this, Node.den]
    simpa [Node.den] using Rel.exit_bis (Subst E x r) (Ctl.ret d q)
theorem Seq.replace_bis (E : Env) (x : String) (r : Expr) : (s : Seq) → x ∉ s.accessed → x ∉ s.written → x ∉ s.boolSyms →
    (∀ o ∈ s.written, o ∉ r.atoms) → Rel.bis (Subst E x r) (s.den E) ((s.replace x r).den E)
  | .nil, ha, hw, hb, hr => by rw [Seq.replace, Seq.den]; exact Rel.upd_bis fun σ τ h => h
  | .cons n t s, ha, hw, hb, hr => by
    simp only [Seq.accessed, List.mem_append, not_or] at ha
    simp only [Seq.written, List.mem_append, not_or] at hw hr
    simp only [Seq.boolSyms, List.mem_append, not_or] at hb
    rw [Seq.replace, Seq.den, Seq.den]
    refine Rel.seq_bis (n.replace_bis E x r ha.1 hw.1.1 hb.1 fun o ho => hr o (Or.inl (Or.inl ho))) (Rel.seq_bis ?_
      (s.replace_bis E x r ha.2 hw.2 hb.2 fun o ho => hr o (Or.inr ho)))
    exact Rel.upd_bis fun σ τ h => runTrans_replace t hw.1.2 (fun o ho => hr o (Or.inl (Or.inr ho))) h
theorem Brs.replace_bis (E : Env) (x : String) (r : Expr) : (b : Brs) → x ∉ b.accessed → x ∉ b.written → x ∉ b.boolSyms →
    (∀ o ∈ b.written, o ∉ r.atoms) → Rel.bis (Subst E x r) (b.den E) ((b.replace x r).den E)
  | .nil, ha, hw, hb, hr => by rw [Brs.replace, Brs.den]; exact Rel.upd_bis fun σ τ h => h
  | .cons c s b, ha, hw, hb, hr => by
    simp only [Brs.accessed, List.mem_append, not_or] at ha
    simp only [Brs.written, List.mem_append, not_or] at hw hr
    simp only [Brs.boolSyms, List.mem_append, not_or] at hb
    rw [Brs.replace, Brs.den, Brs.den]
    exact Rel.ite_bis (fun σ τ h => h.cond c hb.1.1) (s.replace_bis E x r ha.1 hw.1 hb.1.2 fun o ho => hr o (Or.inl ho))
      (b.replace_bis E x r ha.2 hw.2 hb.2 fun o ho => hr o (Or.inr ho))
end

/-! ### renaming -/

/-- the memory on the right holds in `y` what the left one holds in `x`; otherwise they agree -/
def Ren (x y : String) (σ τ : St) : Prop := (∀ z, z ≠ x → z ≠ y → σ z = τ z) ∧ σ x = τ y

theorem renameTo_sym_self (x y : String) : renameTo x (.sym y) x = y := by simp [renameTo]

theorem Ren.get {x y : String} {σ τ : St} (h : Ren x y σ τ) {z : String} (hz : z ≠ y) :
    σ z = τ (renameTo x (.sym y) z) := by
  by_cases hx : z = x
  · subst hx; rw [renameTo_sym_self]; exact h.2
  · rw [renameTo_other hx]; exact h.1 z hx hz

theorem Ren.ev {E : Env} {x y : String} {σ τ : St} (h : Ren x y σ τ) {e : Expr} (he : y ∉ e.atoms) :
    σ.ev E e = τ.ev E (e.subs (.sym x) (.sym y)) := by
  unfold St.ev
  rw [eval_subs_sym e x (.sym y) (τ.val E) (τ y []) (by simp [Expr.eval, St.val])]
  rw [eval_congr_atoms e (σ.val E) ((τ.val E).set x (τ y [])) rfl]
  intro z hz
  simp only [Val.set, St.val]
  have hzy : z ≠ y := fun hh => he (hh ▸ hz)
  split
  · rename_i hzx; rw [hzx, h.2]
  · rename_i hzx; rw [h.1 z hzx hzy]

theorem Ren.cond {E : Env} {x y : String} {σ τ : St} (h : Ren x y σ τ) {c : Cond} (hc : y ∉ c.atoms) :
    σ.cond E c = τ.cond E (c.subs (.sym x) (.sym y)) := by
  have hb : ∀ c : Cond, ∀ z ∈ c.boolSyms, z ∈ c.atoms := by
    intro c
    induction c using Cond.induct with
    | htt | hff | hatom a | heq a b | hne a b | hle a b | hlt a b => simp [Cond.boolSyms, Cond.atoms]
    | heqB a b ih1 ih2 | hneB a b ih1 ih2 =>
      intro z hz
      simp only [Cond.boolSyms, Cond.atoms, List.mem_append] at hz ⊢
      exact hz.imp (ih1 z) (ih2 z)
    | hnot c ih => simpa [Cond.boolSyms, Cond.atoms] using ih
    | hand l ih | hor l ih =>
      intro z hz
      simp only [Cond.boolSyms, Cond.atoms, Cond.mem_boolSymsL, Cond.mem_atomsL] at hz ⊢
      obtain ⟨c, hc, hz⟩ := hz
      exact ⟨c, hc, ih c hc z hz⟩
  unfold St.cond
  rw [Cond.eval_subs _ ⟨fun e => τ.ev E (e.subs (.sym x) (.sym y)), fun z => σ z [] != 0⟩ c _ _ (fun e => rfl)]
  · refine Cond.eval_congr _ _ c (fun e he => ?_) (fun z _ => rfl)
    exact h.ev fun hy => hc (he y hy)
  · intro z hz
    have hzy : z ≠ y := fun hh => hc (hh ▸ hb c z hz)
    simp only [Cond.subs, Expr.sym.injEq]
    split
    · rename_i hzx; simp only [Cond.eval]; rw [← hzx, h.2]
    · rename_i hzx; simp only [Cond.eval]; rw [h.1 z (Ne.symm hzx) hzy]

theorem Ren.set {x y : String} {σ τ : St} (h : Ren x y σ τ) (hxy : x ≠ y) {o : String} (ho : o ≠ y) (i : List Int) (v : Int) :
    Ren x y (σ.set o i v) (τ.set (renameTo x (.sym y) o) i v) := by
  by_cases hx : o = x
  · subst hx
    rw [renameTo_sym_self]
    refine ⟨fun z h1 h2 => ?_, ?_⟩
    · rw [St.set_other _ _ _ h1, St.set_other _ _ _ h2, h.1 z h1 h2]
    · funext j; simp [St.set, h.2]
  · rw [renameTo_other hx]
    refine ⟨fun z h1 h2 => ?_, ?_⟩
    · funext j; simp only [St.set, h.1 z h1 h2]
    · rw [St.set_other _ _ _ (Ne.symm hx), St.set_other _ _ _ (Ne.symm ho), h.2]

theorem Ren.setMany {x y : String} {σ τ : St} (h : Ren x y σ τ) (hxy : x ≠ y) {ws : List String} (ho : y ∉ ws)
    (f : Nat → List Int → Int) : Ren x y (σ.setMany ws f) (τ.setMany (ws.map (renameTo x (.sym y))) f) := by
  unfold St.setMany
  rw [List.zipIdx_map]
  have hy : ∀ a ∈ ws.zipIdx, a.1 ≠ y := fun a ha he => ho (he ▸ List.fst_mem_of_mem_zipIdx ha)
  generalize ws.zipIdx = l at hy
  induction l generalizing σ τ with
  | nil => exact h
  | cons a r ih =>
    simp only [List.map_cons, List.foldl_cons]
    refine ih ?_ (fun b hb => hy b (List.mem_cons_of_mem _ hb))
    have ha := hy a (by simp)
    by_cases hx : a.1 = x
    · refine ⟨fun z h1 h2 => ?_, ?_⟩
      · simp [hx, h1, h2, renameTo_sym_self, h.1 z h1 h2]
      · simp [hx, renameTo_sym_self]
    · refine ⟨fun z h1 h2 => ?_, ?_⟩
      · simp only [Prod.map, id, renameTo_other hx, h.1 z h1 h2]
      · simp only [Prod.map, id, renameTo_other hx]
        rw [if_neg (Ne.symm hx), if_neg (Ne.symm ha)]; exact h.2

theorem Ren.evs {E : Env} {x y : String} {σ τ : St} (h : Ren x y σ τ) {l : List Expr} (he : y ∉ Expr.atomsL l) :
    l.map (σ.ev E) = (l.map (Expr.subs · (.sym x) (.sym y))).map (τ.ev E) := by
  rw [List.map_map]
  exact List.map_congr_left fun e hi => h.ev fun hy => he ((Expr.mem_atomsL y l).2 ⟨e, hi, hy⟩)

theorem Stmt.rename_run {E : Env} {x y : String} (hxy : x ≠ y) (s : Stmt) (hy : y ∉ s.names) {σ τ : St} (h : Ren x y σ τ) :
    Ren x y (s.run E σ) ((s.replace x (.sym y)).run E τ) := by
  cases s with
  | tasklet op ins out sub =>
    simp only [Stmt.names, List.mem_append, not_or, List.mem_singleton] at hy
    obtain ⟨⟨⟨h1, h2⟩, h3⟩, h4⟩ := hy
    simp only [Stmt.replace, Stmt.run]
    rw [← h.evs h4]
    have e2 : ins.map (fun r => σ r.1 (r.2.map (σ.ev E))) =
        (ins.map fun a => (renameTo x (.sym y) a.1, a.2.map (Expr.subs · (.sym x) (.sym y)))).map
          (fun r => τ r.1 (r.2.map (τ.ev E))) := by
      rw [List.map_map]
      refine List.map_congr_left fun a hi => ?_
      simp only [Function.comp]
      rw [← h.evs (l := a.2) fun hh => h2 (List.mem_flatMap.2 ⟨a, hi, hh⟩)]
      rw [h.get (z := a.1) fun hh => h1 (List.mem_map.2 ⟨a, hi, hh⟩)]
    rw [← e2]
    exact h.set hxy (Ne.symm h3) _ _
  | lib op rs ws =>
    simp only [Stmt.names, List.mem_append, not_or] at hy
    simp only [Stmt.replace, Stmt.run]
    have e1 : rs.map σ = (rs.map (renameTo x (.sym y))).map τ := by
      rw [List.map_map]
      exact List.map_congr_left fun a hi => h.get fun hh => hy.1 (hh ▸ hi)
    rw [← e1]
    exact h.setMany hxy hy.2 _

theorem runBlock_rename {E : Env} {x y : String} (hxy : x ≠ y) (l : List Stmt) (hy : y ∉ l.flatMap Stmt.names) {σ τ : St}
    (h : Ren x y σ τ) : Ren x y (runBlock E l σ) (runBlock E (l.map (Stmt.replace x (.sym y))) τ) := by
  induction l generalizing σ τ with
  | nil => exact h
  | cons a t ih =>
    simp only [List.flatMap_cons, List.mem_append, not_or] at hy
    exact ih hy.2 (a.rename_run hxy hy.1 h)

theorem runTrans_rename {E : Env} {x y : String} (hxy : x ≠ y) (t : Trans) (h1 : y ∉ t.map (·.1))
    (h2 : y ∉ t.flatMap fun a => a.2.atoms) {σ τ : St} (h : Ren x y σ τ) :
    Ren x y (runTrans E t σ) (runTrans E (transReplace x (.sym y) t) τ) := by
  have e : transOverwrite x (.sym y) t = t := by
    unfold transOverwrite
    simp only
    split
    · rw [List.filter_eq_self]
      intro a ha
      simp only [bne_iff_ne, ne_eq]
      exact fun hh => h1 (List.mem_map.2 ⟨a, ha, hh⟩)
    · rfl
  rw [transReplace, e]
  clear e
  induction t generalizing σ τ with
  | nil => exact h
  | cons a t ih =>
    simp only [List.map_cons, List.mem_cons, not_or] at h1
    simp only [List.flatMap_cons, List.mem_append, not_or] at h2
    refine ih h1.2 h2.2 ?_
    show Ren x y (σ.setS a.1 (σ.ev E a.2)) (τ.setS (renameTo x (.sym y) a.1) (τ.ev E (a.2.subs (.sym x) (.sym y))))
    rw [← h.ev h2.1]
    exact h.set hxy (Ne.symm h1.1) _ _

mutual
theorem Node.rename_bis (E : Env) (x y : String) (hxy : x ≠ y) : (n : Node) → y ∉ n.names → x ∉ n.rets →
    Rel.bis (Ren x y) (n.den E) ((n.replace x (.sym y)).den E)
  | .block l, hy, _ => by
    rw [Node.replace, Node.den, Node.den]
    exact Rel.upd_bis fun σ τ h => runBlock_rename hxy l hy h
  | .seq s, hy, hr => by rw [Node.replace, Node.den, Node.den]; exact s.rename_bis E x y hxy hy hr
  | .ifElse b, hy, hr => by rw [Node.replace, Node.den, Node.den]; exact b.rename_bis E x y hxy hy hr
  | .whileL s, hy, hr => by
    rw [Node.replace, Node.den, Node.den]; exact Rel.forever_bis (s.rename_bis E x y hxy hy hr)
  | .loop m i a c u s, hy, hr => by
    simp only [Node.names, List.mem_cons, List.mem_append, not_or] at hy
    obtain ⟨h1, ⟨⟨h2, h3⟩, h4⟩, h5⟩ := hy
    rw [Node.replace, Node.den, Node.den]
    refine Rel.seq_bis (Rel.upd_bis fun σ τ h => ?_)
      (Rel.iter_bis (fun σ τ h => h.cond h3) (fun σ τ h => ?_) (s.rename_bis E x y hxy h5 hr))
    · rw [← h.ev h2]; exact h.set hxy (Ne.symm h1) _ _
    · rw [← h.ev h4]; exact h.set hxy (Ne.symm h1) _ _
  | .brk, _, _ => by rw [Node.replace, Node.den]; exact Rel.exit_bis _ _
  | .cont, _, _ => by rw [Node.replace, Node.den]; exact Rel.exit_bis _ _
  | .ret d q, _, hr => by
    have : (!q && d == x) = false := by
      cases q
      · simp [Node.rets] at hr; simp [Ne.symm hr]
      · rfl
    rw [Node.replace, this, Node.den]
    simpa [Node.den] using Rel.exit_bis (Ren x y) (Ctl.ret d q)
theorem Seq.rename_bis (E : Env) (x y : String) (hxy : x ≠ y) : (s : Seq) → y ∉ s.names → x ∉ s.rets →
    Rel.bis (Ren x y) (s.den E) ((s.replace x (.sym y)).den E)
  | .nil, _, _ => by rw [Seq.replace, Seq.den]; exact Rel.upd_bis fun σ τ h => h
  | .cons n t s, hy, hr => by
    simp only [Seq.names, List.mem_append, not_or] at hy
    simp only [Seq.rets, List.mem_append, not_or] at hr
    rw [Seq.replace, Seq.den, Seq.den]
    exact Rel.seq_bis (n.rename_bis E x y hxy hy.1.1.1 hr.1) (Rel.seq_bis
      (Rel.upd_bis fun σ τ h => runTrans_rename hxy t hy.1.1.2 hy.1.2 h) (s.rename_bis E x y hxy hy.2 hr.2))
theorem Brs.rename_bis (E : Env) (x y : String) (hxy : x ≠ y) : (b : Brs) → y ∉ b.names → x ∉ b.rets →
    Rel.bis (Ren x y) (b.den E) ((b.replace x (.sym y)).den E)
  | .nil, _, _ => by rw [Brs.replace, Brs.den]; exact Rel.upd_bis fun σ τ h => h
  | .cons c s b, hy, hr => by
    simp only [Brs.names, List.mem_append, not_or] at hy
    simp only [Brs.rets, List.mem_append, not_or] at hr
    rw [Brs.replace, Brs.den, Brs.den]
    exact Rel.ite_bis (fun σ τ h => h.cond hy.1.1) (s.rename_bis E x y hxy hy.1.2 hr.1) (b.rename_bis E x y hxy hy.2 hr.2)
end

/-- **C51 (renaming).** Replacing a symbol by an unused symbol renames it: from memories in which `y` holds what `x` held
and that agree elsewhere, both programs have the same terminating executions, ending in memories related in the same
way. -/
theorem replace_symbol_renames (E : Env) (n : Node) (x y : String) (hxy : x ≠ y) (hy : y ∉ n.names) (hr : x ∉ n.rets)
    (σ τ : St) (h : ∀ z, z ≠ x → z ≠ y → σ z = τ z) (hv : σ x = τ y) (c : Ctl) :
    (∀ σ', n.den E σ c σ' → ∃ τ', (n.replace x (.sym y)).den E τ c τ' ∧ (∀ z, z ≠ x → z ≠ y → σ' z = τ' z) ∧ σ' x = τ' y) ∧
    (∀ τ', (n.replace x (.sym y)).den E τ c τ' → ∃ σ', n.den E σ c σ' ∧ (∀ z, z ≠ x → z ≠ y → σ' z = τ' z) ∧ σ' x = τ' y) :=
  ⟨fun σ' hs => (n.rename_bis E x y hxy hy hr).1 σ τ c σ' ⟨h, hv⟩ hs,
   fun τ' hs => (n.rename_bis E x y hxy hy hr).2 τ σ c τ' ⟨h, hv⟩ hs⟩

example : "j" ∉ exCopy.names ∧ "i" ∉ exCopy.rets ∧ "i" ∈ exCopy.names := by decide

/-- **C51 (substitution, partial).** Replacing a symbol by an expression `r` gives a node that behaves like the original one
started with `x` bound to the value of `r`, provided the node neither assigns `x` nor a symbol of `r`, does not use `x`
as a boolean, and does not access `x` as data.  Missing: data accesses to `x` (`replace_access_violated`). -/
theorem replace_expression_partial (E : Env) (n : Node) (x : String) (r : Expr) (ha : x ∉ n.accessed) (hw : x ∉ n.written)
    (hb : x ∉ n.boolSyms) (hr : ∀ o ∈ n.written, o ∉ r.atoms) (τ : St) (v : Int) (hv : r.eval (τ.val E) = .fin v) (c : Ctl) :
    (∀ σ', n.den E (τ.setS x v) c σ' → ∃ τ', (n.replace x r).den E τ c τ' ∧ ∀ z, z ≠ x → σ' z = τ' z) ∧
    (∀ τ', (n.replace x r).den E τ c τ' → ∃ σ', n.den E (τ.setS x v) c σ' ∧ ∀ z, z ≠ x → σ' z = τ' z) := by
  have hs : Subst E x r (τ.setS x v) τ := ⟨fun z hz => St.setS_other _ _ hz, by rw [St.setS_same]; exact hv⟩
  constructor
  · intro σ' h
    obtain ⟨τ', h1, h2⟩ := (n.replace_bis E x r ha hw hb hr).1 _ _ c σ' hs h
    exact ⟨τ', h1, h2.1⟩
  · intro τ' h
    obtain ⟨σ', h1, h2⟩ := (n.replace_bis E x r ha hw hb hr).2 _ _ c τ' hs h
    exact ⟨σ', h1, h2.1⟩

example : let n : Node := .block [.tasklet "assign" [("B", [.sym "i"])] "A" [.add [.sym "i", .int 1]]]
    "i" ∉ n.accessed ∧ "i" ∉ n.written ∧ "i" ∉ n.boolSyms ∧ (∀ o ∈ n.written, o ∉ (Expr.add [.sym "k", .int 2]).atoms) := by
  decide

/-- **C51 fails for data accesses.** A node that reads the symbol through an access node keeps reading it after the
replacement by an integer (access_node.cpp:56), so the replaced node does not behave like the original with the symbol
bound to that integer. -/
theorem replace_access_violated : ∃ (E : Env) (n : Node) (x : String) (v : Int) (τ : St) (σ' : St),
    x ∉ n.written ∧ n.den E (τ.setS x v) .normal σ' ∧
    ∀ τ', (n.replace x (.int v)).den E τ .normal τ' → σ' "A" ≠ τ' "A" := by
  refine ⟨exEnv, .block [.tasklet "assign" [("i", [])] "A" [.int 0]], "i", 5, fun _ _ => 0,
    _, by decide, by rw [Node.den]; exact ⟨rfl, rfl⟩, ?_⟩
  intro τ' h he
  rw [Node.replace, Node.den] at h
  obtain ⟨_, rfl⟩ := h
  have := congrFun he [0]
  revert this
  decide

theorem Stmt.users_written (s : Stmt) (x : String) (h : writes s.users x) :
    x ∈ (match s with | .tasklet _ _ o _ => [o] | .lib _ _ w => w) := by
  cases s <;> simp [writes, Stmt.users, readsOf] at h ⊢ <;> exact h

mutual
theorem Node.users_written (x : String) : (n : Node) → writes n.users x → x ∈ n.written
  | .block l, h => by
    simp only [Node.users, writes, List.mem_flatMap] at h
    obtain ⟨s, hs, h⟩ := h
    simp only [Node.written, List.mem_flatMap]
    exact ⟨s, hs, s.users_written x h⟩
  | .seq s, h => by rw [Node.users] at h; rw [Node.written]; exact s.users_written x h
  | .ifElse b, h => by
    rw [Node.users, writes_append] at h
    rw [Node.written]
    exact b.users_written x (h.resolve_left writes_readsOf)
  | .whileL s, h => by rw [Node.users] at h; rw [Node.written]; exact s.users_written x h
  | .loop m i a c u s, h => by
    simp only [Node.users, writes_append] at h
    rw [Node.written, List.mem_cons]
    rcases h with ((((h | h) | h) | h) | h) | h
    · exact absurd h writes_readsOf
    · simp [writes] at h; exact Or.inl h
    · exact absurd h writes_readsOf
    · exact Or.inr (s.users_written x h)
    · exact absurd h writes_readsOf
    · simp [writes] at h; exact Or.inl h
  | .brk, h => by simp [Node.users, writes] at h
  | .cont, h => by simp [Node.users, writes] at h
  | .ret d q, h => by simp only [Node.users] at h; split at h <;> simp [writes] at h
theorem Seq.users_written (x : String) : (s : Seq) → writes s.users x → x ∈ s.written
  | .nil, h => by simp [Seq.users, writes] at h
  | .cons n t r, h => by
    simp only [Seq.users] at h
    simp only [Seq.written, List.mem_append]
    split at h
    · exact Or.inl (Or.inl (n.users_written x h))
    · rw [writes_append, writes_append] at h
      rcases h with (h | h) | h
      · exact Or.inl (Or.inl (n.users_written x h))
      · simp only [transUsers, writes_append] at h
        have h := h.resolve_left writes_readsOf
        simp [writes] at h
        exact Or.inl (Or.inr (List.mem_map.2 (by simpa using h)))
      · exact Or.inr (r.users_written x h)
theorem Brs.users_written (x : String) : (b : Brs) → writes b.users x → x ∈ b.written
  | .nil, h => by simp [Brs.users, writes] at h
  | .cons c s r, h => by
    simp only [Brs.users, writes_append] at h
    simp only [Brs.written, List.mem_append]
    exact h.imp (s.users_written x) (r.users_written x)
end

/-- a container that is not written keeps its content -/
theorem Seq.keeps (E : Env) (s : Seq) (x : String) (hx : x ∉ s.written) {σ : St} {c : Ctl} {σ' : St}
    (h : s.den E σ c σ') : σ' x = σ x :=
  s.frame_inv E x (σ x) (fun hw => hx (s.users_written x hw)) σ c σ' rfl h

/-- a container that is not written keeps its content -/
theorem Node.keeps (E : Env) (s : Node) (x : String) (hx : x ∉ s.written) {σ : St} {c : Ctl} {σ' : St}
    (h : s.den E σ c σ') : σ' x = σ x :=
  s.frame_inv E x (σ x) (fun hw => hx (s.users_written x hw)) σ c σ' rfl h

end Docc.IR
