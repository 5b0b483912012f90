import Verif.IR.OutLocal
import Verif.IR.OffloadLemmas

/-! Lemmas for C92: a loop body that accesses a container at one place only does the same when this place is moved. -/
namespace Docc.IR
open Docc.Sym

/-- `τ` holds at `C[k]` what `σ` holds at `C[L]`; the other places of `C` are `a` and `b`; the symbols `ys` have the values `f`. -/
structure Moved (C : String) (L k : List Int) (a b : List Int → Int) (ys : List String) (f : String → Int) (σ τ : St) : Prop where
  other : ∀ z, z ≠ C → σ z = τ z
  here : σ C L = τ C k
  rest : ∀ l, l ≠ L → σ C l = a l
  away : ∀ l, l ≠ k → τ C l = b l
  froz : ∀ y ∈ ys, σ y [] = f y

/-- the containers a computation writes -/
def Stmt.wrote : Stmt → List String
  | .tasklet _ _ o _ => [o]
  | .lib _ _ w => w

section
variable {E : Env} {C : String} {L k : List Int} {a b : List Int → Int} {ys : List String} {f : String → Int} {s s' : List Expr}

theorem Moved.val {σ τ : St} (h : Moved C L k a b ys f σ τ) {z : String} (hz : z = C → L = [] ∧ k = []) : σ z [] = τ z [] := by
  by_cases hc : z = C
  · obtain ⟨h1, h2⟩ := hz hc
    subst hc
    have := h.here
    rwa [h1, h2] at this
  · rw [h.other z hc]

theorem Moved.ev {σ τ : St} (h : Moved C L k a b ys f σ τ) {e : Expr} (he : C ∈ e.atoms → L = [] ∧ k = []) : σ.ev E e = τ.ev E e :=
  St.ev_congr E fun z hz => h.val fun hc => he (hc ▸ hz)

theorem Moved.cond {σ τ : St} (h : Moved C L k a b ys f σ τ) {c : Cond} (he : C ∈ c.atoms → L = [] ∧ k = []) : σ.cond E c = τ.cond E c :=
  St.cond_congr E fun z hz => h.val fun hc => he (hc ▸ hz)

theorem Moved.set {σ τ : St} (h : Moved C L k a b ys f σ τ) {o : String} (ho : o ≠ C) (hy : o ∉ ys) (i : List Int) (v : Int) :
    Moved C L k a b ys f (σ.set o i v) (τ.set o i v) := by
  refine ⟨fun z hz => ?_, ?_, fun l hl => ?_, fun l hl => ?_, fun y hy' => ?_⟩
  · funext j; simp only [St.set, h.other z hz]
  · simp [St.set, Ne.symm ho, h.here]
  · simp [St.set, Ne.symm ho, h.rest l hl]
  · simp [St.set, Ne.symm ho, h.away l hl]
  · have : y ≠ o := fun e => hy (e ▸ hy')
    simp [St.set, this, h.froz y hy']

theorem Moved.setC {σ τ : St} (h : Moved C L k a b ys f σ τ) (hy : C ∉ ys) (v : Int) :
    Moved C L k a b ys f (σ.set C L v) (τ.set C k v) := by
  refine ⟨fun z hz => ?_, ?_, fun l hl => ?_, fun l hl => ?_, fun y hy' => ?_⟩
  · funext j; simp [St.set, hz, h.other z hz]
  · simp [St.set]
  · simp [St.set, hl, h.rest l hl]
  · simp [St.set, hl, h.away l hl]
  · have : y ≠ C := fun e => hy (e ▸ hy')
    simp [St.set, this, h.froz y hy']

theorem Moved.setMany {σ τ : St} (h : Moved C L k a b ys f σ τ) {ws : List String} (hc : C ∉ ws) (hy : ∀ y ∈ ys, y ∉ ws) (g : Nat → List Int → Int) :
    Moved C L k a b ys f (σ.setMany ws g) (τ.setMany ws g) := by
  refine ⟨fun z hz => ?_, ?_, fun l hl => ?_, fun l hl => ?_, fun y hy' => ?_⟩
  · have key : ∀ (l : List (String × Nat)) (σ τ : St), σ z = τ z →
        (l.foldl (fun (s : St) wk => fun y => if y = wk.1 then g wk.2 else s y) σ) z = (l.foldl (fun (s : St) wk => fun y => if y = wk.1 then g wk.2 else s y) τ) z := by
      intro l
      induction l with
      | nil => intro σ τ h; exact h
      | cons w l ih =>
        intro σ τ h
        refine ih _ _ ?_
        dsimp only
        split
        · rfl
        · exact h
    exact key _ _ _ (h.other z hz)
  · rw [setMany_not_mem _ _ _ hc, setMany_not_mem _ _ _ hc]; exact h.here
  · rw [setMany_not_mem _ _ _ hc]; exact h.rest l hl
  · rw [setMany_not_mem _ _ _ hc]; exact h.away l hl
  · rw [setMany_not_mem _ _ _ (hy y hy')]; exact h.froz y hy'

/-- what the accesses of the node look like -/
structure PlaceOk (E : Env) (C : String) (L k : List Int) (ys : List String) (f : String → Int) (s s' : List Expr) : Prop where
  source : ∀ σ : St, (∀ y ∈ ys, σ y [] = f y) → s.map (σ.ev E) = L
  target : ∀ σ : St, (∀ y ∈ ys, σ y [] = f y) → s'.map (σ.ev E) = k
  scalar : s = [] → s' = []
  notC : C ∉ ys

theorem PlaceOk.sym (P : PlaceOk E C L k ys f s s') (σ : St) (hσ : ∀ y ∈ ys, σ y [] = f y) (h : [] = s) : L = [] ∧ k = [] := by
  have h1 := P.source σ hσ
  have h2 := P.target σ hσ
  rw [P.scalar h.symm] at h2
  rw [← h] at h1
  exact ⟨h1.symm, h2.symm⟩

theorem Stmt.clear_run (P : PlaceOk E C L k ys f s s') (q : Stmt) (hp : ∀ u ∈ q.places C, u = s) (hl : ∀ r w op, q = .lib op r w → C ∉ r ++ w)
    (hw : ∀ y ∈ ys, y ∉ q.wrote) {σ τ : St} (h : Moved C L k a b ys f σ τ) :
    Moved C L k a b ys f (q.run E σ) ((q.clearTo C s').run E τ) := by
  have hτ : ∀ y ∈ ys, τ y [] = f y := fun y hy => by rw [← h.froz y hy, h.other y fun e => P.notC (e ▸ hy)]
  cases q with
  | tasklet op ins out sub =>
    have hsym : C ∈ (ins.flatMap fun r => Expr.atomsL r.2) ++ Expr.atomsL sub → L = [] ∧ k = [] := fun hm =>
      P.sym σ h.froz (hp [] (by simp only [Stmt.places, List.mem_append]; right; rw [if_pos (by simpa using hm)]; simp))
    have hval : (ins.map fun r => σ r.1 (r.2.map (σ.ev E))) =
        ((ins.map fun r => if r.1 = C then (C, s') else r).map fun r => τ r.1 (r.2.map (τ.ev E))) := by
      rw [List.map_map]
      refine List.map_congr_left fun r hr => ?_
      simp only [Function.comp]
      by_cases hc : r.1 = C
      · rw [if_pos hc]
        have : r.2 = s := hp r.2 (by
          simp only [Stmt.places, List.mem_append, List.mem_map, List.mem_filter]
          exact Or.inl (Or.inl ⟨r, ⟨hr, by simpa using hc⟩, rfl⟩))
        rw [hc, this, P.source σ h.froz]
        show σ C L = τ C (s'.map (τ.ev E))
        rw [P.target τ hτ, h.here]
      · rw [if_neg hc, h.other _ hc]
        congr 1
        exact List.map_congr_left fun e he => h.ev fun hm => hsym (by
          rw [List.mem_append, List.mem_flatMap]; exact Or.inl ⟨r, hr, (Expr.mem_atomsL C r.2).2 ⟨e, he, hm⟩⟩)
    have hout : ∀ y ∈ ys, y ≠ out := fun y hy e => hw y hy (by simp [Stmt.wrote, e])
    simp only [Stmt.clearTo, Stmt.run]
    rw [← hval]
    generalize (E.op op (ins.map fun r => σ r.1 (r.2.map (σ.ev E)))) = v
    by_cases hc : out = C
    · rw [if_pos hc]
      have hs : sub = s := hp sub (by simp [Stmt.places, hc])
      rw [hc, hs, P.source σ h.froz, P.target τ hτ]
      exact h.setC P.notC v
    · rw [if_neg hc]
      have : sub.map (σ.ev E) = sub.map (τ.ev E) := List.map_congr_left fun e he => h.ev fun hm => hsym (by
        rw [List.mem_append]; exact Or.inr ((Expr.mem_atomsL C sub).2 ⟨e, he, hm⟩))
      rw [this]
      exact h.set hc (fun hm => hout _ hm rfl) _ _
  | lib op r w =>
    have hc := hl r w op rfl
    simp only [List.mem_append, not_or] at hc
    simp only [Stmt.clearTo, Stmt.run]
    have : r.map σ = r.map τ := List.map_congr_left fun z hz => h.other z fun e => hc.1 (e ▸ hz)
    rw [this]
    exact h.setMany hc.2 (fun y hy hm => hw y hy (by simpa [Stmt.wrote] using hm)) _

theorem runBlock_clear (P : PlaceOk E C L k ys f s s') : ∀ (l : List Stmt), (∀ u ∈ l.flatMap (Stmt.places C), u = s) →
    C ∉ (Node.block l).libs → (∀ y ∈ ys, y ∉ l.flatMap Stmt.wrote) → ∀ {σ τ : St}, Moved C L k a b ys f σ τ →
    Moved C L k a b ys f (runBlock E l σ) (runBlock E (l.map (Stmt.clearTo C s')) τ)
  | [], _, _, _, _, _, h => h
  | q :: l, hp, hl, hw, _, _, h => by
    simp only [List.flatMap_cons, List.mem_append] at hp
    simp only [Node.libs, List.flatMap_cons, List.mem_append, not_or] at hl
    simp only [List.flatMap_cons, List.mem_append, not_or] at hw
    refine runBlock_clear P l (fun u hu => hp u (Or.inr hu)) hl.2 (fun y hy => (hw y hy).2)
      (q.clear_run P (fun u hu => hp u (Or.inl hu)) ?_ (fun y hy => (hw y hy).1) h)
    rintro r w op rfl
    exact hl.1

theorem symSub_mem {C : String} {l : List String} (h : C ∈ l) : [] ∈ symSub C l := by simp [symSub, h]

theorem runTrans_clear (P : PlaceOk E C L k ys f s s') : ∀ (t : Trans), (C ∈ t.map (·.1) ++ t.flatMap (fun a => a.2.atoms) → [] = s) →
    (∀ y ∈ ys, y ∉ t.map (·.1)) → ∀ {σ τ : St}, Moved C L k a b ys f σ τ → Moved C L k a b ys f (runTrans E t σ) (runTrans E t τ)
  | [], _, _, _, _, h => h
  | q :: t, hp, hw, σ, τ, h => by
    simp only [List.map_cons, List.mem_cons, not_or] at hw
    have hp' : C = q.1 ∨ C ∈ q.2.atoms → L = [] ∧ k = [] := fun hc => P.sym σ h.froz (hp (by
      simp only [List.map_cons, List.flatMap_cons, List.cons_append, List.mem_cons, List.mem_append]
      rcases hc with h | h
      · exact Or.inl h
      · exact Or.inr (Or.inr (Or.inl h))))
    refine runTrans_clear P t (fun hc => hp ?_) (fun y hy => (hw y hy).2) ?_
    · simp only [List.map_cons, List.flatMap_cons, List.cons_append, List.mem_cons, List.mem_append] at hc ⊢
      rcases hc with h | h
      · exact Or.inr (Or.inl h)
      · exact Or.inr (Or.inr (Or.inr h))
    · show Moved C L k a b ys f (σ.setS q.1 (σ.ev E q.2)) (τ.setS q.1 (τ.ev E q.2))
      rw [h.ev fun hc => hp' (Or.inr hc)]
      by_cases hc : q.1 = C
      · obtain ⟨h1, h2⟩ := hp' (Or.inl hc.symm)
        rw [hc]
        have := h.setC P.notC (τ.ev E q.2)
        rw [h1, h2] at this ⊢
        exact this
      · exact h.set hc (fun hm => (hw _ hm).1 rfl) _ _

theorem Moved.setI (P : PlaceOk E C L k ys f s s') {i : String} {e : Expr} (hp : C = i ∨ C ∈ e.atoms → [] = s) (hi : i ∉ ys) {σ τ : St}
    (h : Moved C L k a b ys f σ τ) : Moved C L k a b ys f (σ.setS i (σ.ev E e)) (τ.setS i (τ.ev E e)) := by
  have := runTrans_clear P [(i, e)] (fun hc => hp (by simpa using hc)) (fun y hy hm => hi ((by simpa using hm : y = i) ▸ hy)) h
  exact this

mutual
theorem Node.clear_bis (P : PlaceOk E C L k ys f s s') : (n : Node) → (∀ u ∈ n.places C, u = s) → C ∉ n.libs → (∀ y ∈ ys, y ∉ n.written) →
    Rel.bis (Moved C L k a b ys f) (n.den E) ((n.clearTo C s').den E)
  | .block l, hp, hl, hw => by
    rw [Node.clearTo, Node.den, Node.den]
    exact Rel.upd_bis fun σ τ h => runBlock_clear P l hp hl hw h
  | .seq q, hp, hl, hw => by rw [Node.clearTo, Node.den, Node.den]; exact q.clear_bis P hp hl hw
  | .ifElse q, hp, hl, hw => by rw [Node.clearTo, Node.den, Node.den]; exact q.clear_bis P hp hl hw
  | .whileL q, hp, hl, hw => by rw [Node.clearTo, Node.den, Node.den]; exact Rel.forever_bis (q.clear_bis P hp hl hw)
  | .loop m i x c u q, hp, hl, hw => by
    simp only [Node.places, List.mem_append] at hp
    simp only [Node.written, List.mem_cons, not_or] at hw
    have hs : C ∈ i :: (x.atoms ++ c.atoms ++ u.atoms) → [] = s := fun hc => hp [] (Or.inl (symSub_mem hc))
    have hi : i ∉ ys := fun hm => (hw i hm).1 rfl
    rw [Node.clearTo, Node.den, Node.den]
    refine Rel.seq_bis (Rel.upd_bis fun σ τ h => h.setI P (fun hc => hs ?_) hi)
      (Rel.iter_bis (fun σ τ h => h.cond fun hc => P.sym σ h.froz (hs ?_)) (fun σ τ h => h.setI P (fun hc => hs ?_) hi)
        (q.clear_bis P (fun v hv => hp v (Or.inr hv)) hl fun y hy => (hw y hy).2))
    · simp only [List.mem_cons, List.mem_append]; rcases hc with h | h <;> simp [h]
    · simp only [List.mem_cons, List.mem_append]; simp [hc]
    · simp only [List.mem_cons, List.mem_append]; rcases hc with h | h <;> simp [h]
  | .brk, _, _, _ => by rw [Node.clearTo, Node.den]; exact Rel.exit_bis _ _
  | .cont, _, _, _ => by rw [Node.clearTo, Node.den]; exact Rel.exit_bis _ _
  | .ret d q, _, _, _ => by rw [Node.clearTo, Node.den]; exact Rel.exit_bis _ _
theorem Seq.clear_bis (P : PlaceOk E C L k ys f s s') : (q : Seq) → (∀ u ∈ q.places C, u = s) → C ∉ q.libs → (∀ y ∈ ys, y ∉ q.written) →
    Rel.bis (Moved C L k a b ys f) (q.den E) ((q.clearTo C s').den E)
  | .nil, _, _, _ => by rw [Seq.clearTo, Seq.den]; exact Rel.upd_bis fun σ τ h => h
  | .cons n t r, hp, hl, hw => by
    simp only [Seq.places, List.mem_append] at hp
    simp only [Seq.libs, List.mem_append, not_or] at hl
    simp only [Seq.written, List.mem_append, not_or] at hw
    rw [Seq.clearTo, Seq.den, Seq.den]
    exact Rel.seq_bis (n.clear_bis P (fun u hu => hp u (Or.inl (Or.inl hu))) hl.1 fun y hy => (hw y hy).1.1) (Rel.seq_bis
      (Rel.upd_bis fun σ τ h => runTrans_clear P t (fun hc => hp [] (Or.inl (Or.inr (symSub_mem hc)))) (fun y hy => (hw y hy).1.2) h)
      (r.clear_bis P (fun u hu => hp u (Or.inr hu)) hl.2 fun y hy => (hw y hy).2))
theorem Brs.clear_bis (P : PlaceOk E C L k ys f s s') : (q : Brs) → (∀ u ∈ q.places C, u = s) → C ∉ q.libs → (∀ y ∈ ys, y ∉ q.written) →
    Rel.bis (Moved C L k a b ys f) (q.den E) ((q.clearTo C s').den E)
  | .nil, _, _, _ => by rw [Brs.clearTo, Brs.den]; exact Rel.upd_bis fun σ τ h => h
  | .cons c q r, hp, hl, hw => by
    simp only [Brs.places, List.mem_append] at hp
    simp only [Brs.libs, List.mem_append, not_or] at hl
    simp only [Brs.written, List.mem_append, not_or] at hw
    rw [Brs.clearTo, Brs.den, Brs.den]
    exact Rel.ite_bis (fun σ τ h => h.cond fun hc => P.sym σ h.froz (hp [] (Or.inl (Or.inl (symSub_mem hc)))))
      (q.clear_bis P (fun u hu => hp u (Or.inl (Or.inr hu))) hl.1 fun y hy => (hw y hy).1)
      (r.clear_bis P (fun u hu => hp u (Or.inr hu)) hl.2 fun y hy => (hw y hy).2)
end

end
end Docc.IR
