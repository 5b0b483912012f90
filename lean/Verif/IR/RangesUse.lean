import Verif.IR.RangesProps

/-
C84, consequences: what lies outside the ranges neither changes nor matters.
-/
namespace Docc.IR
open Docc.Sym

/-- `ρ'` differs from `ρ` at most at the locations `Bad`, and there both are as in `σ` and `τ` -/
structure ApartOn (Bad : Loc → Prop) (σ τ ρ ρ' : St) : Prop where
  same : ∀ l, ¬ Bad l → ρ.at l = ρ'.at l
  left : ∀ l, Bad l → ρ.at l = σ.at l
  right : ∀ l, Bad l → ρ'.at l = τ.at l

theorem ApartOn.symRel {Bad : Loc → Prop} {σ τ : St} (h0 : ∀ y, ¬ Bad (y, [])) : SymRel (ApartOn Bad σ τ) where
  sym h x := h.same (x, []) (h0 x)
  set {ρ ρ'} h x v := by
    refine ⟨fun l hl => ?_, fun l hl => ?_, fun l hl => ?_⟩
    · by_cases e : l = (x, [])
      · subst e; simp [St.at, St.setS, St.set]
      · have := h.same l hl
        simp only [St.at] at this ⊢
        simp only [St.setS, St.set]
        split
        · rfl
        · exact this
    · have hne : l ≠ (x, []) := by rintro rfl; exact h0 x hl
      rw [← h.left l hl]
      simp only [St.at, St.setS, St.set]
      split
      · rename_i e; exact absurd (Prod.ext e.1 e.2) hne
      · rfl
    · have hne : l ≠ (x, []) := by rintro rfl; exact h0 x hl
      rw [← h.right l hl]
      simp only [St.at, St.setS, St.set]
      split
      · rename_i e; exact absurd (Prod.ext e.1 e.2) hne
      · rfl

theorem ApartOn.stmt {Bad : Loc → Prop} {σ τ ρ ρ' : St} (h0 : ∀ y, ¬ Bad (y, [])) {E : Env} (s : Stmt) (h : ApartOn Bad σ τ ρ ρ')
    (ht : ∀ x idx, s.Touches E ρ x idx → ¬ Bad (x, idx)) : ApartOn Bad σ τ (s.run E ρ) (s.run E ρ') := by
  have hQ := ApartOn.symRel (σ := σ) (τ := τ) h0
  cases s with
  | tasklet op ins out sub =>
    have e1 : ∀ (l : List Expr), l.map (ρ'.ev E) = l.map (ρ.ev E) := fun l => List.map_congr_left fun e _ => (hQ.ev h e).symm
    have e2 : (ins.map fun r => ρ' r.1 (r.2.map (ρ'.ev E))) = ins.map fun r => ρ r.1 (r.2.map (ρ.ev E)) := by
      refine List.map_congr_left fun r hr => ?_
      rw [e1]
      exact (h.same (r.1, r.2.map (ρ.ev E)) (ht _ _ (Or.inl ⟨r, hr, rfl, rfl⟩))).symm
    simp only [Stmt.run]
    rw [e2, e1]
    have hout := ht out (sub.map (ρ.ev E)) (Or.inr ⟨rfl, rfl⟩)
    refine ⟨fun l hl => ?_, fun l hl => ?_, fun l hl => ?_⟩
    · have := h.same l hl
      simp only [St.at] at this ⊢
      simp only [St.set]
      split
      · rfl
      · exact this
    · have hne : l ≠ (out, sub.map (ρ.ev E)) := by rintro rfl; exact hout hl
      rw [← h.left l hl]
      simp only [St.at, St.set]
      split
      · rename_i e; exact absurd (Prod.ext e.1 e.2) hne
      · rfl
    · have hne : l ≠ (out, sub.map (ρ.ev E)) := by rintro rfl; exact hout hl
      rw [← h.right l hl]
      simp only [St.at, St.set]
      split
      · rename_i e; exact absurd (Prod.ext e.1 e.2) hne
      · rfl
  | lib op rs ws =>
    have e : rs.map ρ' = rs.map ρ := by
      refine List.map_congr_left fun r hr => funext fun j => ?_
      exact (h.same (r, j) (ht r j (Or.inl hr))).symm
    simp only [Stmt.run, e]
    refine ⟨fun l hl => ?_, fun l hl => ?_, fun l hl => ?_⟩
    · have := h.same l hl
      simp only [St.at] at this ⊢
      by_cases hw : l.1 ∈ ws
      · rw [setMany_mem ws _ ρ ρ' hw]
      · rw [setMany_not_mem ws _ ρ hw, setMany_not_mem ws _ ρ' hw]; exact this
    · have hw : l.1 ∉ ws := fun hw => ht l.1 l.2 (Or.inr hw) hl
      rw [← h.left l hl]
      simp only [St.at]
      rw [setMany_not_mem ws _ ρ hw]
    · have hw : l.1 ∉ ws := fun hw => ht l.1 l.2 (Or.inr hw) hl
      rw [← h.right l hl]
      simp only [St.at]
      rw [setMany_not_mem ws _ ρ' hw]

theorem ApartOn.block {Bad : Loc → Prop} {σ τ : St} (h0 : ∀ y, ¬ Bad (y, [])) {E : Env} : ∀ (l : List Stmt) {ρ ρ' : St}, ApartOn Bad σ τ ρ ρ' →
    (∀ l1 s l2, l = l1 ++ s :: l2 → ∀ x idx, s.Touches E (runBlock E l1 ρ) x idx → ¬ Bad (x, idx)) →
    ApartOn Bad σ τ (runBlock E l ρ) (runBlock E l ρ')
  | [], ρ, ρ', h, _ => h
  | s :: l, ρ, ρ', h, ht => by
    have h1 := ApartOn.stmt h0 s h (ht [] s l rfl)
    have := ApartOn.block h0 l h1 fun l1 s' l2 e x idx h2 => ht (s :: l1) s' l2 (by rw [e]; rfl) x idx h2
    exact this

/-- **C84 (what is not accessed).** Locations that an execution of a region does not access keep their contents, and their contents do not influence it:
from any other state that differs only there the region finishes in the same way and leaves the same contents elsewhere. -/
theorem unaccessed_irrelevant (E : Env) (n : Node) (σ : St) (Bad : Loc → Prop) (h0 : ∀ y, ¬ Bad (y, []))
    (h : ∀ x idx, n.Accesses E σ x idx → ¬ Bad (x, idx)) (c : Ctl) (σ' : St) (hr : n.den E σ c σ') :
    (∀ l, Bad l → σ'.at l = σ.at l) ∧
    ∀ τ : St, (∀ l, ¬ Bad l → σ.at l = τ.at l) → ∃ τ', n.den E τ c τ' ∧ (∀ l, ¬ Bad l → σ'.at l = τ'.at l) ∧ ∀ l, Bad l → τ'.at l = τ.at l := by
  have key : ∀ τ : St, (∀ l, ¬ Bad l → σ.at l = τ.at l) → ∃ τ', n.den E τ c τ' ∧ ApartOn Bad σ τ σ' τ' := by
    intro τ hτ
    refine Node.two_runs E (ApartOn.symRel h0) n σ τ (fun p l ρ ρ' hb hv hq => ?_) ⟨hτ, fun _ _ => rfl, fun _ _ => rfl⟩ c σ' hr
    exact ApartOn.block h0 l hq fun l1 s l2 e x idx ht => h x idx ⟨p, l, ρ, l1, s, l2, hb, hv, e, ht⟩
  constructor
  · obtain ⟨τ', _, h2⟩ := key σ fun _ _ => rfl
    exact h2.left
  · intro τ hτ
    obtain ⟨τ', h1, h2⟩ := key τ hτ
    exact ⟨τ', h1, h2.same, h2.right⟩

/-- **C84 (partial, copies).** If ranges are reported for some containers of a region, then a copy of these containers that covers only the elements within
the ranges (at least the indices `[lo, hi]` of every dimension) is enough to run the region: the elements outside keep their contents and do not influence
it.  Hypotheses as in `mem_access_ranges_partial`. -/
theorem ranges_suffice_partial (E : Env) (C : Ctx) (A : Assums × Assums) (n : Node) (σ : St) (rs : String → Option Range)
    (hA : ∀ p B τ, n.assums C A p = some B → n.vis E p σ τ → B.1.Hold (τ.val E))
    (hr : ∀ x r, rs x = some r → n.range C A x = .ok r ∧ r.undefined = false ∧ (∀ d ∈ r.dims, ∀ e, d.1 = some e ∨ d.2 = some e → e.fns = []) ∧
      n.NoLib x ∧ n.SubsetsStable x)
    (c : Ctl) (σ' : St) (hd : n.den E σ c σ') :
    (∀ x r idx, rs x = some r → idx ≠ [] → ¬ r.Contains E σ idx → σ' x idx = σ x idx) ∧
    ∀ τ : St, (∀ x idx, (∀ r, rs x = some r → idx = [] ∨ r.Contains E σ idx) → τ x idx = σ x idx) →
      ∃ τ', n.den E τ c τ' ∧ ∀ x idx, (∀ r, rs x = some r → idx = [] ∨ r.Contains E σ idx) → τ' x idx = σ' x idx := by
  have := unaccessed_irrelevant E n σ (fun l => ∃ r, rs l.1 = some r ∧ l.2 ≠ [] ∧ ¬ r.Contains E σ l.2) (fun y ⟨r, _, h, _⟩ => h rfl)
    (fun x idx ha ⟨r, h1, _, h2⟩ => by
      obtain ⟨a, b, d, e, f⟩ := hr x r h1
      exact h2 (mem_access_ranges_partial E C A n x r σ a b hA d e f idx ha)) c σ' hd
  have hnb : ∀ x idx, (¬ ∃ r, rs x = some r ∧ idx ≠ [] ∧ ¬ r.Contains E σ idx) ↔ ∀ r, rs x = some r → idx = [] ∨ r.Contains E σ idx := by
    intro x idx
    constructor
    · intro h r hr
      by_contra hc
      rw [not_or] at hc
      exact h ⟨r, hr, hc⟩
    · rintro h ⟨r, hr, h1, h2⟩
      rcases h r hr with h | h
      · exact h1 h
      · exact h2 h
  refine ⟨fun x r idx h1 h2 h3 => this.1 (x, idx) ⟨r, h1, h2, h3⟩, fun τ hτ => ?_⟩
  obtain ⟨τ', h1, h2, _⟩ := this.2 τ fun l hl => (hτ l.1 l.2 ((hnb _ _).1 hl)).symm
  exact ⟨τ', h1, fun x idx hx => (h2 (x, idx) ((hnb _ _).2 hx)).symm⟩

end Docc.IR
