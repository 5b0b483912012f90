import Verif.Sym.Expr
/-! Property theorems C09: substitution and symbol use are semantic. -/
namespace Docc.Sym

/-- C09 (uses/atoms agree). -/
theorem uses_iff_mem_atoms (x : String) (e : Expr) : e.uses x = true ↔ x ∈ e.atoms := by
  induction e using Expr.induct with
  | hint n => simp [Expr.uses, Expr.atoms]
  | hsym y => simp only [Expr.uses, Expr.atoms, List.mem_singleton, beq_iff_eq]; exact eq_comm
  | hinf b => simp [Expr.uses, Expr.atoms]
  | hnan => simp [Expr.uses, Expr.atoms]
  | hadd l ih | hmul l ih | hmax l ih | hmin l ih =>
    simp only [Expr.uses, Expr.atoms, Expr.usesL_iff, Expr.mem_atomsL]
    constructor
    · rintro ⟨e, he, h⟩; exact ⟨e, he, (ih e he).mp h⟩
    · rintro ⟨e, he, h⟩; exact ⟨e, he, (ih e he).mpr h⟩
  | hpow b e ihb ihe => simp [Expr.uses, Expr.atoms, ihb, ihe]
  | hfn f l ih =>
    simp only [Expr.uses, Expr.atoms, Expr.usesL_iff, Expr.mem_atomsL]
    constructor
    · rintro ⟨e, he, h⟩; exact ⟨e, he, (ih e he).mp h⟩
    · rintro ⟨e, he, h⟩; exact ⟨e, he, (ih e he).mpr h⟩

/-- C09 (frame).  The value of an expression depends only on the symbols in `atoms`. -/
theorem eval_congr_atoms (e : Expr) (ρ ρ' : Val) (hf : ρ.fn = ρ'.fn)
    (h : ∀ x ∈ e.atoms, ρ.sym x = ρ'.sym x) : e.eval ρ = e.eval ρ' := by
  have hl : ∀ l : List Expr, (∀ e ∈ l, (∀ x ∈ e.atoms, ρ.sym x = ρ'.sym x) → e.eval ρ = e.eval ρ') →
      (∀ x ∈ Expr.atomsL l, ρ.sym x = ρ'.sym x) → Expr.evalL ρ l = Expr.evalL ρ' l := by
    intro l ih h
    rw [Expr.evalL_eq_map, Expr.evalL_eq_map]
    apply List.map_congr_left
    intro e he
    exact ih e he (fun x hx => h x ((Expr.mem_atomsL x l).mpr ⟨e, he, hx⟩))
  induction e using Expr.induct with
  | hint n => rfl
  | hsym y => simp only [Expr.eval]; rw [h y (by simp [Expr.atoms])]
  | hinf b => rfl
  | hnan => rfl
  | hadd l ih | hmul l ih | hmax l ih | hmin l ih => simp only [Expr.eval, hl l ih h]
  | hpow b e ihb ihe =>
    simp only [Expr.eval]
    rw [ihb (fun x hx => h x (by simp [Expr.atoms, hx])), ihe (fun x hx => h x (by simp [Expr.atoms, hx]))]
  | hfn f l ih =>
    simp only [Expr.eval, hl l ih h]
    split
    · exact applyFn_fn ρ ρ' hf _ _
    · rfl

/-- C09 (uses).  If `uses(e, x)` is false, changing `x` does not change the value. -/
theorem eval_of_not_uses (e : Expr) (x : String) (h : e.uses x = false) (ρ : Val) (n : Int) :
    e.eval (ρ.set x n) = e.eval ρ := by
  apply eval_congr_atoms e (ρ.set x n) ρ rfl
  intro y hy
  simp only [Val.set]
  split
  · rename_i he
    subst he
    rw [← uses_iff_mem_atoms] at hy
    rw [h] at hy; cases hy
  · rfl

/-- C09 (subs).  Substituting an expression for a symbol evaluates like binding the symbol to the
expression's value. -/
theorem eval_subs_sym (e : Expr) (x : String) (r : Expr) (ρ : Val) (n : Int) (hr : r.eval ρ = .fin n) :
    (e.subs (.sym x) r).eval ρ = e.eval (ρ.set x n) := by
  have hl : ∀ l : List Expr, (∀ e ∈ l, (e.subs (.sym x) r).eval ρ = e.eval (ρ.set x n)) →
      Expr.evalL ρ (Expr.subsL l (.sym x) r) = Expr.evalL (ρ.set x n) l := by
    intro l ih
    rw [Expr.evalL_eq_map, Expr.evalL_eq_map, Expr.subsL_eq_map, List.map_map]
    exact List.map_congr_left ih
  induction e using Expr.induct with
  | hint m => simp [Expr.subs, Expr.eval]
  | hsym y =>
    simp only [Expr.subs, Expr.sym.injEq]
    split
    · rename_i h; subst h; rw [hr]; simp [Expr.eval, Val.set]
    · rename_i h; simp [Expr.eval, Val.set, h]
  | hinf b => simp [Expr.subs, Expr.eval]
  | hnan => simp [Expr.subs, Expr.eval]
  | hadd l ih | hmul l ih | hmax l ih | hmin l ih =>
    simp only [Expr.subs, reduceCtorEq, if_false, Expr.eval, hl l ih]
  | hpow b e ihb ihe => simp only [Expr.subs, reduceCtorEq, if_false, Expr.eval, ihb, ihe]
  | hfn f l ih =>
    simp only [Expr.subs, reduceCtorEq, if_false, Expr.eval, hl l ih]
    split
    · exact applyFn_fn _ _ rfl _ _
    · rfl

/-- C09 (subs of a general subexpression): replacing a subexpression by one of equal value does not change
the value. -/
theorem eval_subs_of_eq (e old new : Expr) (ρ : Val) (h : old.eval ρ = new.eval ρ) :
    (e.subs old new).eval ρ = e.eval ρ := by
  have hl : ∀ l : List Expr, (∀ e ∈ l, (e.subs old new).eval ρ = e.eval ρ) →
      Expr.evalL ρ (Expr.subsL l old new) = Expr.evalL ρ l := by
    intro l ih
    rw [Expr.evalL_eq_map, Expr.evalL_eq_map, Expr.subsL_eq_map, List.map_map]
    exact List.map_congr_left ih
  induction e using Expr.induct with
  | hint m | hsym y | hinf b | hnan =>
    simp only [Expr.subs]; split
    · rename_i he; rw [he, h]
    · rfl
  | hadd l ih | hmul l ih | hmax l ih | hmin l ih | hfn f l ih =>
    simp only [Expr.subs]; split
    · rename_i he; rw [he, h]
    · simp only [Expr.eval, hl l ih]
  | hpow b e ihb ihe =>
    simp only [Expr.subs]; split
    · rename_i he; rw [he, h]
    · simp only [Expr.eval, ihb, ihe]

/-- C09: after substituting a symbol by an expression without it, the symbol does not occur any more. -/
theorem not_uses_subs (e : Expr) (x : String) (r : Expr) (hr : r.uses x = false) :
    (e.subs (.sym x) r).uses x = false := by
  have hl : ∀ l : List Expr, (∀ e ∈ l, (e.subs (.sym x) r).uses x = false) →
      Expr.usesL x (Expr.subsL l (.sym x) r) = false := by
    intro l ih
    rw [← Bool.not_eq_true, Expr.usesL_iff, Expr.subsL_eq_map]
    rintro ⟨e, he, hu⟩
    obtain ⟨e', he', rfl⟩ := List.mem_map.mp he
    rw [ih e' he'] at hu; cases hu
  induction e using Expr.induct with
  | hint m => simp [Expr.subs, Expr.uses]
  | hsym y =>
    simp only [Expr.subs, Expr.sym.injEq]
    split
    · exact hr
    · rename_i h; simp [Expr.uses, h]
  | hinf b => simp [Expr.subs, Expr.uses]
  | hnan => simp [Expr.subs, Expr.uses]
  | hadd l ih | hmul l ih | hmax l ih | hmin l ih | hfn f l ih =>
    simp only [Expr.subs, reduceCtorEq, if_false, Expr.uses, hl l ih]
  | hpow b e ihb ihe => simp only [Expr.subs, reduceCtorEq, if_false, Expr.uses, ihb, ihe, Bool.or_self]

/-- Non-vacuity: `i + 2*N` with `i := N - 1` at `N = 5`. -/
example : (Expr.add [.sym "N", .int (-1)]).eval ⟨fun _ => 5, fun _ _ => 0⟩ = .fin 4 ∧
    ((Expr.add [.sym "i", .mul [.int 2, .sym "N"]]).subs (.sym "i") (.add [.sym "N", .int (-1)])).eval
      ⟨fun _ => 5, fun _ _ => 0⟩ = .fin 14 ∧
    (Expr.add [.sym "N", .int (-1)]).uses "i" = false := by
  refine ⟨rfl, ?_, rfl⟩
  rw [eval_subs_sym _ _ _ _ 4 rfl]
  rfl

end Docc.Sym
