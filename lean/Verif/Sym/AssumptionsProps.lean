import Verif.Sym.Assumptions
import Verif.Sym.ExtremeProps

/-
C12: the assumptions derived from a type hold for every value of the type.
-/
namespace Docc.Sym
open Docc.Types

/-- Specification: the integer `v` is a value of the primitive type (two's complement). -/
def Representable (p : Prim) (v : Int) : Prop :=
  if p = .bool then v = 0 ∨ v = 1
  else if p.isSigned then -(2 : Int) ^ (p.bitWidth - 1) ≤ v ∧ v < 2 ^ (p.bitWidth - 1)
  else if p.isUnsigned then 0 ≤ v ∧ v < 2 ^ p.bitWidth
  else False

/-- the valuation meets every bound stored in one assumption about `x` -/
def Assum.HoldsFor (a : Assum) (x : String) (ρ : Val) : Prop :=
  (a.lower.eval ρ ≤ .fin (ρ.sym x) ∧ .fin (ρ.sym x) ≤ a.upper.eval ρ) ∧
  (∀ b ∈ a.lowers, b.eval ρ ≤ .fin (ρ.sym x)) ∧ (∀ b ∈ a.uppers, .fin (ρ.sym x) ≤ b.eval ρ) ∧
  (∀ b, a.tightLower = some b → b.eval ρ ≤ .fin (ρ.sym x)) ∧
  (∀ b, a.tightUpper = some b → .fin (ρ.sym x) ≤ b.eval ρ)

theorem Assums.hold_iff (A : Assums) (ρ : Val) : A.Hold ρ ↔ ∀ x a, A x = some a → a.HoldsFor x ρ := Iff.rfl

/-- C12: the bounds created from a scalar type hold for every representable value. -/
theorem create_scalar_sound (p : Prim) (a : Assum) (h : Assum.create (.scalar p) = some a)
    (x : String) (ρ : Val) (hv : Representable p (ρ.sym x)) : a.HoldsFor x ρ := by
  generalize hX : ρ.sym x = v at hv
  unfold Assum.HoldsFor
  rw [hX]
  cases p <;> simp [Assum.create] at h <;> subst h <;>
    simp [Representable, Prim.isSigned, Prim.isUnsigned, Prim.bitWidth] at hv <;>
    simp [Assum.ofBounds, Expr.eval, V.le_def, V.le] <;> omega

/-- C12: addresses are non-negative. -/
theorem create_pointer_sound (a : Assum) (h : Assum.create .pointer = some a) (x : String) (ρ : Val)
    (hv : 0 ≤ ρ.sym x) : a.HoldsFor x ρ := by
  simp [Assum.create] at h; subst h
  simp [Assum.HoldsFor, Assum.ofBounds, Expr.eval, V.le_def, V.le, hv]

/-- C12: exactly the integer primitive types are supported. -/
theorem create_scalar_supported (p : Prim) : (Assum.create (.scalar p)).isSome = p.isInteger := by
  cases p <;> rfl

/-- C12: for types up to 32 bits and `int64` the bounds are exact: meeting them means being representable. -/
theorem create_scalar_exact (p : Prim) (a : Assum) (h : Assum.create (.scalar p) = some a)
    (hp : p.bitWidth ≤ 32 ∨ p = .int64) (x : String) (ρ : Val) (hh : a.HoldsFor x ρ) :
    Representable p (ρ.sym x) := by
  obtain ⟨⟨h1, h2⟩, _⟩ := hh
  generalize ρ.sym x = v at h1 h2
  cases p <;> simp [Assum.create] at h <;> subst h <;>
    simp [Representable, Prim.isSigned, Prim.isUnsigned, Prim.bitWidth] at hp ⊢ <;>
    simp [Assum.ofBounds, Expr.eval, V.le_def, V.le] at h1 h2 <;> omega

/-- `lower_bound()`/`upper_bound()` combine all recorded bounds soundly. -/
theorem bounds_accessors_sound (a : Assum) (x : String) (ρ : Val) (h : a.HoldsFor x ρ) :
    a.lowerBound.eval ρ ≤ .fin (ρ.sym x) ∧ .fin (ρ.sym x) ≤ a.upperBound.eval ρ := by
  obtain ⟨_, h1, h2, h3, h4⟩ := h
  generalize hX : V.fin (ρ.sym x) = X at *
  have hXn : X ≠ .nan := by rw [← hX]; simp
  have hl : ∀ l : List Expr, (∀ b ∈ l, b.eval ρ ≤ X) →
      (joinLower l).eval ρ ≤ X := by
    intro l hl
    cases l with
    | nil => rw [← hX]; simp [joinLower, joinUpper, Expr.eval, V.le_def, V.le]
    | cons b r =>
      simp only [joinLower, joinUpper, Expr.eval, Expr.evalL_eq_map, List.map_cons]
      have hb := hl b (by simp)
      have hr : ∀ c ∈ r, c.eval ρ ≤ X := fun c hc => hl c (by simp [hc])
      clear hl
      generalize b.eval ρ = w at hb
      induction r generalizing w with
      | nil => simpa
      | cons c r ih =>
        simp only [List.map_cons, List.foldl_cons]
        exact ih (fun c hc => hr c (by simp [hc])) _ (V.max_le hb (hr c (by simp)))
  have hu : ∀ l : List Expr, (∀ b ∈ l, X ≤ b.eval ρ) →
      X ≤ (joinUpper l).eval ρ := by
    intro l hl
    cases l with
    | nil => rw [← hX]; simp [joinLower, joinUpper, Expr.eval, V.le_def, V.le]
    | cons b r =>
      simp only [joinLower, joinUpper, Expr.eval, Expr.evalL_eq_map, List.map_cons]
      have hb := hl b (by simp)
      have hr : ∀ c ∈ r, X ≤ c.eval ρ := fun c hc => hl c (by simp [hc])
      clear hl
      generalize b.eval ρ = w at hb
      induction r generalizing w with
      | nil => simpa
      | cons c r ih =>
        simp only [List.map_cons, List.foldl_cons]
        exact ih (fun c hc => hr c (by simp [hc])) _ (V.le_min hb (hr c (by simp)))
  constructor
  · unfold Assum.lowerBound
    have hlow := hl a.lowers h1
    cases ht : a.tightLower with
    | none => exact hlow
    | some t =>
      dsimp only
      split
      · exact h3 t ht
      · simp only [Expr.eval, Expr.evalL, List.foldl_cons, List.foldl_nil]
        exact V.max_le (h3 t ht) hlow
  · unfold Assum.upperBound
    have hup := hu a.uppers h2
    cases ht : a.tightUpper with
    | none => exact hup
    | some t =>
      dsimp only
      split
      · exact h4 t ht
      · simp only [Expr.eval, Expr.evalL, List.foldl_cons, List.foldl_nil]
        exact V.le_min (h4 t ht) hup

/-- A non-trivial instance: `uint16` with value 65535, plus a tighter recorded bound. -/
example : ∃ a, Assum.create (.scalar .uint16) = some a ∧ Representable .uint16 65535 ∧
    (a.addUpperBound (.sym "N")).HoldsFor "i" ⟨fun x => if x = "i" then 7 else 9, fun _ _ => 0⟩ ∧
    (a.addUpperBound (.sym "N")).upperBound = .min [.sym "N", .int 65535] := by
  refine ⟨_, rfl, by simp [Representable, Prim.isSigned, Prim.isUnsigned, Prim.bitWidth], ?_, rfl⟩
  simp [Assum.HoldsFor, Assum.ofBounds, Assum.addUpperBound, Expr.eval, V.le_def, V.le]

end Docc.Sym
