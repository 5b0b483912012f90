import Verif.Types.Primitive

/-
C28: the primitive type tables are consistent.  The enum is finite, so case analysis covers every value; the
string side ranges over all strings.
-/
namespace Docc.Types
namespace Prim

/-- C28: parsing a printed primitive type restores it. -/
theorem fromStr_toStr (p : Prim) : fromStr p.toStr = some p := by cases p <;> rfl

theorem ite_cases {c : Prop} [Decidable c] {α : Type} {a b x : α} (h : (if c then a else b) = x) :
    (c ∧ a = x) ∨ (¬c ∧ b = x) := by
  by_cases hc : c
  · exact .inl ⟨hc, by simpa [hc] using h⟩
  · exact .inr ⟨hc, by simpa [hc] using h⟩

/-- C28: only the printed names are accepted; every other string is rejected. -/
theorem fromStr_eq_some_iff (s : String) (p : Prim) : fromStr s = some p ↔ s = p.toStr := by
  constructor
  · intro h
    simp only [fromStr] at h
    rcases ite_cases h with ⟨h1, h⟩ | ⟨_, h⟩
    · cases h; exact h1
    rcases ite_cases h with ⟨h1, h⟩ | ⟨_, h⟩
    · cases h; exact h1
    rcases ite_cases h with ⟨h1, h⟩ | ⟨_, h⟩
    · cases h; exact h1
    rcases ite_cases h with ⟨h1, h⟩ | ⟨_, h⟩
    · cases h; exact h1
    rcases ite_cases h with ⟨h1, h⟩ | ⟨_, h⟩
    · cases h; exact h1
    rcases ite_cases h with ⟨h1, h⟩ | ⟨_, h⟩
    · cases h; exact h1
    rcases ite_cases h with ⟨h1, h⟩ | ⟨_, h⟩
    · cases h; exact h1
    rcases ite_cases h with ⟨h1, h⟩ | ⟨_, h⟩
    · cases h; exact h1
    rcases ite_cases h with ⟨h1, h⟩ | ⟨_, h⟩
    · cases h; exact h1
    rcases ite_cases h with ⟨h1, h⟩ | ⟨_, h⟩
    · cases h; exact h1
    rcases ite_cases h with ⟨h1, h⟩ | ⟨_, h⟩
    · cases h; exact h1
    rcases ite_cases h with ⟨h1, h⟩ | ⟨_, h⟩
    · cases h; exact h1
    rcases ite_cases h with ⟨h1, h⟩ | ⟨_, h⟩
    · cases h; exact h1
    rcases ite_cases h with ⟨h1, h⟩ | ⟨_, h⟩
    · cases h; exact h1
    rcases ite_cases h with ⟨h1, h⟩ | ⟨_, h⟩
    · cases h; exact h1
    rcases ite_cases h with ⟨h1, h⟩ | ⟨_, h⟩
    · cases h; exact h1
    rcases ite_cases h with ⟨h1, h⟩ | ⟨_, h⟩
    · cases h; exact h1
    rcases ite_cases h with ⟨h1, h⟩ | ⟨_, h⟩
    · cases h; exact h1
    rcases ite_cases h with ⟨h1, h⟩ | ⟨_, h⟩
    · cases h; exact h1
    simp at h
  · rintro rfl; exact fromStr_toStr p

/-- C28: printing is injective. -/
theorem toStr_injective (p q : Prim) (h : p.toStr = q.toStr) : p = q := by
  have := fromStr_toStr p
  rw [h, fromStr_toStr] at this
  exact (Option.some.inj this).symm

/-- C28: sign conversions keep the width and are mutually inverse on the sized integers. -/
theorem sign_conversions (p : Prim) :
    p.asSigned.bitWidth = p.bitWidth ∧ p.asUnsigned.bitWidth = p.bitWidth ∧
    (p.isUnsigned = true → p.asSigned.isSigned = true ∧ p.asSigned.asUnsigned = p) ∧
    (p.isSigned = true → p.asUnsigned.isUnsigned = true ∧ p.asUnsigned.asSigned = p) ∧
    (p.isUnsigned = false → p.asSigned = p) ∧ (p.isSigned = false → p.asUnsigned = p) := by
  cases p <;> decide

/-- C28: the classes partition the enum: a primitive is void, an integer or a float, exclusively, and an
integer is bool, signed or unsigned, exclusively. -/
theorem classes_partition (p : Prim) :
    (p.isInteger = true → p.isFloatingPoint = false) ∧
    (p.isInteger = false → p.isFloatingPoint = false → p = .void) ∧
    (p.isInteger = true ↔ (p = .bool ∨ p.isSigned = true ∨ p.isUnsigned = true)) ∧
    ¬(p.isSigned = true ∧ p.isUnsigned = true) := by
  cases p <;> decide

/-- C28: `sizeof` is the smallest number of bytes that holds the bits. -/
theorem sizeOf_least (p : Prim) : p.bitWidth ≤ 8 * p.sizeOf ∧ ∀ k, p.bitWidth ≤ 8 * k → p.sizeOf ≤ k := by
  constructor
  · unfold sizeOf; omega
  · intro k h; unfold sizeOf; omega

example : fromStr "UInt16" = some .uint16 ∧ fromStr "uint16" = none ∧ (Prim.x86_fp80).sizeOf = 10 := by decide

end Prim
end Docc.Types
