/-
`std::to_string` for integers: decimal digits, leading '-' for negative numbers.
-/
namespace Docc

/-- A C++ `std::string`. -/
abbrev Str := List Char

/-- The digit character of `d < 10`. -/
def digit (d : Nat) : Char := Char.ofNat (48 + d)

/-- `std::to_string` of a non-negative integer. -/
def dec (n : Nat) : Str := if _h : n < 10 then [digit n] else dec (n / 10) ++ [digit (n % 10)]
termination_by n
decreasing_by omega

/-- `std::to_string` of a signed integer. -/
def decInt : Int → Str
  | .ofNat n => dec n
  | .negSucc n => '-' :: dec (n + 1)

theorem digit_inj : ∀ a b : Nat, a < 10 → b < 10 → digit a = digit b → a = b := by
  have : ∀ a b : Fin 10, digit a.1 = digit b.1 → a = b := by decide
  intro a b ha hb h
  exact congrArg Fin.val (this ⟨a, ha⟩ ⟨b, hb⟩ h)

theorem digit_isDigit (a : Nat) (h : a < 10) : (digit a).isDigit = true := by
  have : ∀ a : Fin 10, (digit a.1).isDigit = true := by decide
  exact this ⟨a, h⟩

theorem dec_isDigit (n : Nat) : ∀ c ∈ dec n, c.isDigit = true := by
  induction n using Nat.strongRecOn with
  | _ n ih =>
    unfold dec
    split
    · rename_i h; intro c hc; simp only [List.mem_singleton] at hc; subst hc; exact digit_isDigit _ h
    · rename_i h
      intro c hc
      rcases List.mem_append.mp hc with hc | hc
      · exact ih (n / 10) (by omega) c hc
      · simp only [List.mem_singleton] at hc; subst hc; exact digit_isDigit _ (by omega)

theorem dec_ne_nil (n : Nat) : dec n ≠ [] := by
  unfold dec; split <;> simp

theorem dec_inj : ∀ a b : Nat, dec a = dec b → a = b := by
  intro a
  induction a using Nat.strongRecOn with
  | _ a ih =>
    intro b h
    rw [dec.eq_def a, dec.eq_def b] at h
    split at h <;> split at h
    · rename_i h1 h2
      exact digit_inj _ _ h1 h2 (by simpa using h)
    · rename_i h1 h2
      exfalso
      have hl := congrArg List.length h
      have := List.length_pos_iff.mpr (dec_ne_nil (b / 10))
      simp at hl; exact dec_ne_nil _ hl
    · rename_i h1 h2
      exfalso
      have hl := congrArg List.length h
      simp at hl; exact dec_ne_nil _ hl
    · rename_i h1 h2
      have h' := List.append_inj' h rfl
      have e1 := ih (a / 10) (by omega) (b / 10) h'.1
      have e2 := digit_inj (a % 10) (b % 10) (by omega) (by omega) (by simpa using h'.2)
      omega

theorem decInt_inj (a b : Int) (h : decInt a = decInt b) : a = b := by
  cases a with
  | ofNat a =>
    cases b with
    | ofNat b => rw [dec_inj a b h]
    | negSucc b =>
      exfalso
      simp only [decInt] at h
      have := dec_isDigit a '-' (by rw [h]; simp)
      exact absurd this (by decide)
  | negSucc a =>
    cases b with
    | ofNat b =>
      exfalso
      simp only [decInt] at h
      have := dec_isDigit b '-' (by rw [← h]; simp)
      exact absurd this (by decide)
    | negSucc b =>
      simp only [decInt, List.cons.injEq, true_and] at h
      have := dec_inj _ _ h
      rw [show a = b by omega]

theorem dec_no_underscore (n : Nat) : '_' ∉ dec n := fun h => absurd (dec_isDigit n _ h) (by decide)

theorem decInt_no_underscore (a : Int) : '_' ∉ decInt a := by
  cases a with
  | ofNat a => exact dec_no_underscore a
  | negSucc a =>
    simp only [decInt, List.mem_cons, not_or]
    exact ⟨by decide, dec_no_underscore _⟩

/-- Splitting at the last occurrence of a separator is unique. -/
theorem split_last {c : Char} {x x' a a' : Str} (ha : c ∉ a) (ha' : c ∉ a')
    (h : x ++ c :: a = x' ++ c :: a') : x = x' ∧ a = a' := by
  rcases List.append_eq_append_iff.mp h with ⟨w, h1, h2⟩ | ⟨w, h1, h2⟩
  · cases w with
    | nil => simp_all
    | cons d w =>
      simp only [List.cons_append, List.cons.injEq] at h2
      exact absurd (by rw [h2.2]; simp) ha
  · cases w with
    | nil => simp_all
    | cons d w =>
      simp only [List.cons_append, List.cons.injEq] at h2
      exact absurd (by rw [h2.2]; simp) ha'

end Docc
