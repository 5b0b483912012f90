import Verif.Builder.Misc
import Mathlib.Data.List.Basic
import Mathlib.Data.List.Nodup
import Mathlib.Data.List.Perm.Subperm

/-
C39: DebugInfo::merge.  C38: find_new_name.
-/
namespace Docc.Builder

/-- the range of `a` lies inside the range of `b`: positions are compared by line, then by column -/
def Covers (b a : DebugInfo) : Prop :=
  (b.startLine < a.startLine ∨ b.startLine = a.startLine ∧ b.startColumn ≤ a.startColumn) ∧
  (a.endLine < b.endLine ∨ a.endLine = b.endLine ∧ a.endColumn ≤ b.endColumn)

/-- both ranges are present and in the same file and function (or the function of one is unknown) -/
def Mergeable (l r : DebugInfo) : Prop :=
  l.has = true ∧ r.has = true ∧ l.filename = r.filename ∧ (l.function = r.function ∨ l.function = "" ∨ r.function = "")

theorem merge_eq {l r : DebugInfo} (h : Mergeable l r) : l.merge r =
    ⟨l.filename, if l.function = "" then r.function else l.function,
      (if l.startLine < r.startLine then (l.startLine, l.startColumn) else (r.startLine, r.startColumn)).1,
      (if l.startLine < r.startLine then (l.startLine, l.startColumn) else (r.startLine, r.startColumn)).2,
      (if l.endLine > r.endLine then (l.endLine, l.endColumn) else (r.endLine, r.endColumn)).1,
      (if l.endLine > r.endLine then (l.endLine, l.endColumn) else (r.endLine, r.endColumn)).2, true⟩ := by
  obtain ⟨h1, h2, h3, h4⟩ := h
  unfold DebugInfo.merge
  rw [if_neg (by simp [h1]), if_neg (by simp [h2]), if_neg (by simp [h3]), if_neg (by tauto)]

/-- **C39 (partial).** Ranges starting on different lines and ending on different lines: the merge covers both and does not
depend on the order of the arguments; in general the lines (without columns) are covered.  Missing: columns of
ranges that start or end on the same line (`merge_violated`). -/
theorem merge_covers_partial (l r : DebugInfo) (h : Mergeable l r) :
    ((l.merge r).startLine = min l.startLine r.startLine ∧ (l.merge r).endLine = max l.endLine r.endLine ∧
      (l.merge r).filename = l.filename ∧ (l.merge r).has = true) ∧
    (l.startLine ≠ r.startLine → l.endLine ≠ r.endLine →
      Covers (l.merge r) l ∧ Covers (l.merge r) r ∧ l.merge r = r.merge l) := by
  have h' : Mergeable r l := ⟨h.2.1, h.1, h.2.2.1.symm, by rcases h.2.2.2 with h | h | h <;> simp [h]⟩
  rw [merge_eq h, merge_eq h']
  refine ⟨⟨?_, ?_, rfl, rfl⟩, ?_⟩
  · show (if l.startLine < r.startLine then (l.startLine, l.startColumn) else (r.startLine, r.startColumn)).1 = _
    split <;> simp only <;> omega
  · show (if l.endLine > r.endLine then (l.endLine, l.endColumn) else (r.endLine, r.endColumn)).1 = _
    split <;> simp only <;> omega
  · intro hs he
    by_cases h1 : l.startLine < r.startLine <;> by_cases h2 : l.endLine > r.endLine
    all_goals
      have h1' : r.startLine < l.startLine ↔ ¬ l.startLine < r.startLine := by omega
      have h2' : r.endLine > l.endLine ↔ ¬ l.endLine > r.endLine := by omega
      simp only [Covers, h1, h2, h1', h2', if_true, if_false, not_true_eq_false, not_false_eq_true, DebugInfo.mk.injEq, true_and,
        and_true]
      refine ⟨by simp, by simp, h.2.2.1, ?_⟩
      rcases h.2.2.2 with h | h | h
      · rw [h]
      · rw [if_pos h]; split
        · rename_i h2; rw [h2, h]
        · rfl
      · rw [if_pos h]; split
        · rename_i h2; rw [h2, h]
        · rfl

/-- **C39 (absent ranges).** A present range is never lost: the merge has a range as soon as one argument has one; with exactly
one present argument it is that argument, in either position. -/
theorem merge_absent (l r : DebugInfo) : ((l.merge r).has = (l.has || r.has)) ∧
    (l.has = false → l.merge r = r) ∧ (l.has = true → r.has = false → l.merge r = l) := by
  unfold DebugInfo.merge
  cases hl : l.has <;> cases hr : r.has <;> simp [hl, hr]
  split
  · split
    · exact hl
    · rfl
  · exact hl

/-- **C39 is false on one line**: merging columns 3..9 and 7..8 of line 5 gives columns 7..8, in the other order 3..9. -/
theorem merge_violated : ∃ l r : DebugInfo, Mergeable l r ∧ ¬ Covers (l.merge r) l ∧ l.merge r ≠ r.merge l :=
  ⟨⟨"a.c", "f", 5, 3, 5, 9, true⟩, ⟨"a.c", "f", 5, 7, 5, 8, true⟩, by unfold Mergeable; simp,
    by unfold Covers; decide, by decide⟩

example : Mergeable ⟨"a.c", "f", 5, 3, 8, 9, true⟩ ⟨"a.c", "", 6, 1, 7, 2, true⟩ := by unfold Mergeable; simp

/-! ### fresh names -/

theorem findNewNameFrom_spec (names : List Str) (pre : Str) (f i : Nat) (n : Str)
    (h : findNewNameFrom names pre f i = some n) :
    ∃ k, i ≤ k ∧ n = pre ++ dec k ∧ n ∉ names ∧ ∀ j, i ≤ j → j < k → pre ++ dec j ∈ names := by
  induction f generalizing i with
  | zero => simp [findNewNameFrom] at h
  | succ f ih =>
    simp only [findNewNameFrom] at h
    split at h
    · rename_i hm
      obtain ⟨k, h1, h2, h3, h4⟩ := ih (i + 1) h
      refine ⟨k, by omega, h2, h3, fun j hj hk => ?_⟩
      by_cases hji : j = i
      · exact hji ▸ hm
      · exact h4 j (by omega) hk
    · rename_i hm
      simp only [Option.some.injEq] at h
      subst h
      exact ⟨i, Nat.le_refl _, rfl, hm, fun j h1 h2 => by omega⟩

theorem findNewNameFrom_none (names : List Str) (pre : Str) (f i : Nat) (h : findNewNameFrom names pre f i = none) :
    ∀ j, i ≤ j → j < i + f → pre ++ dec j ∈ names := by
  induction f generalizing i with
  | zero => intro j h1 h2; omega
  | succ f ih =>
    simp only [findNewNameFrom] at h
    split at h
    · rename_i hm
      intro j h1 h2
      by_cases hji : j = i
      · exact hji ▸ hm
      · exact ih (i + 1) h j (by omega) (by omega)
    · simp at h

/-- **C38.** `find_new_name` terminates (after at most as many tries as there are containers, plus one) and returns the
prefix followed by the smallest number that gives a name no container has. -/
theorem find_new_name_fresh (names : List Str) (pre : Str) :
    ∃ n k, findNewName names pre = some n ∧ n = pre ++ dec k ∧ n ∉ names ∧ ∀ j < k, pre ++ dec j ∈ names := by
  cases h : findNewName names pre with
  | some n =>
    obtain ⟨k, _, h2, h3, h4⟩ := findNewNameFrom_spec _ _ _ _ _ h
    exact ⟨n, k, rfl, h2, h3, fun j hj => h4 j (by omega) hj⟩
  | none =>
    exfalso
    have hall := findNewNameFrom_none _ _ _ _ h
    have hsub : (List.range (names.length + 1)).map (fun j => pre ++ dec j) ⊆ names := by
      intro x hx
      obtain ⟨j, hj, rfl⟩ := List.mem_map.1 hx
      exact hall j (by omega) (by simpa using hj)
    have hnd : ((List.range (names.length + 1)).map (fun j => pre ++ dec j)).Nodup := by
      refine List.Nodup.map ?_ List.nodup_range
      intro a b hab
      exact dec_inj a b (List.append_cancel_left hab)
    have := (hnd.subperm hsub).length_le
    simp at this
    omega

example : findNewName ["i0".toList, "i1".toList, "j".toList] "i".toList = some "i2".toList := by decide +kernel

end Docc.Builder
