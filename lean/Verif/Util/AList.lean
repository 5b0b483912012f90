/-
Finite maps as association lists; models `std::unordered_map` / `std::map` (only lookups by key are
observable, iteration order is treated as arbitrary where it matters).
-/
namespace Docc

/-- A finite map. -/
abbrev AList (κ ν : Type _) := List (κ × ν)

namespace AList
variable {κ ν : Type _} [DecidableEq κ]

/-- `m.find(k)`. -/
def get : AList κ ν → κ → Option ν
  | [], _ => none
  | (k', v) :: r, k => if k' = k then some v else get r k

/-- `m.erase(k)`. -/
def erase : AList κ ν → κ → AList κ ν
  | [], _ => []
  | (k', v) :: r, k => if k' = k then erase r k else (k', v) :: erase r k

/-- `m[k] = v`. -/
def set (m : AList κ ν) (k : κ) (v : ν) : AList κ ν := (k, v) :: erase m k

/-- `m.emplace(k, v)`: keeps an existing entry. -/
def emplace (m : AList κ ν) (k : κ) (v : ν) : AList κ ν :=
  match get m k with
  | some _ => m
  | none => (k, v) :: m

/-- Keys. -/
def keys (m : AList κ ν) : List κ := m.map (·.1)

@[simp] theorem get_nil (k : κ) : get ([] : AList κ ν) k = none := rfl

theorem get_cons (k' : κ) (v : ν) (r : AList κ ν) (k : κ) :
    get ((k', v) :: r) k = if k' = k then some v else get r k := rfl

theorem get_erase (m : AList κ ν) (k k' : κ) :
    get (erase m k) k' = if k = k' then none else get m k' := by
  induction m with
  | nil => simp [erase]
  | cons p r ih =>
    obtain ⟨a, v⟩ := p
    simp only [erase]
    split
    · rename_i h; subst h
      rw [ih, get_cons]; split <;> simp_all
    · rename_i h
      rw [get_cons, ih, get_cons]
      split
      · rename_i h2; subst h2; rw [if_neg (fun e => h e.symm)]
      · rfl

@[simp] theorem get_erase_self (m : AList κ ν) (k : κ) : get (erase m k) k = none := by
  simp [get_erase]

@[simp] theorem get_set_self (m : AList κ ν) (k : κ) (v : ν) : get (set m k v) k = some v := by
  simp [set, get_cons]

theorem get_set (m : AList κ ν) (k k' : κ) (v : ν) :
    get (set m k v) k' = if k = k' then some v else get m k' := by
  simp only [set, get_cons, get_erase]
  split <;> simp_all

theorem get_set_ne (m : AList κ ν) {k k' : κ} (v : ν) (h : k ≠ k') :
    get (set m k v) k' = get m k' := by simp [get_set, h]

theorem get_emplace_of_none (m : AList κ ν) (k : κ) (v : ν) (h : get m k = none) (k' : κ) :
    get (emplace m k v) k' = if k = k' then some v else get m k' := by
  simp [emplace, h, get_cons]

theorem mem_of_get {m : AList κ ν} {k : κ} {v : ν} (h : get m k = some v) : (k, v) ∈ m := by
  induction m with
  | nil => simp at h
  | cons p r ih =>
    obtain ⟨a, w⟩ := p
    rw [get_cons] at h
    split at h
    · rename_i e; subst e; simp_all
    · exact List.mem_cons_of_mem _ (ih h)

theorem get_of_mem {m : AList κ ν} (nd : (keys m).Nodup) {k : κ} {v : ν} (h : (k, v) ∈ m) :
    get m k = some v := by
  induction m with
  | nil => simp at h
  | cons p r ih =>
    obtain ⟨a, w⟩ := p
    simp only [keys, List.map_cons, List.nodup_cons, List.mem_map, not_exists, not_and] at nd
    rw [get_cons]
    rcases List.mem_cons.mp h with e | e
    · cases e; simp
    · rw [if_neg]
      · exact ih nd.2 e
      · intro ea; subst ea; exact nd.1 _ e rfl

theorem get_none_iff {m : AList κ ν} {k : κ} : get m k = none ↔ k ∉ keys m := by
  induction m with
  | nil => simp [keys]
  | cons p r ih =>
    obtain ⟨a, w⟩ := p
    rw [get_cons]
    simp only [keys, List.map_cons, List.mem_cons, not_or] at ih ⊢
    split
    · rename_i e; subst e; simp
    · rename_i e; rw [ih]; exact ⟨fun h => ⟨fun e' => e e'.symm, h⟩, fun h => h.2⟩

theorem mem_erase {m : AList κ ν} {k : κ} {p : κ × ν} : p ∈ erase m k ↔ p ∈ m ∧ p.1 ≠ k := by
  induction m with
  | nil => simp [erase]
  | cons q r ih =>
    obtain ⟨a, w⟩ := q
    simp only [erase]
    split
    · rename_i e; subst e
      rw [ih, List.mem_cons]
      constructor
      · rintro ⟨h1, h2⟩; exact ⟨Or.inr h1, h2⟩
      · rintro ⟨h1 | h1, h2⟩
        · subst h1; exact absurd rfl h2
        · exact ⟨h1, h2⟩
    · rename_i e
      rw [List.mem_cons, ih, List.mem_cons]
      constructor
      · rintro (h | ⟨h1, h2⟩)
        · subst h; exact ⟨Or.inl rfl, e⟩
        · exact ⟨Or.inr h1, h2⟩
      · rintro ⟨h1 | h1, h2⟩
        · exact Or.inl h1
        · exact Or.inr ⟨h1, h2⟩

theorem nodup_erase {m : AList κ ν} (k : κ) (nd : (keys m).Nodup) : (keys (erase m k)).Nodup := by
  induction m with
  | nil => simpa [erase]
  | cons q r ih =>
    obtain ⟨a, w⟩ := q
    simp only [keys, List.map_cons, List.nodup_cons] at nd
    simp only [erase]
    split
    · exact ih nd.2
    · simp only [keys, List.map_cons, List.nodup_cons]
      refine ⟨?_, ih nd.2⟩
      intro hm
      obtain ⟨p, hp, hpe⟩ := List.mem_map.mp hm
      exact nd.1 (List.mem_map.mpr ⟨p, (mem_erase.mp hp).1, hpe⟩)

theorem nodup_set {m : AList κ ν} (k : κ) (v : ν) (nd : (keys m).Nodup) : (keys (set m k v)).Nodup := by
  simp only [set, keys, List.map_cons, List.nodup_cons]
  refine ⟨?_, nodup_erase k nd⟩
  intro hm
  obtain ⟨p, hp, hpe⟩ := List.mem_map.mp hm
  exact (mem_erase.mp hp).2 hpe

theorem mem_set {m : AList κ ν} {k : κ} {v : ν} {p : κ × ν} :
    p ∈ set m k v ↔ p = (k, v) ∨ (p ∈ m ∧ p.1 ≠ k) := by
  simp [set, mem_erase]

end AList
end Docc
