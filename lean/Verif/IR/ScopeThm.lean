import Verif.IR.ScopeProps

/-
C102: what ScopeAnalysis answers.
-/
namespace Docc.IR.Scope
open Docc.Sym

theorem sub_nodup {u t : Cn} (h : Sub u t) (hd : t.ids.Nodup) : u.ids.Nodup := by
  induction h with
  | refl => exact hd
  | @kid c t hc _ ih =>
    obtain ⟨i, k, l⟩ := t
    exact ih (kid_nodup (List.nodup_cons.1 hd).2 _ hc)

theorem encloses_irrefl {t : Cn} (hd : t.ids.Nodup) (a : Nat) : ¬ t.Encloses a a := by
  rintro ⟨u, hs, ha, c, hc, hh⟩
  exact root_not_enclosed (sub_nodup hs hd) u.id ⟨u, .refl u, rfl, c, hc, ha ▸ hh⟩

/-- `parent_scope(n)` is the node that has `n` as a child. -/
theorem parent_scope_exact {t : Cn} {m} (hl : t.Leafy) (hd : t.ids.Nodup) (h : t.scopeTree = some m) (p n : Nat) :
    parentScope m n = some p ↔ t.Parent p n := by
  have hk := lookup_scope hl hd h n
  simp only [parentScope, Option.join_eq_some_iff]
  rw [hk]
  constructor
  · rintro (⟨_, h⟩ | ⟨q, h, h'⟩)
    · cases h
    · cases h; exact h'
  · exact fun h => .inr ⟨p, rfl, h⟩


theorem sub_parent {u t : Cn} (h : Sub u t) : u = t ∨ ∃ p, t.Parent p u.id := by
  induction h with
  | refl => exact .inl rfl
  | @kid c t hc _ ih =>
    rcases ih with rfl | ⟨p, v, hv, hp, h⟩
    · exact .inr ⟨t.id, t, .refl t, rfl, u, hc, rfl⟩
    · exact .inr ⟨p, v, .kid hc hv, hp, h⟩

/-- `parent_scope(n)` is null exactly for the root and for nodes that are not in the function. -/
theorem parent_scope_null {t : Cn} {m} (hl : t.Leafy) (hd : t.ids.Nodup) (h : t.scopeTree = some m) (n : Nat) :
    parentScope m n = none ↔ n = t.id ∨ ¬ t.Has n := by
  have hno : ∀ {x : Option Nat}, x = none ↔ ∀ p, x ≠ some p := by
    intro x; cases x <;> simp
  rw [hno]
  simp only [ne_eq, parent_scope_exact hl hd h]
  constructor
  · intro h0
    refine (Classical.em (t.Has n)).elim (fun hn => .inl ?_) .inr
    obtain ⟨u, hs, rfl⟩ := hn
    rcases sub_parent hs with rfl | ⟨p, hp⟩
    · rfl
    · exact absurd hp (h0 p)
  · rintro (rfl | hn) p hp
    · exact root_not_enclosed hd p hp.encloses
    · exact hn hp.encloses.has

/-- `ancestor_scopes(n)` terminates and lists exactly the nodes around `n`, each once, from the innermost to the outermost. -/
theorem ancestor_scopes_exact {t : Cn} {m} (hl : t.Leafy) (hd : t.ids.Nodup) (h : t.scopeTree = some m) {n : Nat} (hn : t.Has n) :
    ∃ l k, (∀ f, k ≤ f → ancestorScopes m f n = some l) ∧ (∀ a, a ∈ l ↔ t.Encloses a n) ∧ l.Nodup ∧
      l.Pairwise fun a b => t.Encloses b a := by
  obtain ⟨u, hs, rfl⟩ := hn
  obtain ⟨l, hu⟩ := sub_up hs
  have h0 : ancLoop m 0 (parentScope m t.id) = some [] := by
    rw [(parent_scope_null hl hd h t.id).2 (.inl rfl)]; rfl
  have := hu.climb (m := m) (fun p c hp => (parent_scope_exact hl hd h p c).2 hp) 0 [] h0
  rw [List.append_nil] at this
  exact ⟨l, 0 + l.length, fun f hf => ancLoop_mono this f hf, fun a => ⟨hu.mem_enc a, hu.enc_mem hd a⟩,
    List.Pairwise.imp (S := fun a b => a ≠ b) (fun {a b} hab he => encloses_irrefl hd a (by rw [← he] at hab; exact hab)) hu.order, hu.order⟩

/-- For a node that is not in the function the list is empty. -/
theorem ancestor_scopes_unknown {t : Cn} {m} (hl : t.Leafy) (hd : t.ids.Nodup) (h : t.scopeTree = some m) {n : Nat} (hn : ¬ t.Has n) (f : Nat) :
    ancestorScopes m f n = some [] := by
  rw [ancestorScopes, (parent_scope_null hl hd h n).2 (.inr hn)]
  cases f <;> rfl

mutual
theorem Cn.run_none : ∀ (t : Cn) (p : Option Nat), t.Leafy → (t.run p = none ↔ ∃ u, Sub u t ∧ u.kind = .other)
  | .mk i k l, p, hl => by
    obtain ⟨h1, h2⟩ := leafy_mk.1 hl
    have hk : (∃ u, Sub u (.mk i k l) ∧ u.kind = .other) ↔ k = .other ∨ ∃ c ∈ l.list, ∃ u, Sub u c ∧ u.kind = .other := by
      constructor
      · rintro ⟨u, hs, hu⟩
        rcases sub_mk.1 hs with rfl | ⟨c, hc, hs⟩
        · exact .inl hu
        · exact .inr ⟨c, hc, u, hs, hu⟩
      · rintro (rfl | ⟨c, hc, u, hs, hu⟩)
        · exact ⟨_, .refl _, rfl⟩
        · exact ⟨u, .kid hc hs, hu⟩
    rw [hk]
    have ih := Cs.run_none l (some i) h2
    simp only [Cn.run]
    split
    all_goals try (simp [h1 rfl]; done)
    all_goals try (simp [ih]; done)
theorem Cs.run_none : ∀ (l : Cs) (p : Option Nat), (∀ c ∈ l.list, c.Leafy) → (l.run p = none ↔ ∃ c ∈ l.list, ∃ u, Sub u c ∧ u.kind = .other)
  | .nil, p, _ => by simp [Cs.run, Cs.list]
  | .cons t e r, p, hl => by
    have ha := Cn.run_none t p (hl t (by simp [Cs.list]))
    have hb := Cs.run_none r p (fun c hc => hl c (by simp [Cs.list, hc]))
    simp only [Cs.list, List.mem_cons, exists_eq_or_imp]
    rw [← ha, ← hb]
    simp only [Cs.run, Option.bind_eq_bind]
    cases t.run p <;> cases r.run p <;> simp
end

/-- The analysis throws exactly if the function has a node of an unknown class. -/
theorem scope_throws_iff (t : Cn) (hl : t.Leafy) : t.scopeTree = none ↔ ∃ u, Sub u t ∧ u.kind = .other := by
  rw [Cn.scopeTree, Option.map_eq_none_iff]
  exact Cn.run_none t none hl

/-! A function: `for i { block; if … { break } }; while { block }; return` -/

def exScopeB : Cn := .mk 5 .ifElse (.cons (.mk 6 .seq (.cons (.mk 7 .brk .nil) (.trans []) .nil)) (.cond .tt) .nil)
def exScopeL : Cn := .mk 2 (.loop false "i" (.int 0) .tt (.int 1))
  (.cons (.mk 3 .seq (.cons (.mk 4 (.block []) .nil) (.trans []) (.cons exScopeB (.trans []) .nil))) .none .nil)
def exScopeW : Cn := .mk 8 .whileL (.cons (.mk 9 .seq (.cons (.mk 10 (.block []) .nil) (.trans []) .nil)) .none .nil)
def exScope : Cn := .mk 1 .seq (.cons exScopeL (.trans []) (.cons exScopeW (.trans []) (.cons (.mk 11 (.ret "x" false) .nil) (.trans []) .nil)))

theorem exScope_leafy : exScope.Leafy := by
  simp [exScope, exScopeL, exScopeW, exScopeB, leafy_mk, Cs.list, Kd.leaf]

theorem exScope_nodup : exScope.ids.Nodup := by decide

theorem exScope_tree : exScope.scopeTree =
    some [(11, some 1), (10, some 9), (9, some 8), (8, some 1), (7, some 6), (6, some 5), (5, some 3), (4, some 3), (3, some 2), (2, some 1), (1, none)] := rfl

example : ∃ p n, exScope.Parent p n :=
  ⟨5, 6, (parent_scope_exact exScope_leafy exScope_nodup exScope_tree 5 6).1 rfl⟩
example : exScope.Has 7 := (Cn.has_ids _ _).2 (by decide)
example : ancestorScopes (exScope.scopeTree.get!) 9 7 = some [6, 5, 3, 2, 1] := rfl
example : ¬ exScope.Has 12 := fun h => absurd ((Cn.has_ids _ _).1 h) (by decide)

end Docc.IR.Scope
