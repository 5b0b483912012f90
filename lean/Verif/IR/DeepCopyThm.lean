import Verif.IR.DeepCopyProps
import Verif.IR.Sem

/-
C103: deep copies of control flow nodes.
-/
namespace Docc.IR.Scope
open Docc.Sym

theorem at_cons (t : Cn) (k : Nat) (r : List Nat) (u : Cn) : t.at (k :: r) = some u ↔ ∃ c, t.kids.list[k]? = some c ∧ c.at r = some u := by
  rw [Cn.at, Option.bind_eq_some_iff]

theorem bodyAt_nil (t : Cn) : ¬ t.BodyAt [] := by
  rintro ⟨q, k, v, h, _⟩
  cases q <;> cases h

theorem bodyAt_cons (t : Cn) (k : Nat) (r : List Nat) :
    t.BodyAt (k :: r) ↔ (r = [] ∧ t.kind.isLoop = true) ∨ ∃ c, t.kids.list[k]? = some c ∧ c.BodyAt r := by
  constructor
  · rintro ⟨q, j, v, h, hv, hl⟩
    cases q with
    | nil =>
      simp only [List.nil_append, List.cons.injEq] at h
      obtain rfl := Option.some.inj hv
      exact .inl ⟨h.2, hl⟩
    | cons a q =>
      simp only [List.cons_append, List.cons.injEq] at h
      obtain ⟨rfl, rfl⟩ := h
      obtain ⟨c, hc, hq⟩ := (at_cons t k q v).1 hv
      exact .inr ⟨c, hc, q, j, v, rfl, hq, hl⟩
  · rintro (⟨rfl, hl⟩ | ⟨c, hc, q, j, v, rfl, hv, hl⟩)
    · exact ⟨[], k, t, rfl, rfl, hl⟩
    · exact ⟨k :: q, j, v, rfl, (at_cons t k q v).2 ⟨c, hc, hv⟩, hl⟩

/-- for children with the same numbers -/
def CopiedL (l l' : Cs) (a b : Nat) : Prop := ∃ (n : Nat) (x x' : Cn), l.list[n]? = some x ∧ l'.list[n]? = some x' ∧ Copied x x' a b

theorem copied_node {i c : Nat} {k k' : Kd} {l l' : Cs} (hk : k.isLoop = false) (a b : Nat) :
    Copied (.mk i k l) (.mk c k' l') a b ↔ (a = i ∧ b = c) ∨ CopiedL l l' a b := by
  constructor
  · rintro ⟨p, u, u', h1, h2, rfl, rfl, hb⟩
    cases p with
    | nil =>
      obtain rfl := Option.some.inj h1
      obtain rfl := Option.some.inj h2
      exact .inl ⟨rfl, rfl⟩
    | cons n p =>
      obtain ⟨x, hx, hu⟩ := (at_cons _ n p u).1 h1
      obtain ⟨x', hx', hu'⟩ := (at_cons _ n p u').1 h2
      exact .inr ⟨n, x, x', hx, hx', p, u, u', hu, hu', rfl, rfl, fun h => hb ((bodyAt_cons _ n p).2 (.inr ⟨x, hx, h⟩))⟩
  · rintro (⟨rfl, rfl⟩ | ⟨n, x, x', hx, hx', p, u, u', hu, hu', rfl, rfl, hb⟩)
    · exact ⟨[], _, _, rfl, rfl, rfl, rfl, bodyAt_nil _⟩
    · refine ⟨n :: p, u, u', (at_cons _ n p u).2 ⟨x, hx, hu⟩, (at_cons _ n p u').2 ⟨x', hx', hu'⟩, rfl, rfl, fun h => ?_⟩
      rcases (bodyAt_cons _ n p).1 h with ⟨_, h⟩ | ⟨y, hy, h⟩
      · simp [Cn.kind, hk] at h
      · obtain rfl := Option.some.inj (hx.symm.trans hy)
        exact hb h

theorem one_kid {x c : Cn} {e : Lab} {n : Nat} (h : (Cs.cons x e .nil).list[n]? = some c) : n = 0 ∧ c = x := by
  cases n with
  | zero => exact ⟨rfl, (Option.some.inj h).symm⟩
  | succ n => simp [Cs.list] at h

theorem copied_loop {i c j d : Nat} {k k' : Kd} {s s' : Cs} (hk : k.isLoop = true) (a b : Nat) :
    Copied (.mk i k (.cons (.mk j .seq s) .none .nil)) (.mk c k' (.cons (.mk d .seq s') .none .nil)) a b ↔ (a = i ∧ b = c) ∨ CopiedL s s' a b := by
  constructor
  · rintro ⟨p, u, u', h1, h2, rfl, rfl, hb⟩
    cases p with
    | nil =>
      obtain rfl := Option.some.inj h1
      obtain rfl := Option.some.inj h2
      exact .inl ⟨rfl, rfl⟩
    | cons n p =>
      obtain ⟨x, hx, hu⟩ := (at_cons _ n p u).1 h1
      obtain ⟨x', hx', hu'⟩ := (at_cons _ n p u').1 h2
      obtain ⟨rfl, rfl⟩ := one_kid hx
      obtain ⟨_, rfl⟩ := one_kid hx'
      cases p with
      | nil => exact absurd ((bodyAt_cons (.mk i k _) 0 []).2 (.inl ⟨rfl, hk⟩)) hb
      | cons n p =>
        obtain ⟨x, hx, hu⟩ := (at_cons _ n p u).1 hu
        obtain ⟨x', hx', hu'⟩ := (at_cons _ n p u').1 hu'
        exact .inr ⟨n, x, x', hx, hx', p, u, u', hu, hu', rfl, rfl, fun h =>
          hb ((bodyAt_cons _ 0 _).2 (.inr ⟨_, rfl, (bodyAt_cons _ n p).2 (.inr ⟨x, hx, h⟩)⟩))⟩
  · rintro (⟨rfl, rfl⟩ | ⟨n, x, x', hx, hx', p, u, u', hu, hu', rfl, rfl, hb⟩)
    · exact ⟨[], _, _, rfl, rfl, rfl, rfl, bodyAt_nil _⟩
    · refine ⟨0 :: n :: p, u, u', (at_cons _ 0 _ u).2 ⟨_, rfl, (at_cons _ n p u).2 ⟨x, hx, hu⟩⟩,
        (at_cons _ 0 _ u').2 ⟨_, rfl, (at_cons _ n p u').2 ⟨x', hx', hu'⟩⟩, rfl, rfl, fun h => ?_⟩
      rcases (bodyAt_cons _ 0 _).1 h with ⟨h, _⟩ | ⟨y, hy, h⟩
      · cases h
      · obtain ⟨_, rfl⟩ := one_kid hy
        rcases (bodyAt_cons _ n p).1 h with ⟨_, h⟩ | ⟨y, hy, h⟩
        · cases h
        · obtain rfl := Option.some.inj (hx.symm.trans hy)
          exact hb h

theorem copiedL_nil (a b : Nat) : ¬ CopiedL .nil .nil a b := by
  rintro ⟨n, x, _, h, _⟩
  simp [Cs.list] at h

theorem copiedL_cons {n n' : Cn} {e e' : Lab} {r r' : Cs} (a b : Nat) :
    CopiedL (.cons n e r) (.cons n' e' r') a b ↔ Copied n n' a b ∨ CopiedL r r' a b := by
  constructor
  · rintro ⟨k, x, x', hx, hx', h⟩
    cases k with
    | zero =>
      obtain rfl := Option.some.inj hx
      obtain rfl := Option.some.inj hx'
      exact .inl h
    | succ k => exact .inr ⟨k, x, x', by simpa [Cs.list] using hx, by simpa [Cs.list] using hx', h⟩
  · rintro (h | ⟨k, x, x', hx, hx', h⟩)
    · exact ⟨0, n, n', rfl, rfl, h⟩
    · exact ⟨k + 1, x, x', by simpa [Cs.list] using hx, by simpa [Cs.list] using hx', h⟩

/-- the entries of the mapping -/
theorem dup_map : (∀ t : Cn, ∀ c r, t.Shaped → t.dup c = some r → ∀ a b, (a, b) ∈ r.2.2 ↔ Copied t r.1 a b) ∧
    (∀ l : Cs, ∀ c r, (∀ n ∈ l.list, n.Shaped) → l.dup c = some r → ∀ a b, (a, b) ∈ r.2.2 ↔ CopiedL l r.1 a b) := by
  apply dup_ind
  · intro i k l hl hb c r hs h a b
    have hk := (shaped_mk.1 hs).2.2
    rcases dup_cases hs h with ⟨hk', rfl, rfl⟩ | ⟨hk', x, hx, rfl⟩ | ⟨hk', j, s, x, rfl, hx, rfl⟩
    · rw [copied_node (by cases k <;> simp [Kd.leaf] at hk' <;> rfl)]
      simp [copiedL_nil]
    · rw [copied_node (by rcases hk' with rfl | rfl <;> rfl), List.mem_cons, hl _ _ hk hx a b, Prod.mk.injEq]
    · rw [copied_loop hk', List.mem_cons, hb j .seq s .none .nil rfl _ _ (shaped_body hk) hx a b, Prod.mk.injEq]
  · intro c r _ h a b
    obtain rfl := Option.some.inj h
    simp [copiedL_nil]
  · intro n e r hn hr c x hs h a b
    obtain ⟨y, z, ha, hb, rfl⟩ := dup_cons h
    rw [copiedL_cons, List.mem_append, hn _ _ (hs n (by simp [Cs.list])) ha a b, hr _ _ (fun m hm => hs m (by simp [Cs.list, hm])) hb a b]

/-- the addresses that have an entry stand in the source, each once -/
theorem dup_keys : (∀ t : Cn, ∀ c r, t.Shaped → t.dup c = some r → (r.2.2.map Prod.fst).Sublist t.ids) ∧
    (∀ l : Cs, ∀ c r, (∀ n ∈ l.list, n.Shaped) → l.dup c = some r → (r.2.2.map Prod.fst).Sublist l.ids) := by
  apply dup_ind
  · intro i k l hl hb c r hs h
    have hk := (shaped_mk.1 hs).2.2
    rcases dup_cases hs h with ⟨hk', rfl, rfl⟩ | ⟨hk', x, hx, rfl⟩ | ⟨hk', j, s, x, rfl, hx, rfl⟩
    · simp [Cn.ids, Cs.ids]
    · simp only [List.map_cons, Cn.ids]
      exact (hl _ _ hk hx).cons_cons _
    · simp only [List.map_cons, Cn.ids, Cs.ids, List.append_nil]
      exact ((hb j .seq s .none .nil rfl _ _ (shaped_body hk) hx).cons j).cons_cons i
  · intro c r _ h
    obtain rfl := Option.some.inj h
    simp
  · intro n e r hn hr c x hs h
    obtain ⟨y, z, ha, hb, rfl⟩ := dup_cons h
    simp only [List.map_append, Cs.ids]
    exact (hn _ _ (hs n (by simp [Cs.list])) ha).append (hr _ _ (fun m hm => hs m (by simp [Cs.list, hm])) hb)

theorem lookup_mem' {β : Type} {m : List (Nat × β)} (hm : (m.map Prod.fst).Nodup) (n : Nat) (x : β) : m.lookup n = some x ↔ (n, x) ∈ m := by
  induction m with
  | nil => simp
  | cons e m ih =>
    obtain ⟨a, y⟩ := e
    simp only [List.map_cons, List.nodup_cons] at hm
    rw [List.lookup_cons]
    by_cases he : n = a
    · subst he
      simp only [beq_self_eq_true, Option.some.injEq, List.mem_cons, Prod.mk.injEq, true_and]
      constructor
      · exact fun h => .inl h.symm
      · rintro (h | h)
        · exact h.symm
        · exact absurd (List.mem_map.2 ⟨(n, x), h, rfl⟩) hm.1
    · simp only [beq_eq_false_iff_ne.2 he, ih hm.2, List.mem_cons, Prod.mk.injEq, he, false_and, false_or]

theorem toSeq_append (a b : Cs) : (a.append b).toSeq = a.toSeq ++ b.toSeq := by
  match a with
  | .nil => rfl
  | .cons n e r =>
    cases e <;> (simp only [Cs.append, Cs.toSeq, toSeq_append r b]; rfl)

theorem list_append (a b : Cs) : (a.append b).list = a.list ++ b.list := by
  match a with
  | .nil => rfl
  | .cons n e r => simp only [Cs.append, Cs.list, list_append r b, List.cons_append]

/-- `copy()`: behind what the target did before, it executes the source once. -/
theorem copy_same_program {root : Cs} {t : Cn} {c : Nat} {r} (hs : t.Shaped) (h : copyInto root t c = some r) :
    r.1.toSeq = root.toSeq ++ Seq.cons t.toNode [] .nil := by
  simp only [copyInto, Option.map_eq_some_iff] at h
  obtain ⟨x, hx, rfl⟩ := h
  simp only [toSeq_append, Cs.toSeq, (dup_same.1 t c x hs hx).1]

/-- `insert()`: behind what the target did before, it executes the children of the source with their transitions. -/
theorem insert_same_program {root : Cs} {t : Cn} {c : Nat} {r} (hs : t.Shaped) (h : insertInto root t c = some r) :
    r.1.toSeq = root.toSeq ++ t.toKids := by
  obtain ⟨i, k, l⟩ := t
  cases k
  all_goals simp only [insertInto] at h
  all_goals try (cases h; done)
  obtain ⟨x, hx, rfl⟩ := Option.map_eq_some_iff.1 h
  rw [toSeq_append, (dup_same.2 l c x (shaped_mk.1 hs).2.2 hx).1]
  rfl

/-- What was in the target stays there with its addresses, and one new node comes behind it; the new addresses are different from each other and not in use
(`c` and above are unused). -/
theorem copy_fresh {root : Cs} {t : Cn} {c : Nat} {r} (hs : t.Shaped) (h : copyInto root t c = some r) :
    ∃ t', r.1.list = root.list ++ [t'] ∧ t'.ids.Nodup ∧ ∀ i ∈ t'.ids, c ≤ i := by
  simp only [copyInto, Option.map_eq_some_iff] at h
  obtain ⟨x, hx, rfl⟩ := h
  obtain ⟨_, h2, h3⟩ := dup_fresh.1 t c x hs hx
  exact ⟨x.1, by simp [list_append, Cs.list], List.Pairwise.imp (S := fun a b => a ≠ b) (fun h => by omega) h2, fun i hi => (h3 i hi).1⟩

/-- The mapping: a node of the source is mapped to the node at the same place of the copy; exactly the bodies of loops have no entry. -/
theorem copy_mapping_partial {root : Cs} {t : Cn} {c : Nat} {r} (hs : t.Shaped) (hd : t.ids.Nodup) (h : copyInto root t c = some r) :
    ∃ t', r.1.list = root.list ++ [t'] ∧ ∀ i j, r.2.lookup i = some j ↔ Copied t t' i j := by
  simp only [copyInto, Option.map_eq_some_iff] at h
  obtain ⟨x, hx, rfl⟩ := h
  refine ⟨x.1, by simp [list_append, Cs.list], fun i j => ?_⟩
  have hn : (x.2.2.map Prod.fst).Nodup := hd.sublist (dup_keys.1 t c x hs hx)
  rw [lookup_mem' (by rw [List.map_reverse]; exact List.pairwise_reverse.2 (hn.imp Ne.symm)), List.mem_reverse, dup_map.1 t c x hs hx]

/-- `insert()`: the children of the source come, at their places, behind what was in the target; new addresses; the mapping is that of the children. -/
theorem insert_mapping_partial {root : Cs} {t : Cn} {c : Nat} {r} (hs : t.Shaped) (hd : t.ids.Nodup) (h : insertInto root t c = some r) :
    ∃ l' : Cs, r.1.list = root.list ++ l'.list ∧ l'.ids.Nodup ∧ (∀ i ∈ l'.ids, c ≤ i) ∧
      ∀ i j, r.2.lookup i = some j ↔ ∃ (n : Nat) (x x' : Cn), t.kids.list[n]? = some x ∧ l'.list[n]? = some x' ∧ Copied x x' i j := by
  obtain ⟨i, k, l⟩ := t
  cases k
  all_goals simp only [insertInto] at h
  all_goals try (cases h; done)
  obtain ⟨x, hx, rfl⟩ := Option.map_eq_some_iff.1 h
  have hk := (shaped_mk.1 hs).2.2
  obtain ⟨_, h2, h3⟩ := dup_fresh.2 l c x hk hx
  refine ⟨x.1, list_append _ _, List.Pairwise.imp (S := fun a b => a ≠ b) (fun h => by omega) h2, fun i hi => (h3 i hi).1, fun i j => ?_⟩
  have hn : (x.2.2.map Prod.fst).Nodup := (List.nodup_cons.1 hd).2.sublist (dup_keys.2 l c x hk hx)
  rw [lookup_mem' (by rw [List.map_reverse]; exact List.pairwise_reverse.2 (hn.imp Ne.symm)), List.mem_reverse, dup_map.2 l c x hk hx]
  rfl

/-- the copy exists unless a class is unknown -/
theorem dup_total : (∀ t : Cn, ∀ c, t.Shaped → (∀ u, Sub u t → u.kind ≠ .other) → (t.dup c).isSome) ∧
    (∀ l : Cs, ∀ c, (∀ n ∈ l.list, n.Shaped) → (∀ n ∈ l.list, ∀ u, Sub u n → u.kind ≠ .other) → (l.dup c).isSome) := by
  apply dup_ind
  · intro i k l hl hb c hs ho
    obtain ⟨_, h2, hk⟩ := shaped_mk.1 hs
    have hl' := hl (c + 1) hk (fun n hn u hu => ho u (.kid hn hu))
    cases k
    all_goals simp only [Cn.dup, Option.isSome_map, Option.isSome_some]
    all_goals try exact hl'
    case other => exact absurd rfl (ho _ (.refl _))
    all_goals
      obtain ⟨j, b, rfl⟩ := isBody_cases (h2 rfl)
      simp only [Cs.dupBody, Cn.dupKids, Option.isSome_map]
      exact hb j .seq b .none .nil rfl _ (shaped_body hk) (fun n hn u hu => ho u (.kid (List.mem_cons_self ..) (.kid hn hu)))
  · intro c _ _; rfl
  · intro n e r hn hr c hs ho
    have h1 := hn c (hs n (by simp [Cs.list])) (ho n (by simp [Cs.list]))
    obtain ⟨a, ha⟩ := Option.isSome_iff_exists.1 h1
    have h2 := hr a.2.1 (fun m hm => hs m (by simp [Cs.list, hm])) (fun m hm => ho m (by simp [Cs.list, hm]))
    obtain ⟨b, hb⟩ := Option.isSome_iff_exists.1 h2
    simp [Cs.dup, ha, hb]

/-- `copy()` does not throw for the classes of control flow nodes that exist. -/
theorem copy_succeeds (root : Cs) {t : Cn} (c : Nat) (hs : t.Shaped) (ho : ∀ u, Sub u t → u.kind ≠ .other) : (copyInto root t c).isSome := by
  rw [copyInto, Option.isSome_map]
  exact dup_total.1 t c hs ho

/-- `insert()` throws for sources that are not sequences and for no others (of the classes that exist). -/
theorem insert_succeeds_iff (root : Cs) {t : Cn} (c : Nat) (hs : t.Shaped) (ho : ∀ u, Sub u t → u.kind ≠ .other) :
    (insertInto root t c).isSome = true ↔ t.kind = .seq := by
  obtain ⟨i, k, l⟩ := t
  cases k
  case seq =>
    simp only [insertInto, Option.isSome_map, Cn.kind, iff_true]
    exact dup_total.2 l c (shaped_mk.1 hs).2.2 (fun n hn u hu => ho u (.kid hn hu))
  all_goals simp [insertInto, Cn.kind]

/-! The function of IR/ScopeThm again -/

theorem exScope_shaped : exScope.Shaped := by
  simp [exScope, exScopeL, exScopeW, exScopeB, shaped_mk, Cs.list, Kd.leaf, Kd.isLoop, Cs.isBody]

example : ((copyInto .nil exScope 12).map (·.2)) =
    some [(11, 22), (10, 21), (8, 19), (7, 18), (6, 17), (5, 16), (4, 15), (2, 13), (1, 12)] := rfl
example : ∀ u, Sub u exScope → u.kind ≠ .other := fun u hu h => by
  have : exScope.scopeTree = none := (scope_throws_iff exScope exScope_leafy).2 ⟨u, hu, h⟩
  simp [exScope_tree] at this
example : (insertInto .nil exScope 12).isSome := rfl

/-- The mapping does not tell where the body of a loop went, although the body is a node of the copy. -/
theorem copy_mapping_incomplete : ¬ ∀ (root : Cs) (t : Cn) (c : Nat) (r : Cs × List (Nat × Nat)), t.Shaped → t.ids.Nodup →
    (∀ u, Sub u t → u.kind ≠ .other) → copyInto root t c = some r → ∀ n, t.Has n → ∃ j, r.2.lookup n = some j := by
  intro h
  obtain ⟨r, hr⟩ := Option.isSome_iff_exists.1 (copy_succeeds .nil 12 exScope_shaped (fun u hu h => by
    have : exScope.scopeTree = none := (scope_throws_iff exScope exScope_leafy).2 ⟨u, hu, h⟩
    simp [exScope_tree] at this))
  obtain ⟨j, hj⟩ := h .nil exScope 12 r exScope_shaped exScope_nodup (fun u hu h => by
    have : exScope.scopeTree = none := (scope_throws_iff exScope exScope_leafy).2 ⟨u, hu, h⟩
    simp [exScope_tree] at this) hr 3 ((Cn.has_ids _ _).2 (by decide))
  obtain rfl := Option.some.inj hr
  have : (none : Option Nat) = some j := hj
  cases this

end Docc.IR.Scope
