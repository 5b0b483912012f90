import Verif.Types.Outer
import Verif.Types.TyProps

/-
C104: the types TypeAnalysis reports.
-/
namespace Docc.Types
open Docc.Sym

theorem mem_contributions (c : String) (ns : List RNode) (t : Ty) :
    t ∈ contributions c ns ↔ ∃ N ∈ ns, N.data = c ∧ ((∃ m ∈ N.ins, typeIn m = some t) ∨ ∃ m ∈ N.outs, typeOut m = some t) := by
  simp only [contributions, List.mem_append, List.mem_flatMap, List.mem_filter, List.mem_filterMap, decide_eq_true_eq, Bool.not_eq_true']
  constructor
  · rintro (((⟨N, ⟨⟨h, hc⟩, _⟩, hm⟩ | ⟨N, ⟨⟨h, hc⟩, _⟩, hm⟩) | ⟨N, ⟨⟨h, hc⟩, _⟩, hm⟩) | ⟨N, ⟨⟨h, hc⟩, _⟩, hm⟩)
    · exact ⟨N, h, hc, .inl hm⟩
    · exact ⟨N, h, hc, .inr hm⟩
    · exact ⟨N, h, hc, .inr hm⟩
    · exact ⟨N, h, hc, .inl hm⟩
  · rintro ⟨N, h, hc, hm | hm⟩
    · cases hv : N.isMove
      · exact .inl (.inl (.inl ⟨N, ⟨⟨h, hc⟩, hv⟩, hm⟩))
      · exact .inr ⟨N, ⟨⟨h, hc⟩, hv⟩, hm⟩
    · cases hv : N.isView
      · exact .inl (.inl (.inr ⟨N, ⟨⟨h, hc⟩, hv⟩, hm⟩))
      · exact .inl (.inr ⟨N, ⟨⟨h, hc⟩, hv⟩, hm⟩)

/-- the set of types: its elements are pairwise different and were contributed; every contribution is equal to one of them -/
theorem fold_insert (L l : List Ty) (hp : l.Pairwise fun a b => a.eq b = false) :
    (L.foldl insertTy l).Pairwise (fun a b => a.eq b = false) ∧ (∀ t ∈ L.foldl insertTy l, t ∈ l ∨ t ∈ L) ∧
      ∀ t, t ∈ l ∨ t ∈ L → ∃ u ∈ L.foldl insertTy l, u.eq t = true := by
  induction L generalizing l with
  | nil => exact ⟨hp, fun t h => .inl h, fun t h => ⟨t, h.elim id (fun h => by cases h), type_eq_equivalence.refl t⟩⟩
  | cons a L ih =>
    have hp' : (insertTy l a).Pairwise fun a b => a.eq b = false := by
      rw [insertTy]
      split
      · exact hp
      · rename_i h
        rw [List.pairwise_append]
        refine ⟨hp, List.pairwise_singleton _ _, fun x hx y hy => ?_⟩
        rw [List.mem_singleton.1 hy]
        cases hxa : x.eq a
        · rfl
        · exact absurd (List.any_eq_true.2 ⟨x, hx, hxa⟩) h
    obtain ⟨h1, h2, h3⟩ := ih (insertTy l a) hp'
    have hm : ∀ t ∈ insertTy l a, t ∈ l ∨ t = a := by
      intro t ht
      rw [insertTy] at ht
      split at ht
      · exact .inl ht
      · simpa using ht
    have hs : ∀ t ∈ l, t ∈ insertTy l a := by
      intro t ht
      rw [insertTy]
      split
      · exact ht
      · exact List.mem_append_left _ ht
    have ha : ∃ u ∈ insertTy l a, u.eq a = true := by
      rw [insertTy]
      split
      · rename_i h
        exact List.any_eq_true.1 h
      · exact ⟨a, by simp, type_eq_equivalence.refl a⟩
    refine ⟨h1, fun t ht => ?_, fun t ht => ?_⟩
    · rcases h2 t ht with h | h
      · rcases hm t h with h | rfl
        · exact .inl h
        · exact .inr (List.mem_cons_self ..)
      · exact .inr (List.mem_cons_of_mem _ h)
    · rcases ht with h | h
      · exact h3 t (.inl (hs t h))
      · rcases List.mem_cons.1 h with rfl | h
        · obtain ⟨u, hu, hut⟩ := ha
          obtain ⟨v, hv, hvu⟩ := h3 u (.inl hu)
          exact ⟨v, hv, type_eq_equivalence.trans hvu hut⟩
        · exact h3 t (.inr h)

/-- the type found is one that was contributed, and all contributions are equal to it -/
theorem found_some {L : List Ty} {t : Ty} (h : L.foldl insertTy [] = [t]) : t ∈ L ∧ ∀ u ∈ L, u.eq t = true := by
  obtain ⟨_, h2, h3⟩ := fold_insert L [] .nil
  rw [h] at h2 h3
  refine ⟨(h2 t (by simp)).resolve_left (by simp), fun u hu => ?_⟩
  obtain ⟨v, hv, hvu⟩ := h3 u (.inr hu)
  rw [List.mem_singleton.1 hv] at hvu
  exact type_eq_equivalence.symm hvu

/-- no type is found if nothing was contributed or if two contributions differ -/
theorem found_none (L : List Ty) : (¬ ∃ t, L.foldl insertTy [] = [t]) ↔ L = [] ∨ ∃ a ∈ L, ∃ b ∈ L, a.eq b = false := by
  obtain ⟨h1, h2, h3⟩ := fold_insert L [] .nil
  constructor
  · intro h
    match hr : L.foldl insertTy [] with
    | [] =>
      left
      cases L with
      | nil => rfl
      | cons a L =>
        obtain ⟨u, hu, _⟩ := h3 a (.inr (List.mem_cons_self ..))
        rw [hr] at hu
        cases hu
    | [t] => exact absurd ⟨t, hr⟩ h
    | a :: b :: r =>
      right
      rw [hr] at h1 h2
      refine ⟨a, (h2 a (by simp)).resolve_left (by simp), b, (h2 b (by simp)).resolve_left (by simp), ?_⟩
      exact (List.pairwise_cons.1 h1).1 b (by simp)
  · rintro (rfl | ⟨a, ha, b, hb, hab⟩) ⟨t, ht⟩
    · cases ht
    · obtain ⟨_, h⟩ := found_some ht
      have := type_eq_equivalence.trans (h a ha) (type_eq_equivalence.symm (h b hb))
      rw [hab] at this
      cases this

/-- the type is unknown and has to be found from the uses -/
def Ty.Untyped (d : Ty) : Prop := (∃ a, d = .opaquePtr a) ∨ ∃ a n, d = .structure a n ∧ pointerLike n = true

/-- A container with a type that tells what it holds has this type. -/
theorem outer_declared (d : Ty) (c : String) (ns : List RNode) (h : ¬ d.Untyped) : outerType d c ns = some d := by
  cases d with
  | opaquePtr a => exact absurd (.inl ⟨a, rfl⟩) h
  | «structure» a n =>
    cases hn : pointerLike n
    · simp [outerType, hn]
    · exact absurd (.inr ⟨a, n, rfl, hn⟩) h
  | _ => rfl

theorem outer_untyped {d : Ty} (h : d.Untyped) (c : String) (ns : List RNode) (t : Ty) :
    outerType d c ns = some t ↔ (contributions c ns).foldl insertTy [] = [t] := by
  have : outerType d c ns = match (contributions c ns).foldl insertTy [] with
      | [t] => some t
      | _ => none := by
    rcases h with ⟨a, rfl⟩ | ⟨a, n, rfl, hn⟩
    · rfl
    · simp only [outerType, hn, if_true]
      rfl
  rw [this]
  constructor
  · intro h
    split at h
    · rename_i u hu
      rw [hu, Option.some.inj h]
    · cases h
  · intro h
    rw [h]

/-- If a type is reported, all computations read and write the container at this type. -/
theorem outer_accesses {d : Ty} (hd : d.Untyped) {c : String} {ns : List RNode} {t : Ty} (h : outerType d c ns = some t) :
    ∀ N ∈ ns, N.data = c → ∀ m, (m ∈ N.ins ∨ m ∈ N.outs) → m.kind = .comp → ∀ u, sayingBase m.base = some u → u.eq t = true := by
  intro N hN hc m hm hk u hu
  refine (found_some ((outer_untyped hd c ns t).1 h)).2 u ((mem_contributions c ns u).2 ⟨N, hN, hc, ?_⟩)
  rcases hm with hm | hm
  · exact .inl ⟨m, hm, by simp [typeIn, hu, hk]⟩
  · exact .inr ⟨m, hm, by simp [typeOut, hu, hk]⟩

theorem derefBase_ptr (a : Attr) (p : Ty) (hp : ∀ b n, p ≠ .structure b n) : derefBase (.ptr a p) = sayingBase p := by
  cases p with
  | «structure» b n => exact absurd rfl (hp b n)
  | _ => rfl

/-- for plain memlets the analysis sees what the memlet says, up to attributes -/
theorem typeIn_plain (S : Structs) (m : Mlt) (h : m.plainIn) :
    (∀ t, typeIn m = some t → ∃ u, seenIn S m = some u ∧ u.eq t = true) ∧ (∀ u, seenIn S m = some u → ∃ t, typeIn m = some t ∧ t.eq u = true) := by
  obtain ⟨k, b, s⟩ := m
  cases k with
  | comp => simp only [typeIn, seenIn, reduceCtorEq, if_false]; constructor <;> (intro t ht; exact ⟨t, by simpa using ht, type_eq_equivalence.refl t⟩)
  | derefDst => simp only [typeIn, seenIn, reduceCtorEq, if_false]; constructor <;> (intro t ht; exact ⟨t, by simpa using ht, type_eq_equivalence.refl t⟩)
  | derefSrc =>
    obtain ⟨a, p, rfl, hp⟩ := h
    have : typeIn ⟨.derefSrc, .ptr a p, s⟩ = sayingBase p := by
      simp only [typeIn, sayingBase, Option.bind_some, if_true, derefBase_ptr a p hp]
    rw [this]
    simp only [seenIn]
    constructor <;> (intro t ht; exact ⟨t, ht, type_eq_equivalence.refl t⟩)
  | ref =>
    obtain ⟨a, p, i, rfl, rfl⟩ := h
    have h1 : typeIn ⟨.ref, .ptr a p, [i]⟩ = some (.ptr a p) := by simp [typeIn, sayingBase]
    have h2 : seenIn S ⟨.ref, .ptr a p, [i]⟩ = some (.ptr default p) := by
      simp [seenIn, infer, inferInternal, clone_same]
    rw [h1, h2]
    have he : Ty.eq (.ptr default p) (.ptr a p) = true := by rw [Ty.eq]; exact type_eq_equivalence.refl p
    constructor
    · intro t ht
      obtain rfl := Option.some.inj ht
      exact ⟨_, rfl, he⟩
    · intro t ht
      obtain rfl := Option.some.inj ht
      exact ⟨_, rfl, type_eq_equivalence.symm he⟩

theorem typeOut_plain (m : Mlt) (h : m.plainOut) : typeOut m = seenOut m := by
  obtain ⟨k, b, s⟩ := m
  cases k with
  | derefDst =>
    obtain ⟨a, p, rfl, hp⟩ := h
    simp only [typeOut, sayingBase, Option.bind_some, if_true, derefBase_ptr a p hp, seenOut]
  | _ => simp [typeOut, seenOut]

/-- all memlets of the container are plain -/
def PlainUses (c : String) (ns : List RNode) : Prop := ∀ N ∈ ns, N.data = c → (∀ m ∈ N.ins, m.plainIn) ∧ ∀ m ∈ N.outs, m.plainOut

theorem contributions_used {S : Structs} {c : String} {ns : List RNode} (hp : PlainUses c ns) :
    (∀ t ∈ contributions c ns, ∃ u, UsedAt S c ns u ∧ u.eq t = true) ∧ ∀ u, UsedAt S c ns u → ∃ t ∈ contributions c ns, t.eq u = true := by
  constructor
  · intro t ht
    obtain ⟨N, hN, hc, ⟨m, hm, h⟩ | ⟨m, hm, h⟩⟩ := (mem_contributions c ns t).1 ht
    · obtain ⟨u, hu, he⟩ := (typeIn_plain S m ((hp N hN hc).1 m hm)).1 t h
      exact ⟨u, ⟨N, hN, hc, .inl ⟨m, hm, hu⟩⟩, he⟩
    · rw [typeOut_plain m ((hp N hN hc).2 m hm)] at h
      exact ⟨t, ⟨N, hN, hc, .inr ⟨m, hm, h⟩⟩, type_eq_equivalence.refl t⟩
  · rintro u ⟨N, hN, hc, ⟨m, hm, h⟩ | ⟨m, hm, h⟩⟩
    · obtain ⟨t, ht, he⟩ := (typeIn_plain S m ((hp N hN hc).1 m hm)).2 u h
      exact ⟨t, (mem_contributions c ns t).2 ⟨N, hN, hc, .inl ⟨m, hm, ht⟩⟩, he⟩
    · rw [← typeOut_plain m ((hp N hN hc).2 m hm)] at h
      exact ⟨u, (mem_contributions c ns u).2 ⟨N, hN, hc, .inr ⟨m, hm, h⟩⟩, type_eq_equivalence.refl u⟩

/-- If a type is reported, the container is used at this type and at no other. -/
theorem outer_sound_partial (S : Structs) {d : Ty} (hd : d.Untyped) {c : String} {ns : List RNode} (hp : PlainUses c ns) {t : Ty}
    (h : outerType d c ns = some t) : (∃ u, UsedAt S c ns u ∧ u.eq t = true) ∧ ∀ u, UsedAt S c ns u → u.eq t = true := by
  obtain ⟨h1, h2⟩ := found_some ((outer_untyped hd c ns t).1 h)
  obtain ⟨k1, k2⟩ := contributions_used (S := S) hp
  refine ⟨k1 t h1, fun u hu => ?_⟩
  obtain ⟨v, hv, he⟩ := k2 u hu
  exact type_eq_equivalence.trans (type_eq_equivalence.symm he) (h2 v hv)

/-- No type is reported exactly if no use tells the type or two uses tell different types. -/
theorem outer_null_iff_partial (S : Structs) {d : Ty} (hd : d.Untyped) {c : String} {ns : List RNode} (hp : PlainUses c ns) :
    outerType d c ns = none ↔ (∀ u, ¬ UsedAt S c ns u) ∨ ∃ a b, UsedAt S c ns a ∧ UsedAt S c ns b ∧ a.eq b = false := by
  obtain ⟨k1, k2⟩ := contributions_used (S := S) hp
  have hno : outerType d c ns = none ↔ ¬ ∃ t, (contributions c ns).foldl insertTy [] = [t] := by
    rw [Option.eq_none_iff_forall_ne_some]
    simp only [ne_eq, outer_untyped hd, not_exists]
  rw [hno, found_none]
  constructor
  · rintro (h | ⟨a, ha, b, hb, hab⟩)
    · left
      intro u hu
      obtain ⟨t, ht, _⟩ := k2 u hu
      rw [h] at ht
      cases ht
    · right
      obtain ⟨a', ha', e1⟩ := k1 a ha
      obtain ⟨b', hb', e2⟩ := k1 b hb
      refine ⟨a', b', ha', hb', ?_⟩
      cases hx : a'.eq b'
      · rfl
      · have := type_eq_equivalence.trans (type_eq_equivalence.symm e1) (type_eq_equivalence.trans hx e2)
        rw [hab] at this
        cases this
  · rintro (h | ⟨a, b, ha, hb, hab⟩)
    · left
      cases hL : contributions c ns with
      | nil => rfl
      | cons t L =>
        obtain ⟨u, hu, _⟩ := k1 t (by rw [hL]; exact List.mem_cons_self ..)
        exact absurd hu (h u)
    · right
      obtain ⟨a', ha', e1⟩ := k2 a ha
      obtain ⟨b', hb', e2⟩ := k2 b hb
      refine ⟨a', ha', b', hb', ?_⟩
      cases hx : a'.eq b'
      · rfl
      · have := type_eq_equivalence.trans (type_eq_equivalence.symm e1) (type_eq_equivalence.trans hx e2)
        rw [hab] at this
        cases this

end Docc.Types
