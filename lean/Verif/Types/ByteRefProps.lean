import Verif.Types.ByteRef
import Verif.Types.RefPropProps

/-
C105: offsets in bytes keep the memory that is accessed.
-/
namespace Docc.Types
open Docc.Sym

theorem intOf_eval (ρ : Val) (e : Expr) : ∀ k, intOf e = some k → e.eval ρ = .fin k := by
  fun_induction intOf e with
  | case1 k => intro n h; obtain rfl := Option.some.inj h; rfl
  | case2 a b y x hx hy ihb iha =>
    intro n h
    obtain rfl := Option.some.inj h
    exact eval_mul2 (ihb _ (by assumption)) (iha _ (by assumption))
  | case3 => intro n h; cases h
  | case4 => intro n h; cases h

theorem wrap32_id {n : Int} (h : -2147483648 ≤ n) (h' : n < 2147483648) : wrap32 n = n := by
  unfold wrap32; omega

theorem size_byte {ρ : Val} {st : String → Int} {a : Attr} {q : Prim} (hq : q = .int8 ∨ q = .uint8) {z : Int} (h : Size ρ st (.scalar a q) z) : z = 1 := by
  cases h with
  | scalar _ _ k h0 h1 h2 =>
    rcases hq with rfl | rfl <;> (simp only [Prim.bitWidth] at h0 h1 h2; omega)

/-- what is known about a rewritten memlet -/
theorem byteRef_cases {move m m' : Mlt} (h : byteRef move m = .ok (some m')) :
    ∃ a e q c b t i r z, move.base = .ptr a (.scalar e q) ∧ move.subset = [.int c] ∧ (q = .int8 ∨ q = .uint8) ∧ m.base = .ptr b t ∧ m.subset = i :: r ∧
      (typeSize false t).bind intOf = some z ∧ (wrap32 c).tmod (wrap32 z) = 0 ∧ wrap32 z ≠ 0 ∧
      m' = ⟨m.kind, m.base, sadd i (.int ((wrap32 c).tdiv (wrap32 z))) :: r⟩ := by
  unfold byteRef at h
  split at h
  · cases h
  · rename_i b hb
    split at h
    · cases h
    · split at h
      · rename_i a t i r hmb hms
        split at h
        · cases h
        · rename_i z hz
          split at h
          · cases h
          · rename_i hz0
            split at h
            · cases h
            · rename_i hmod
              unfold byteOffset at hb
              split at hb
              · rename_i a' e q c hb1 hb2
                split at hb
                · rename_i hq
                  obtain rfl := Option.some.inj hb
                  refine ⟨a', e, q, c, a, t, i, r, z, hb1, hb2, hq, hmb, hms, hz, Classical.not_not.1 hmod, hz0, ?_⟩
                  injection h with h
                  injection h with h
                  exact h.symm
                · cases hb
              · cases hb
      · cases h

/-- ByteReferenceElimination: where the pointer `p` holds the address `&A[c]` of its only move, whose offset and whose element sizes fit into `int`, the rewritten
memlet accesses the same address with the same type at `A`. -/
theorem byte_reference_partial (S : Structs) (ρ : Val) (st : String → Int) (mo : String → Nat → Int) (D : Place.Env) (types : String → Ty) (A p : String)
    (move m m' : Mlt) (T : Ty) (hst : ∀ n, ρ.fn ("sizeof " ++ n) [] = st n) (hp : (types p).isPtr = true)
    (hplace : Touches S ρ st mo D types A move (D.val p) T)
    (hc : ∀ c, move.subset = [.int c] → -2147483648 ≤ c ∧ c < 2147483648)
    (hz : ∀ b t z, m.base = .ptr b t → Size ρ st t z → -2147483648 ≤ z ∧ z < 2147483648)
    (h : byteRef move m = .ok (some m')) : SameAccess S ρ st mo D types p A m m' := by
  obtain ⟨a, e, q, c, b, t, i, r, z, hb1, hb2, hq, hmb, hms, hts, hmod, hz0, rfl⟩ := byteRef_cases h
  refine ⟨rfl, ?_⟩
  rintro ad u ⟨ro, o, hm, rfl⟩
  obtain ⟨ro', o', hmove, hval⟩ := hplace
  rw [hb1, hb2] at hmove
  obtain ⟨_, _, c', s1, o1, he, hro', hc', hs1, ho1, rfl⟩ := hmove.of_ptr (by simp)
  rw [hmb, hms] at hm
  obtain ⟨_, _, k, z', o2, he2, hro, hk, hz', ho2, rfl⟩ := hm.of_ptr (by simp)
  simp only [List.cons.injEq] at he he2
  obtain ⟨rfl, rfl⟩ := he
  obtain ⟨rfl, rfl⟩ := he2
  have e1 : s1 = 1 := size_byte hq hs1
  have e2 : c' = c := by simp only [Expr.eval] at hc'; cases hc'; rfl
  have e3 : o1 = 0 := by cases ho1; rfl
  have e4 : z' = z := by
    obtain ⟨x, hx, hv⟩ := type_size_correct ρ st hst t z' hz'
    obtain ⟨y, hy, hy'⟩ := Option.bind_eq_some_iff.1 hts
    have := type_size_static t y hy
    rw [hx] at this
    obtain rfl := Option.some.inj this
    have := intOf_eval ρ x z hy'
    rw [hv] at this
    cases this
    rfl
  subst e1 e2 e3 e4
  obtain ⟨hc1, hc2⟩ := hc c' hb2
  obtain ⟨hz1, hz2⟩ := hz b t z' hmb hz'
  rw [wrap32_id hc1 hc2, wrap32_id hz1 hz2] at hmod ⊢
  have hdiv : c'.tdiv z' * z' = c' := Int.tdiv_mul_cancel (Int.dvd_of_tmod_eq_zero hmod)
  refine ⟨u, ⟨rootOf (types A), (k + c'.tdiv z') * z' + o2, ?_, ?_⟩, eq_refl' u⟩
  · show Acc S ρ st mo (types A) m.base (sadd i (.int (c'.tdiv z')) :: r) _ _ _
    rw [hmb]
    exact Acc.ptr b t _ r _ z' o2 u (sadd_value hk rfl) hz' ho2
  · have hpr : rootOf (types p) = .pointee := by simp [rootOf, hp]
    subst hro hro'
    rw [hpr]
    show D.val p + _ = _
    rw [hval, Int.add_mul, hdiv]
    omega

/-- TrivialReferenceConversion: a reference denotes the same address after it. -/
theorem trivial_reference_address (S : Structs) (ρ : Val) (st : String → Int) (mo : String → Nat → Int) (D : Place.Env) (types : String → Ty) (x : String)
    (m : Mlt) (a : Int) (u : Ty) (h : Touches S ρ st mo D types x m a u) : ∃ u', Touches S ρ st mo D types x (trivialRef m) a u' := by
  have key : ∀ b t, m.base = .ptr b t → m.subset = [.int 0] →
      ∃ u', Touches S ρ st mo D types x { m with base := .ptr default (.scalar default .int8) } a u' := by
    intro b t hb hs
    obtain ⟨r, o, hm, rfl⟩ := h
    rw [hb, hs] at hm
    obtain ⟨_, _, k, z, o', he, rfl, hk, hz, ho, rfl⟩ := hm.of_ptr (by simp)
    simp only [List.cons.injEq] at he
    obtain ⟨rfl, rfl⟩ := he
    have e2 : k = 0 := by simp only [Expr.eval] at hk; cases hk; rfl
    have e3 : o' = 0 := by cases ho; rfl
    subst e2 e3
    refine ⟨.scalar default .int8, rootOf (types x), 0 * 1 + 0, ?_, by omega⟩
    show Acc S ρ st mo (types x) (.ptr default (.scalar default .int8)) m.subset _ _ _
    rw [hs]
    exact Acc.ptr _ _ (.int 0) [] 0 1 0 _ rfl (.scalar _ _ 1 (by decide) (by decide) (by decide)) (.here _)
  unfold trivialRef
  split
  · rename_i hc
    split
    · rename_i hb; exact key _ _ hb hc.2
    · rename_i hb; exact key _ _ hb hc.2
    · exact ⟨u, h⟩
  · exact ⟨u, h⟩

/-- It changes references only, and these keep their kind and their subset. -/
theorem trivial_reference_only (m : Mlt) : (m.kind ≠ .ref → trivialRef m = m) ∧ (trivialRef m).kind = m.kind ∧ (trivialRef m).subset = m.subset := by
  refine ⟨fun h => by simp [trivialRef, h], ?_, ?_⟩
  all_goals
    unfold trivialRef
    split
    · split <;> rfl
    · rfl

end Docc.Types
