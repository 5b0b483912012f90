import Verif.Types.OuterProps

/-
C104: examples, and uses for which the reported type is wrong.
-/
namespace Docc.Types
open Docc.Sym

/-- `double *` -/
def exDbl : Ty := .ptr default (.scalar default .double)

/-- `c = &p[i]`, `x = c[j]`, `c[k] = y` -/
def exPlain : List RNode := [⟨"c", [⟨.ref, exDbl, [.sym "i"]⟩], []⟩, ⟨"c", [], [⟨.comp, exDbl, [.sym "j"]⟩]⟩, ⟨"c", [⟨.comp, exDbl, [.sym "k"]⟩], []⟩]

theorem exPlain_plain : PlainUses "c" exPlain := by
  intro N hN _
  simp only [exPlain, List.mem_cons, List.not_mem_nil, or_false] at hN
  rcases hN with rfl | rfl | rfl <;>
    simp [Mlt.plainIn, Mlt.plainOut, exDbl]

example : outerType (.opaquePtr default) "c" exPlain = some exDbl := by
  simp [outerType, exPlain, contributions, RNode.isMove, RNode.isView, typeIn, typeOut, sayingBase, exDbl, insertTy, Ty.eq]

example : (Ty.opaquePtr default).Untyped := .inl ⟨_, rfl⟩
example : ¬ exDbl.Untyped := by simp [Ty.Untyped, exDbl]
example : outerType (.opaquePtr default) "d" exPlain = none := by
  simp [outerType, exPlain, contributions]

/-- a structure with an integer and a double -/
def exFields : Structs := fun n => if n = "s" then some ⟨false, [.scalar default .int32, .scalar default .double]⟩ else none

/-- `c = &p[0].second` -/
def exField : List RNode := [⟨"c", [⟨.ref, .ptr default (.structure default "s"), [.int 0, .int 1]⟩], []⟩]

/-- A pointer to a member of a structure is reported as a pointer to the structure. -/
theorem outer_member_violated : ¬ ∀ (S : Structs) (d : Ty) (c : String) (ns : List RNode) (t : Ty), d.Untyped → outerType d c ns = some t →
    ∀ u, UsedAt S c ns u → u.eq t = true := by
  intro h
  have := h exFields (.opaquePtr default) "c" exField (.ptr default (.structure default "s")) (.inl ⟨_, rfl⟩)
    (by simp [outerType, exField, contributions, RNode.isMove, RNode.isView, typeIn, sayingBase, insertTy])
    (.ptr default (.scalar default .double))
    ⟨_, List.mem_cons_self .., rfl, .inl ⟨_, List.mem_cons_self .., by
      have : (Int.ofNat 1 : Int) = 1 := rfl
      simp [seenIn, infer, inferInternal, exFields, StructDef.isVector, Ty.isScalar, Ty.eq, clone_same]⟩⟩
  simp [Ty.eq] at this

/-- `x = c[j]` and `*p = c` for a shared pointer `c` -/
def exShared : List RNode :=
  [⟨"c", [], [⟨.comp, exDbl, [.sym "j"]⟩]⟩, ⟨"c", [], [⟨.derefDst, .ptr default (.structure default "std::shared_ptr<double>"), [.int 0]⟩]⟩]

set_option maxRecDepth 4000 in
theorem pointerLike_ex : pointerLike "std::shared_ptr<double>" = true := by decide

/-- Storing a shared pointer behind a pointer hides the type that all other uses agree on. -/
theorem outer_shared_violated : ¬ ∀ (S : Structs) (d : Ty) (c : String) (ns : List RNode), d.Untyped → outerType d c ns = none →
    (∀ u, ¬ UsedAt S c ns u) ∨ ∃ a b, UsedAt S c ns a ∧ UsedAt S c ns b ∧ a.eq b = false := by
  intro h
  have hU : ∀ u, UsedAt exFields "c" exShared u → u = exDbl := by
    rintro u ⟨N, hN, _, hm⟩
    simp only [exShared, List.mem_cons, List.not_mem_nil, or_false] at hN
    rcases hN with rfl | rfl
    · simp [seenOut, sayingBase, exDbl] at hm
      exact hm.symm
    · simp [seenOut, sayingBase] at hm
  rcases h exFields (.structure default "std::shared_ptr<double>") "c" exShared (.inr ⟨_, _, rfl, pointerLike_ex⟩)
    (by simp [outerType, pointerLike_ex, exShared, contributions, RNode.isMove, RNode.isView, typeOut, sayingBase, derefBase, exDbl, insertTy, Ty.eq]) with h | ⟨a, b, ha, hb, hab⟩
  · exact h exDbl ⟨_, List.mem_cons_self .., rfl, .inr ⟨_, List.mem_cons_self .., rfl⟩⟩
  · rw [hU a ha, hU b hb] at hab
    have := type_eq_equivalence.refl exDbl
    rw [hab] at this
    cases this

end Docc.Types
