import Verif.Types.ByteRefProps

/-
C105: an example, and offsets for which ByteReferenceElimination is wrong.
-/
namespace Docc.Types
open Docc.Sym

/-- `&A[c]` in bytes -/
def exByteMove (k : MKind) (c : Int) : Mlt := ⟨k, .ptr default (.scalar default .int8), [.int c]⟩

/-- `(double *) x` with index `n` -/
def exByteAcc (n : Int) : Mlt := ⟨.comp, .ptr default (.scalar default .double), [.int n]⟩

/-- both containers are opaque pointers -/
def exByteTypes : String → Ty := fun _ => .opaquePtr default

/-- `A` holds the address 1000, `p` the address `1000 + c` -/
def exByteEnv (c : Int) : Place.Env := ⟨fun _ => 0, fun x => if x = "A" then 1000 else 1000 + c⟩

/-- structures do not matter -/
def exByteVal : Val := { sym := fun _ => 1, fn := fun _ _ => 16 }

theorem exByte_size : Size exByteVal (fun _ => 16) (.scalar default .double) 8 := .scalar _ _ 8 (by decide) (by decide) (by decide)

/-- an access with a constant index touches exactly one address -/
theorem exByte_touches (D : Place.Env) (x : String) (n a : Int) (u : Ty) :
    Touches (fun _ => none) exByteVal (fun _ => 16) (fun _ k => 8 * k) D exByteTypes x (exByteAcc n) a u ↔
      a = D.val x + n * 8 ∧ u = .scalar default .double := by
  constructor
  · rintro ⟨r, o, h, rfl⟩
    obtain ⟨_, _, k, z, o', he, rfl, hk, hz, ho, rfl⟩ := Acc.of_ptr h (by simp [exByteAcc])
    simp only [exByteAcc, List.cons.injEq] at he
    obtain ⟨rfl, rfl⟩ := he
    have e1 : k = n := by simp only [Expr.eval] at hk; cases hk; rfl
    have e2 : z = 8 := size_unique hz exByte_size
    cases ho
    subst e1 e2
    exact ⟨by simp [exByteTypes, rootOf, Ty.isPtr, Place.Env.at], rfl⟩
  · rintro ⟨rfl, rfl⟩
    exact ⟨rootOf (exByteTypes x), n * 8 + 0, Acc.ptr _ _ (.int n) [] n 8 0 _ rfl exByte_size (.here _), by
      simp [exByteTypes, rootOf, Ty.isPtr, Place.Env.at]⟩

/-- `p` holds the address of the move -/
theorem exByte_place (k : MKind) (c : Int) :
    Touches (fun _ => none) exByteVal (fun _ => 16) (fun _ k => 8 * k) (exByteEnv c) exByteTypes "A" (exByteMove k c) ((exByteEnv c).val "p") (.scalar default .int8) :=
  ⟨rootOf (exByteTypes "A"), c * 1 + 0, Acc.ptr _ _ (.int c) [] c 1 0 _ rfl (.scalar _ _ 1 (by decide) (by decide) (by decide)) (.here _), by
    simp [exByteTypes, rootOf, Ty.isPtr, Place.Env.at, exByteEnv]⟩

theorem exByte_rewrite : byteRef (exByteMove .ref (-16)) (exByteAcc 5) = .ok (some (exByteAcc 3)) := by
  simp [byteRef, byteOffset, exByteMove, exByteAcc, typeSize, Prim.sizeOf, Prim.bitWidth, intOf, wrap32, sadd]

/-- the hypotheses of `byte_reference_partial` are met by `p = &A[-16 bytes]; p[5]`, which becomes `A[3]` -/
example : SameAccess (fun _ => none) exByteVal (fun _ => 16) (fun _ k => 8 * k) (exByteEnv (-16)) exByteTypes "p" "A" (exByteAcc 5) (exByteAcc 3) :=
  byte_reference_partial _ _ _ _ _ _ _ _ (exByteMove .ref (-16)) _ _ _ (fun _ => rfl) rfl (exByte_place .ref (-16))
    (fun c h => by simp only [exByteMove, List.cons.injEq, Expr.int.injEq, and_true] at h; omega)
    (fun b t z h hz => by
      simp only [exByteAcc, Ty.ptr.injEq] at h
      obtain ⟨_, rfl⟩ := h
      have := size_unique hz exByte_size
      omega) exByte_rewrite

example : trivialRef ⟨.ref, .ptr default (.ptr default (.scalar default .double)), [.int 0]⟩ = ⟨.ref, .ptr default (.scalar default .int8), [.int 0]⟩ := rfl

theorem exByte_wide : byteRef (exByteMove .ref 4294967304) (exByteAcc 0) = .ok (some (exByteAcc 1)) := by
  simp [byteRef, byteOffset, exByteMove, exByteAcc, typeSize, Prim.sizeOf, Prim.bitWidth, intOf, wrap32, sadd]

/-- Offsets of 2 GiB and more are cut to 32 bits: `p = &A[4294967304 bytes]; p[0]` becomes `A[1]`. -/
theorem byte_offset_violated : ¬ ∀ (S : Structs) (ρ : Val) (st : String → Int) (mo : String → Nat → Int) (D : Place.Env) (types : String → Ty) (A p : String)
    (move m m' : Mlt) (T : Ty), (∀ n, ρ.fn ("sizeof " ++ n) [] = st n) → (types p).isPtr = true → move.kind = .ref →
    Touches S ρ st mo D types A move (D.val p) T → byteRef move m = .ok (some m') → SameAccess S ρ st mo D types p A m m' := by
  intro h
  have := (h _ exByteVal (fun _ => 16) _ _ exByteTypes "A" "p" _ _ _ _ (fun _ => rfl) rfl rfl (exByte_place .ref 4294967304) exByte_wide).2
    (1000 + 4294967304) (.scalar default .double) ((exByte_touches _ _ _ _ _).2 ⟨by simp [exByteEnv], rfl⟩)
  obtain ⟨u, hu, _⟩ := this
  have := ((exByte_touches _ _ _ _ _).1 hu).1
  simp [exByteEnv] at this

theorem exByte_load : byteRef (exByteMove .derefSrc 0) (exByteAcc 0) = .ok (some (exByteAcc 0)) := by
  simp [byteRef, byteOffset, exByteMove, exByteAcc, typeSize, Prim.sizeOf, Prim.bitWidth, intOf, wrap32, sadd]

/-- A pointer that is loaded, `p = *A`, is taken for the reference `p = &A[0]`: accesses to what `p` points to become accesses to what `A` points to. -/
theorem byte_load_violated : ∃ (move m m' : Mlt) (D : Place.Env) (a : Int) (u : Ty), move.kind = .derefSrc ∧ byteRef move m = .ok (some m') ∧
    Touches (fun _ => none) exByteVal (fun _ => 16) (fun _ k => 8 * k) D exByteTypes "p" m a u ∧
    ∀ u', ¬ Touches (fun _ => none) exByteVal (fun _ => 16) (fun _ k => 8 * k) D exByteTypes "A" m' a u' :=
  ⟨exByteMove .derefSrc 0, exByteAcc 0, exByteAcc 0, exByteEnv 500, 1500, _, rfl, exByte_load, (exByte_touches _ _ _ _ _).2 ⟨by simp [exByteEnv], rfl⟩,
    fun u' h => by have := ((exByte_touches _ _ _ _ _).1 h).1; simp [exByteEnv] at this⟩

/-- Element types of 4 GiB have size 0 as an `int`: the pass divides by zero. -/
theorem byte_size_violated : ∃ move m : Mlt, move.kind = .ref ∧ m.kind = .comp ∧ byteRef move m = .ub :=
  ⟨exByteMove .ref 0, ⟨.comp, .ptr default (.array default (.scalar default .double) (.int 536870912)), [.int 0, .int 0]⟩, rfl, rfl, by
    simp [byteRef, byteOffset, exByteMove, typeSize, Prim.sizeOf, Prim.bitWidth, intOf, wrap32]⟩

end Docc.Types
