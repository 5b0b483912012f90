import Verif.Types.MemletProps

/-
C82: tensor memlets and trivial array dimensions.
-/
namespace Docc.Types
open Docc.Sym

/-! ### TensorToPointerConversion -/

theorem tensorIndex_value {ρ : Val} (shape : List Expr) : ∀ (s strides : List Expr) (idx ss : List Int) (acc : Expr) (a : Int),
    Vals ρ s idx → Vals ρ strides ss → s.length = shape.length → strides.length = shape.length → acc.eval ρ = .fin a →
    ∃ e, tensorIndex shape s strides acc = .ok e ∧ e.eval ρ = .fin (a + dot ss idx) := by
  induction shape with
  | nil =>
    intro s strides idx ss acc a hs hst h1 h2 ha
    obtain rfl := List.eq_nil_of_length_eq_zero h1
    obtain rfl := List.eq_nil_of_length_eq_zero h2
    have e1 : ss = [] := by cases ss <;> simp_all [Vals]
    subst e1
    exact ⟨acc, by simp [tensorIndex], by simp [dot, ha]⟩
  | cons n ns ih =>
    intro s strides idx ss acc a hs hst h1 h2 ha
    cases s with
    | nil => simp at h1
    | cons i is =>
      cases strides with
      | nil => simp at h2
      | cons c cs =>
        obtain ⟨k, idx', rfl, hi, his⟩ := vals_cons hs
        obtain ⟨d, ss', rfl, hc, hcs⟩ := vals_cons hst
        obtain ⟨e, he, hv⟩ := ih is cs idx' ss' _ _ his hcs (by simpa using h1) (by simpa using h2)
          (eval_add2 ha (eval_mul2 hi hc))
        refine ⟨e, by simpa [tensorIndex] using he, ?_⟩
        rw [hv]; simp only [dot]; rw [Int.mul_comm d k, Int.add_assoc]

theorem tensorIndex_total (shape : List Expr) : ∀ (s strides : List Expr) (acc : Expr),
    (∃ e, tensorIndex shape s strides acc = .ok e) ↔ shape.length ≤ s.length ∧ shape.length ≤ strides.length := by
  induction shape with
  | nil => intro s strides acc; simp [tensorIndex]
  | cons n ns ih =>
    intro s strides acc
    cases s with
    | nil => simp [tensorIndex]
    | cons i is =>
      cases strides with
      | nil => simp [tensorIndex]
      | cons c cs => simp only [tensorIndex, ih, List.length_cons]; omega

/-- C82: a memlet that TensorToPointerConversion accepts accesses the same storage, byte offset and type afterwards, for
all tensor layouts (shape, strides, offset), containers and valuations; and every memlet that accesses a whole
element is accepted.  Missing: a valid memlet with fewer indices than dimensions makes the pass throw
(`tensor_to_pointer_violated`). -/
theorem tensor_to_pointer_partial (S : Structs) (ρ : Val) (st : String → Int) (mo : String → Nat → Int) (cont : Ty) (m : Mlt)
    (root : Root) (o : Int) (u : Ty) (h : Acc S ρ st mo cont m.base m.subset root o u) :
    ∃ m', tensorToPointer cont m = .ok m' ∧ Acc S ρ st mo cont m'.base m'.subset root o u ∧ m'.kind = m.kind ∧
      (m.subset ≠ [] → ∀ a ea x, m'.base ≠ .tensor a ea x) := by
  obtain ⟨kind, base, subset⟩ := m
  dsimp only at h ⊢
  cases h with
  | ptr a p i r k s o' _ hi hs hp =>
    exact ⟨_, rfl, .ptr a p i r k s o' u hi hs hp, rfl, fun _ a ea x => by simp⟩
  | value _ ht =>
    cases u with
    | ptr a p => exact ⟨_, rfl, .value _ ht, rfl, fun h => absurd rfl h⟩
    | opaquePtr a => exact ⟨_, rfl, .value _ ht, rfl, fun h => absurd rfl h⟩
    | _ => simp [Ty.isPtr] at ht
  | obj _ _ _ _ ht hx hp =>
    cases base with
    | tensor a ea x => exact absurd rfl (hx a ea x)
    | _ => exact ⟨_, rfl, .obj _ _ _ _ ht hx hp, rfl, fun _ => hx⟩
  | scalarTensor a ea t hc ht =>
    refine ⟨{ kind := kind, base := cont.clone, subset := [] }, by simp [tensorToPointer, hc], ?_, rfl, fun h => absurd rfl h⟩
    cases cont with
    | scalar ca q => exact .obj _ _ _ _ rfl (by simp [Ty.clone]) (.here _)
    | _ => simp [Ty.isScalar] at hc
  | tensor a ea t _ ns ss idx off k hc hne hl hv h1 h2 hk =>
    have hsc : cont.isScalar = false := by cases cont <;> simp_all [Ty.isPtr, Ty.isScalar]
    have hlen : subset.length = t.shape.length := by rw [hv.length, hl.shape.length, h2]
    have hne' : subset ≠ [] := by
      intro hs; rw [hs] at hlen; exact hne (List.eq_nil_of_length_eq_zero hlen.symm)
    obtain ⟨e, he, hval⟩ := tensorIndex_value t.shape subset t.strides idx ss t.offset off hv hl.strides hlen
      (by rw [hl.strides.length, ← h1, hl.shape.length]) hl.offset
    refine ⟨⟨kind, .ptr {} (.scalar ea t.elem), [e]⟩, ?_, ?_, rfl, fun _ a ea x => by simp⟩
    · simp [tensorToPointer, hsc, hne', he, Res.bind]
    · have := Acc.ptr (S := S) (st := st) (mo := mo) (cont := cont) {} (.scalar ea t.elem) e [] _ k 0 (.scalar ea t.elem) hval hk (.here _)
      simp only [rootOf, hc, if_true, Int.add_zero] at this
      exact this

/-- C82: the pass throws on a valid memlet exactly when it has indices, but fewer than the tensor has dimensions. -/
theorem tensor_to_pointer_throws (cont : Ty) (kind : MKind) (a ea : Attr) (t : Tensor) (s : List Expr)
    (hv : validTensor cont ⟨kind, .tensor a ea t, s⟩ = true) :
    (∃ m', tensorToPointer cont ⟨kind, .tensor a ea t, s⟩ = .ok m') ↔ s = [] ∨ s.length = t.shape.length ∨ t.shape = [] := by
  simp only [validTensor] at hv
  by_cases hsh : t.shape = []
  · rw [if_pos hsh] at hv
    simp [tensorToPointer, hv, hsh]
  · rw [if_neg hsh] at hv
    simp only [Bool.and_eq_true, decide_eq_true_eq] at hv
    have hsc : cont.isScalar = false := by cases cont <;> simp_all [Ty.isPtr, Ty.isScalar]
    by_cases hs : s = []
    · simp [tensorToPointer, hsc, hs]
    · have := tensorIndex_total t.shape s t.strides t.offset
      simp only [tensorToPointer, hsc, hs, hsh, false_or, or_false, if_false, Bool.false_eq_true]
      have e : (∃ m', (tensorIndex t.shape s t.strides t.offset).bind (fun e =>
          Res.ok ({ kind := kind, base := .ptr {} (.scalar ea t.elem), subset := [e] } : Mlt)) = .ok m') ↔
          ∃ e, tensorIndex t.shape s t.strides t.offset = .ok e := by
        cases tensorIndex t.shape s t.strides t.offset <;> simp [Res.bind]
      rw [e, this]
      omega

/-- C82 fails for partial subsets: a reference to row `i` of a matrix passes validation and type inference, but the
pass throws. -/
theorem tensor_to_pointer_violated : ∃ (cont : Ty) (m : Mlt), validTensor cont m = true ∧
    (∃ u, infer (fun _ => none) m.base m.subset = .ok u) ∧ tensorToPointer cont m = .null :=
  ⟨.opaquePtr {}, ⟨.ref, .tensor {} {} (Tensor.ofShape .double [.sym "N", .sym "M"]), [.sym "i"]⟩, by decide,
    ⟨_, by simp [infer, inferInternal, Tensor.ofShape, stridesFromShape]; rfl⟩, by
      simp [tensorToPointer, Ty.isScalar, Tensor.ofShape, stridesFromShape, tensorIndex, Res.bind]⟩

/-- a transposed, shifted view: element (2, 3) with strides (1, 10) and offset 4 -/
example : tensorToPointer (.opaquePtr {}) ⟨.comp, .tensor {} {} ⟨.float, [.int 10, .int 10], [.int 1, .int 10], .int 4⟩, [.int 2, .int 3]⟩
      = .ok ⟨.comp, .ptr {} (.scalar {} .float), [.add [.add [.int 4, .mul [.int 2, .int 1]], .mul [.int 3, .int 10]]]⟩ ∧
    Acc (fun _ => none) ⟨fun _ => 0, fun _ _ => 0⟩ (fun _ => 0) (fun _ _ => 0) (.opaquePtr {})
      (.tensor {} {} ⟨.float, [.int 10, .int 10], [.int 1, .int 10], .int 4⟩) [.int 2, .int 3] .pointee (36 * 4) (.scalar {} .float) := by
  refine ⟨by simp [tensorToPointer, Ty.isScalar, tensorIndex, Res.bind], ?_⟩
  exact .tensor _ _ _ _ [10, 10] [1, 10] [2, 3] 4 4 rfl (by simp) ⟨by simp [Vals, Expr.eval], by simp [Vals, Expr.eval],
    by simp [Expr.eval]⟩ (by simp [Vals, Expr.eval]) rfl rfl (.scalar _ _ 4 (by decide) (by decide) (by decide))

/-! ### TrivialArrayElimination -/

/-- the subset has an index inside the extent for every array level of the type -/
def InBoundsOf (ρ : Val) : Ty → List Expr → Prop
  | .array _ e n, i :: r => (∃ k m, i.eval ρ = .fin k ∧ n.eval ρ = .fin m ∧ 0 ≤ k ∧ k < m) ∧ InBoundsOf ρ e r
  | .array _ _ _, [] => False
  | _, _ => True

/-- number of array levels -/
def levels : Ty → Nat
  | .array _ e _ => levels e + 1
  | _ => 0

/-- the array nest without level `d` -/
def dropLevel : Ty → Nat → Ty
  | .array _ e _, 0 => e
  | .array a e n, d + 1 => .array a (dropLevel e d) n
  | t, _ => t

theorem trivialDim_spec (t : Ty) (d : Nat) (inner : Ty) (h : trivialDim t = some (d, inner)) :
    recombineArray t d inner = .ok (dropLevel t d) ∧ d < levels t ∧ levels (dropLevel t d) + 1 = levels t := by
  induction t using Ty.induct generalizing d inner with
  | ha a e n ih =>
    simp only [trivialDim] at h
    split at h
    · simp only [Option.some.injEq, Prod.mk.injEq] at h
      obtain ⟨rfl, rfl⟩ := h
      simp [recombineArray, dropLevel, clone_same, levels]
    · cases hx : trivialDim e with
      | none => simp [hx] at h
      | some r =>
        obtain ⟨d', i'⟩ := r
        simp only [hx, Option.map_some, Option.some.injEq, Prod.mk.injEq] at h
        obtain ⟨rfl, rfl⟩ := h
        obtain ⟨h1, h2, h3⟩ := ih d' i' hx
        simp only [recombineArray, h1, Res.bind, clone_same, dropLevel, levels, true_and]
        omega
  | _ => simp [trivialDim] at h

theorem size_drop {ρ : Val} {st : String → Int} (t : Ty) (d : Nat) (inner : Ty) (h : trivialDim t = some (d, inner)) (s : Int) :
    Size ρ st t s ↔ Size ρ st (dropLevel t d) s := by
  induction t using Ty.induct generalizing d inner s with
  | ha a e n ih =>
    simp only [trivialDim] at h
    split at h
    · rename_i hn
      simp only [Option.some.injEq, Prod.mk.injEq] at h
      obtain ⟨rfl, rfl⟩ := h
      subst hn
      simp only [dropLevel]
      constructor
      · intro hs
        cases hs with
        | array _ _ _ s' k hs' hk =>
          simp only [Expr.eval, V.fin.injEq] at hk
          subst hk; simpa using hs'
      · intro hs
        have := Size.array a e (.int 1) s 1 hs (by simp [Expr.eval])
        simpa using this
    · cases hx : trivialDim e with
      | none => simp [hx] at h
      | some r =>
        obtain ⟨d', i'⟩ := r
        simp only [hx, Option.map_some, Option.some.injEq, Prod.mk.injEq] at h
        obtain ⟨rfl, rfl⟩ := h
        simp only [dropLevel]
        constructor
        · intro hs
          cases hs with
          | array _ _ _ s' k hs' hk => exact .array _ _ _ _ _ ((ih d' i' hx s').1 hs') hk
        · intro hs
          cases hs with
          | array _ _ _ s' k hs' hk => exact .array _ _ _ _ _ ((ih d' i' hx s').2 hs') hk
  | _ => simp [trivialDim] at h

theorem inBounds_drop {ρ : Val} (t : Ty) (d : Nat) (inner : Ty)
    (h : trivialDim t = some (d, inner)) (s : List Expr) (hb : InBoundsOf ρ t s) :
    InBoundsOf ρ (dropLevel t d) (s.eraseIdx d) := by
  induction t using Ty.induct generalizing d inner s with
  | ha a e n ih =>
    cases s with
    | nil => exact absurd hb id
    | cons i r =>
      obtain ⟨hi, hb'⟩ := hb
      simp only [trivialDim] at h
      split at h
      · simp only [Option.some.injEq, Prod.mk.injEq] at h
        obtain ⟨rfl, rfl⟩ := h
        simpa only [dropLevel, List.eraseIdx_cons_zero] using hb'
      · cases hx : trivialDim e with
        | none => simp [hx] at h
        | some r' =>
          obtain ⟨d', i'⟩ := r'
          simp only [hx, Option.map_some, Option.some.injEq, Prod.mk.injEq] at h
          obtain ⟨rfl, rfl⟩ := h
          simp only [dropLevel, List.eraseIdx_cons_succ]
          exact ⟨hi, ih d' i' hx r hb'⟩
  | _ => simp [trivialDim] at h

theorem dropLevel_core (t : Ty) (d : Nat) : (arrayDims (dropLevel t d)).2 = (arrayDims t).2 := by
  induction t using Ty.induct generalizing d with
  | ha a e n ih =>
    cases d with
    | zero => simp [dropLevel, arrayDims]
    | succ d => simp [dropLevel, arrayDims, ih]
  | _ => cases d <;> simp [dropLevel, arrayDims]

theorem place_drop {S : Structs} {ρ : Val} {st : String → Int} {mo : String → Nat → Int} (t : Ty) (d : Nat) (inner : Ty)
    (h : trivialDim t = some (d, inner)) (s : List Expr) (hb : InBoundsOf ρ t s) (o : Int) (u : Ty)
    (hp : Place S ρ st mo t s o u) : Place S ρ st mo (dropLevel t d) (s.eraseIdx d) o u := by
  induction t using Ty.induct generalizing d inner s o with
  | ha a e n ih =>
    cases s with
    | nil => exact absurd hb id
    | cons i r =>
      obtain ⟨⟨k, m, hi, hm, h0, h1⟩, hb'⟩ := hb
      cases hp with
      | array _ _ _ _ _ k' z o' _ hk' hz hp' =>
        obtain rfl : k = k' := by rw [hi] at hk'; injection hk'
        simp only [trivialDim] at h
        split at h
        · rename_i hn
          simp only [Option.some.injEq, Prod.mk.injEq] at h
          obtain ⟨rfl, rfl⟩ := h
          subst hn
          simp only [Expr.eval, V.fin.injEq] at hm
          obtain rfl : k = 0 := by omega
          simp only [dropLevel, List.eraseIdx_cons_zero, Int.zero_mul, Int.zero_add]
          exact hp'
        · cases hx : trivialDim e with
          | none => simp [hx] at h
          | some r' =>
            obtain ⟨d', i'⟩ := r'
            simp only [hx, Option.map_some, Option.some.injEq, Prod.mk.injEq] at h
            obtain ⟨rfl, rfl⟩ := h
            have g1 := ih d' i' hx r hb' o' hp'
            simp only [dropLevel, List.eraseIdx_cons_succ]
            exact .array _ _ _ _ _ k z o' u hk' ((size_drop e d' i' hx z).1 hz) g1
  | _ => simp [trivialDim] at h

/-- containers are not declared with tensor types (tensors only describe memlets) -/
def MProg.NoTensors (P : MProg) : Prop := ∀ x a ea t, (arrayDims (P.types x)).2 ≠ .tensor a ea t

/-- every memlet at an array container has the container's type as base type and an index for every array level -/
def MProg.Direct (P : MProg) : Prop :=
  ∀ x d m, (x, d, m) ∈ P.mems → levels (P.types x) ≠ 0 → m.base = P.types x ∧ levels (P.types x) ≤ m.subset.length

theorem dropDims_ok (x : String) (d : Nat) (new : Ty) (l : List (String × Bool × Mlt))
    (h : ∀ y b m, (y, b, m) ∈ l → y = x → d < m.subset.length) :
    dropDims x d new l = .ok (l.map fun p => if p.1 = x then
      (p.1, p.2.1, { p.2.2 with subset := p.2.2.subset.eraseIdx d, base := new }) else p) := by
  induction l with
  | nil => rfl
  | cons p r ih =>
    obtain ⟨y, b, m⟩ := p
    have ih' := ih (fun y b m hm => h y b m (List.mem_cons_of_mem _ hm))
    simp only [dropDims, ih', List.map_cons]
    by_cases hy : y = x
    · have := h y b m (by simp) hy
      simp [hy, dropDim, this, Res.bind, clone_same]
    · simp [hy, Res.bind]

theorem levels_of_trivial {t : Ty} {d : Nat} {i : Ty} (h : trivialDim t = some (d, i)) : levels t ≠ 0 := by
  have := trivialDim_spec t d i h; omega

/-- the memlets and containers of two programs access the same memory wherever subsets are inside the array bounds -/
def MProg.SameMemory (S : Structs) (st : String → Int) (mo : String → Nat → Int) (P Q : MProg) : Prop :=
  (∀ x ρ s, Size ρ st (P.types x) s ↔ Size ρ st (Q.types x) s) ∧ P.mems.length = Q.mems.length ∧
  ∀ (k : Nat) x b (m : Mlt), P.mems[k]? = some (x, b, m) → ∃ m', Q.mems[k]? = some (x, b, m') ∧ m'.kind = m.kind ∧
    ∀ ρ, InBoundsOf ρ (P.types x) m.subset → InBoundsOf ρ (Q.types x) m'.subset ∧
      ∀ root o u, Acc S ρ st mo (P.types x) m.base m.subset root o u → Acc S ρ st mo (Q.types x) m'.base m'.subset root o u

theorem MProg.SameMemory.refl (S : Structs) (st : String → Int) (mo : String → Nat → Int) (P : MProg) : P.SameMemory S st mo P :=
  ⟨fun _ _ _ => Iff.rfl, rfl, fun _ _ _ m h => ⟨m, h, rfl, fun _ hb => ⟨hb, fun _ _ _ h => h⟩⟩⟩

theorem MProg.SameMemory.trans {S : Structs} {st : String → Int} {mo : String → Nat → Int} {P Q R : MProg}
    (h1 : P.SameMemory S st mo Q) (h2 : Q.SameMemory S st mo R) : P.SameMemory S st mo R := by
  refine ⟨fun x ρ s => (h1.1 x ρ s).trans (h2.1 x ρ s), h1.2.1.trans h2.2.1, ?_⟩
  intro k x b m hm
  obtain ⟨m1, g1, g2, g3⟩ := h1.2.2 k x b m hm
  obtain ⟨m2, e1, e2, e3⟩ := h2.2.2 k x b m1 g1
  refine ⟨m2, e1, e2.trans g2, fun ρ hb => ?_⟩
  obtain ⟨b1, a1⟩ := g3 ρ hb
  obtain ⟨b2, a2⟩ := e3 ρ b1
  exact ⟨b2, fun root o u h => a2 root o u (a1 root o u h)⟩

theorem elimTrivial_ok (S : Structs) (st : String → Int) (mo : String → Nat → Int) (P : MProg) (x : String) (hd : P.Direct)
    (hd' : P.NoTensors) : ∃ Q, elimTrivial P x = .ok Q ∧ Q.Direct ∧ Q.NoTensors ∧ P.SameMemory S st mo Q := by
  have same := MProg.SameMemory.refl S st mo P
  unfold elimTrivial
  split
  · exact ⟨P, rfl, hd, hd', same⟩
  split
  · exact ⟨P, rfl, hd, hd', same⟩
  cases ht : trivialDim (P.types x) with
  | none => exact ⟨P, rfl, hd, hd', same⟩
  | some r =>
    obtain ⟨d, inner⟩ := r
    obtain ⟨h1, h2, h3⟩ := trivialDim_spec _ _ _ ht
    have hl := levels_of_trivial ht
    have hok := dropDims_ok x d (dropLevel (P.types x) d) P.mems (by
      intro y b m hm hy
      subst hy
      have := (hd y b m hm hl).2
      omega)
    simp only [h1, Res.bind, hok, clone_same]
    refine ⟨_, rfl, ?_, ?_, ?_⟩
    · intro y b m hm hly
      simp only [List.mem_map, Prod.exists] at hm
      obtain ⟨y', b', m', hm', he⟩ := hm
      dsimp only at he hly ⊢
      split at he
      · rename_i hy
        simp only [Prod.mk.injEq] at he
        obtain ⟨rfl, rfl, rfl⟩ := he
        subst hy
        obtain ⟨_, g2⟩ := hd _ _ _ hm' hl
        simp only [if_true, List.length_eraseIdx, true_and]
        split <;> omega
      · rename_i hy
        simp only [Prod.mk.injEq] at he
        obtain ⟨rfl, rfl, rfl⟩ := he
        simp only [hy, if_false] at hly ⊢
        exact hd _ _ _ hm' hly
    · intro y
      dsimp only
      split
      · rw [dropLevel_core]; exact hd' x
      · exact hd' y
    · refine ⟨?_, by simp, ?_⟩
      · intro y ρ s
        dsimp only
        split
        · rename_i hy; subst hy; exact size_drop _ _ _ ht s
        · exact Iff.rfl
      · intro k y b m hm
        simp only [List.getElem?_map, hm, Option.map_some]
        by_cases hy : y = x
        · subst hy
          simp only [if_true]
          refine ⟨_, rfl, rfl, fun ρ hb => ?_⟩
          obtain ⟨g1, _⟩ := hd y b m (List.mem_of_getElem? hm) hl
          have harr : ∃ a e n, P.types y = .array a e n := by
            cases hty : P.types y <;> first | exact ⟨_, _, _, rfl⟩ | (rw [hty] at hl; simp [levels] at hl)
          obtain ⟨a, e, n, hty⟩ := harr
          refine ⟨inBounds_drop _ _ _ ht _ hb, fun root o u hacc => ?_⟩
          rw [g1] at hacc
          have hpl : root = .own ∧ Place S ρ st mo (P.types y) m.subset o u := by
            rw [hty] at hacc ⊢
            generalize m.subset = sub at hacc ⊢
            cases hacc with
            | obj _ _ _ _ _ _ hp => exact ⟨rfl, hp⟩
            | value _ h => simp [Ty.isPtr] at h
          obtain ⟨rfl, hp⟩ := hpl
          have hq := place_drop _ _ _ ht _ hb o u hp
          have hnt := dropLevel_core (P.types y) d ▸ (hd' y)
          cases hp' : (dropLevel (P.types y) d).isPtr with
          | false =>
            refine .obj _ _ _ _ hp' ?_ hq
            intro a ea z hz
            rw [show dropLevel (P.types y) d = _ from hz] at hnt
            exact hnt a ea z rfl
          | true =>
            cases hx : dropLevel (P.types y) d with
            | ptr pa pt =>
              rw [hx] at hq
              cases hs : m.subset.eraseIdx d with
              | nil => rw [hs] at hq; cases hq; exact .value _ rfl
              | cons i r => rw [hs] at hq; cases hq
            | opaquePtr pa =>
              rw [hx] at hq
              cases hs : m.subset.eraseIdx d with
              | nil => rw [hs] at hq; cases hq; exact .value _ rfl
              | cons i r => rw [hs] at hq; cases hq
            | _ => rw [hx] at hp'; simp [Ty.isPtr] at hp'
        · simp only [hy, if_false]
          exact ⟨m, rfl, rfl, fun ρ hb => ⟨hb, fun _ _ _ h => h⟩⟩

/-- C82: TrivialArrayElimination, run over any containers of a program whose memlets index array containers directly,
finishes without undefined behaviour; every container keeps its size in bytes, and every memlet whose indices are inside
the array bounds accesses the same storage, byte offset and type as before.  Missing: memlets that see an array container
with another base type, or that pass (part of) an array without indexing it (`trivial_arrays_violated`). -/
theorem trivial_arrays_partial (S : Structs) (st : String → Int) (mo : String → Nat → Int) (names : List String) (P : MProg)
    (hd : P.Direct) (ht : P.NoTensors) : ∃ Q, elimTrivials names P = .ok Q ∧ P.SameMemory S st mo Q := by
  induction names generalizing P with
  | nil => exact ⟨P, rfl, MProg.SameMemory.refl S st mo P⟩
  | cons x r ih =>
    obtain ⟨Q, h1, h2, h3, h4⟩ := elimTrivial_ok S st mo P x hd ht
    obtain ⟨R, g1, g2⟩ := ih Q h2 h3
    exact ⟨R, by simp [elimTrivials, h1, Res.bind, g1], MProg.SameMemory.trans h4 g2⟩

/-- a transient `double A[1][10]` -/
def exTriv (m : Mlt) : MProg :=
  { types := fun _ => .array {} (.array {} (.scalar {} .double) (.int 10)) (.int 1), transient := fun _ => true
    mems := [("A", true, m)] }

example : (exTriv ⟨.comp, .array {} (.array {} (.scalar {} .double) (.int 10)) (.int 1), [.int 0, .sym "j"]⟩).Direct ∧
    (exTriv ⟨.comp, .array {} (.array {} (.scalar {} .double) (.int 10)) (.int 1), [.int 0, .sym "j"]⟩).NoTensors := by
  constructor
  · intro x d m hm _
    simp only [exTriv, List.mem_singleton, Prod.mk.injEq] at hm
    obtain ⟨rfl, rfl, rfl⟩ := hm
    simp [exTriv, levels]
  · intro x a ea t; simp [exTriv, arrayDims]

/-- C82 fails for array containers that are not indexed directly: a library node reading all of `A` (empty subset) makes
the pass erase from an empty vector (undefined behaviour), and element 5 of `A` read through a `double *` base type
becomes an access to the whole array. -/
theorem trivial_arrays_violated :
    elimTrivials ["A"] (exTriv ⟨.comp, .array {} (.array {} (.scalar {} .double) (.int 10)) (.int 1), []⟩) = .ub ∧
    ∃ Q, elimTrivials ["A"] (exTriv ⟨.comp, .ptr {} (.scalar {} .double), [.int 5]⟩) = .ok Q ∧
      ∀ (S : Structs) (st : String → Int) (mo : String → Nat → Int) (ρ : Val),
        Acc S ρ st mo ((exTriv ⟨.comp, .ptr {} (.scalar {} .double), [.int 5]⟩).types "A") (.ptr {} (.scalar {} .double)) [.int 5] .own 40
          (.scalar {} .double) ∧
        ∀ m', Q.mems[0]? = some ("A", true, m') →
          ¬ Acc S ρ st mo (Q.types "A") m'.base m'.subset .own 40 (.scalar {} .double) := by
  refine ⟨by simp [elimTrivials, elimTrivial, exTriv, MProg.movedOrViewed, trivialDim, recombineArray, dropDims, dropDim,
    Res.bind, Ty.clone], ?_⟩
  refine ⟨_, by simp [elimTrivials, elimTrivial, exTriv, MProg.movedOrViewed, trivialDim, recombineArray, dropDims, dropDim,
    Res.bind, Ty.clone]; rfl, ?_⟩
  intro S st mo ρ
  constructor
  · have := Acc.ptr (S := S) (ρ := ρ) (st := st) (mo := mo)
      (cont := .array {} (.array {} (.scalar {} .double) (.int 10)) (.int 1)) {} (.scalar {} .double) (.int 5) [] 5 8 0
      (.scalar {} .double) (by simp [Expr.eval]) (.scalar _ _ 8 (by decide) (by decide) (by decide)) (.here _)
    exact this
  · intro m' hm'
    simp only [List.getElem?_cons_zero, Option.some.injEq, Prod.mk.injEq, true_and] at hm'
    subst hm'
    intro h
    cases h with
    | obj _ _ _ _ _ _ hp => cases hp

end Docc.Types
