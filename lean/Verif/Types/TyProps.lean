import Verif.Types.Ty
import Verif.Types.TensorProps
import Verif.Types.PrimitiveProps

/-
C29 (`infer_type` is compositional), C43 (type equality and clone), C44 (type sizes), C45 (peeling pointers).
-/
namespace Docc.Types
open Docc.Sym

/-! ### clone and equality (C43) -/

theorem Ty.cloneL_eq (l : List Ty) (h : ∀ t ∈ l, t.clone = t) : Ty.cloneL l = l := by
  induction l with
  | nil => rfl
  | cons a r ih =>
    simp only [Ty.cloneL]
    rw [h a (by simp), ih (fun t ht => h t (List.mem_cons_of_mem _ ht))]

/-- C43: `clone()` yields the same type, with the same storage, alignment and initializer at every level. -/
theorem clone_same (t : Ty) : t.clone = t := by
  induction t using Ty.induct with
  | hs a p => rfl
  | ha a e n ih => simp [Ty.clone, ih]
  | hst a n => rfl
  | ho a => rfl
  | hp a t ih => simp [Ty.clone, ih]
  | hf a r ps v ih1 ih2 => simp [Ty.clone, ih1, Ty.cloneL_eq _ ih2]
  | hr a t ih => simp [Ty.clone, ih]
  | ht a ea t => rfl

example : (Ty.array { alignment := 8 } (.ptr {} (.scalar {} .double)) (.sym "N")).clone
    = .array { alignment := 8 } (.ptr {} (.scalar {} .double)) (.sym "N") := clone_same _


mutual
/-- Specification: the type without storage, alignment (except of references) and initializers. -/
def Ty.erase : Ty → Ty
  | .scalar _ p => .scalar {} p
  | .array _ e n => .array {} e.erase n
  | .structure _ n => .structure {} n
  | .opaquePtr _ => .opaquePtr {}
  | .ptr _ t => .ptr {} t.erase
  | .function _ r ps v => .function {} r.erase (Ty.eraseL ps) v
  | .reference a t => .reference { alignment := a.alignment } t.erase
  | .tensor _ _ t => .tensor {} {} t
/-- the parameters without attributes -/
def Ty.eraseL : List Ty → List Ty
  | [] => []
  | t :: r => t.erase :: Ty.eraseL r
end

theorem Ty.eqL_iff (l m : List Ty) (h : ∀ t ∈ l, ∀ u, Ty.eq t u = true ↔ t.erase = u.erase) :
    Ty.eqL l m = true ↔ Ty.eraseL l = Ty.eraseL m := by
  induction l generalizing m with
  | nil => cases m <;> simp [Ty.eqL, Ty.eraseL]
  | cons a r ih =>
    cases m with
    | nil => simp [Ty.eqL, Ty.eraseL]
    | cons b s =>
      simp only [Ty.eqL, Ty.eraseL, Bool.and_eq_true, List.cons.injEq]
      rw [h a (by simp), ih s (fun t ht => h t (List.mem_cons_of_mem _ ht))]

/-- C43: `t == u` holds exactly when both types are the same up to storage, alignment and initializers. -/
theorem type_eq_iff (t u : Ty) : Ty.eq t u = true ↔ t.erase = u.erase := by
  induction t using Ty.induct generalizing u with
  | hs a p => cases u <;> simp [Ty.eq, Ty.erase]
  | ha a e n ih => cases u <;> simp [Ty.eq, Ty.erase, ih, and_comm]
  | hst a n => cases u <;> simp [Ty.eq, Ty.erase]
  | ho a => cases u <;> simp [Ty.eq, Ty.erase]
  | hp a t ih => cases u <;> simp [Ty.eq, Ty.erase, ih]
  | hf a r ps v ih1 ih2 =>
    cases u <;> simp [Ty.eq, Ty.erase, ih1, Ty.eqL_iff _ _ ih2]
    constructor
    · rintro ⟨h1, h2, h3⟩; exact ⟨h2, h3, h1⟩
    · rintro ⟨h1, h2, h3⟩; exact ⟨h3, h1, h2⟩
  | hr a t ih => cases u <;> simp [Ty.eq, Ty.erase, ih, and_comm]
  | ht a ea t =>
    cases u <;> simp [Ty.eq, Ty.erase]
    rename_i u
    obtain ⟨e1, s1, t1, o1⟩ := t
    obtain ⟨e2, s2, t2, o2⟩ := u
    simp only [Tensor.mk.injEq]
    constructor
    · rintro ⟨⟨⟨h1, h2⟩, h3⟩, h4⟩; exact ⟨h1, h3, h4, h2⟩
    · rintro ⟨h1, h3, h4, h2⟩; exact ⟨⟨⟨h1, h2⟩, h3⟩, h4⟩

/-- C43: type equality is an equivalence relation. -/
theorem type_eq_equivalence : Equivalence (fun t u : Ty => Ty.eq t u = true) where
  refl t := (type_eq_iff t t).2 rfl
  symm h := (type_eq_iff _ _).2 ((type_eq_iff _ _).1 h).symm
  trans h1 h2 := (type_eq_iff _ _).2 (((type_eq_iff _ _).1 h1).trans ((type_eq_iff _ _).1 h2))

/-- C43: a clone compares equal to its original. -/
theorem clone_eq (t : Ty) : Ty.eq t.clone t = true := by
  rw [clone_same]; exact (type_eq_iff t t).2 rfl

/-! ### infer_type (C29) -/

/-- Indexing below the outermost level is compositional: `s1 ++ s2` is `s1` first, then `s2` on the result. -/
theorem inferInternal_append (S : Structs) (s1 : List Expr) : ∀ (t : Ty) (s2 : List Expr),
    inferInternal S t (s1 ++ s2) = (inferInternal S t s1).bind fun u => inferInternal S u s2 := by
  induction s1 with
  | nil => intro t s2; simp [inferInternal, Res.bind, clone_same]
  | cons i r ih =>
    intro t s2
    cases t with
    | scalar a p => simp [inferInternal, Res.bind]
    | array a e n => simp only [List.cons_append, inferInternal, ih]
    | «structure» a n =>
      simp only [List.cons_append, inferInternal]
      cases hS : S n with
      | none => simp [Res.bind]
      | some d =>
        simp only
        by_cases hv : d.isVector = true
        · simp only [hv, if_true]
          cases hm : d.members with
          | nil => simp [Res.bind]
          | cons m ms => simp only [ih]
        · simp only [hv, Bool.false_eq_true, if_false]
          cases i with
          | int k =>
            cases k with
            | ofNat k =>
              simp only
              cases hk : d.members[k]? with
              | none => simp [Res.bind]
              | some m => simp only [ih]
            | negSucc k => simp [Res.bind]
          | _ => simp [Res.bind]
    | opaquePtr a => simp [inferInternal, Res.bind]
    | ptr a t => simp [inferInternal, Res.bind]
    | function a r ps v => simp [inferInternal, Res.bind]
    | reference a t => simp [inferInternal, Res.bind]
    | tensor a ea t =>
      simp only [List.cons_append, inferInternal]
      by_cases h1 : t.shape.length = 1
      · simp only [h1, if_true, ih]
      · simp only [h1, if_false]
        by_cases h2 : t.shape = [] ∨ t.strides = []
        · simp [h2, Res.bind]
        · simp only [h2, if_false, ih]

/-- On a type that is not a pointer `infer_type` is plain indexing. -/
theorem infer_eq_internal (S : Structs) (t : Ty) (s : List Expr) (h : t.isPtr = false) :
    infer S t s = inferInternal S t s := by
  cases s with
  | nil => simp [infer, inferInternal]
  | cons i r => cases t <;> simp_all [infer, Ty.isPtr]

/-- C29: for every type, structure table and subsets `s1`, `s2` with `s1` not empty, inferring through `s1 ++ s2`
gives the same result (type, exception or undefined behaviour) as inferring `s1` and then indexing the result by
`s2`; a pointer met after the first index is never followed. -/
theorem infer_append (S : Structs) (t : Ty) (s1 s2 : List Expr) (h : s1 ≠ []) :
    infer S t (s1 ++ s2) = (infer S t s1).bind fun u => inferInternal S u s2 := by
  cases s1 with
  | nil => exact absurd rfl h
  | cons i r =>
    cases t with
    | opaquePtr a => simp [infer, Res.bind]
    | ptr a p => simp [infer, inferInternal_append]
    | _ =>
      rw [infer_eq_internal S _ _ rfl, infer_eq_internal S _ _ rfl]
      exact inferInternal_append S (i :: r) _ s2

/-- C29: as a law of the public function alone: whenever the intermediate type is no pointer. -/
theorem infer_compositional (S : Structs) (t u : Ty) (s1 s2 : List Expr) (h1 : infer S t s1 = .ok u)
    (hu : u.isPtr = false) : infer S t (s1 ++ s2) = infer S u s2 := by
  cases s1 with
  | nil =>
    simp only [infer, Res.ok.injEq, clone_same] at h1
    subst h1; rfl
  | cons i r =>
    rw [infer_append S t _ s2 (by simp), h1, Res.bind, infer_eq_internal S u s2 hu]

/-- C29: inference through a longer subset fails whenever it fails for a prefix. -/
theorem infer_prefix_fails (S : Structs) (t : Ty) (s1 s2 : List Expr) (h : infer S t s1 = .null) :
    infer S t (s1 ++ s2) = .null := by
  have hne : s1 ≠ [] := by rintro rfl; simp [infer] at h
  rw [infer_append S t s1 s2 hne, h, Res.bind]

/-- C29: a pointer reached after the first index is not dereferenced: `infer_type` throws, whereas indexing the
intermediate type itself would follow it. -/
theorem infer_inner_pointer (S : Structs) (t : Ty) (a : Attr) (p : Ty) (s1 : List Expr) (i : Expr) (s2 : List Expr)
    (h1 : s1 ≠ []) (h : infer S t s1 = .ok (.ptr a p)) :
    infer S t (s1 ++ i :: s2) = .null := by
  rw [infer_append S t s1 _ h1, h, Res.bind, inferInternal]

/-- the structure table used in the examples: `struct S { int32 a; double b[N]; }` -/
def exStructs : Structs := fun n => if n = "S" then
  some { packed := false, members := [.scalar {} .int32, .array {} (.scalar {} .double) (.sym "N")] } else none

example : infer exStructs (.ptr {} (.array {} (.structure {} "S") (.int 4))) [.sym "i", .sym "j"] = .ok (.structure {} "S") := by
  simp [infer, inferInternal, Ty.clone]
example : infer exStructs (.ptr {} (.array {} (.structure {} "S") (.int 4))) ([.sym "i", .sym "j"] ++ [.int 1, .sym "k"])
    = infer exStructs (.structure {} "S") [.int 1, .sym "k"] :=
  infer_compositional _ _ _ _ _ (by simp [infer, inferInternal, Ty.clone]) rfl

/-! ### recombine_array_type (C29) -/

/-- `n` array levels around a type, outermost first: the specification of an array nest -/
def nest : List (Attr × Expr) → Ty → Ty
  | [], t => t
  | (a, n) :: r, t => .array a (nest r t) n

/-- C29: `recombine_array_type(type, d, inner)` succeeds exactly on types with `d` array levels, keeps those levels
(extents and attributes) and puts `inner` inside. -/
theorem recombine_iff (t inner u : Ty) (d : Nat) :
    recombineArray t d inner = .ok u ↔ ∃ ls e, ls.length = d ∧ t = nest ls e ∧ u = nest ls inner := by
  induction d generalizing t u with
  | zero =>
    simp only [recombineArray, Res.ok.injEq, clone_same]
    constructor
    · rintro rfl; exact ⟨[], t, rfl, rfl, rfl⟩
    · rintro ⟨ls, e, hl, _, rfl⟩
      obtain rfl := List.eq_nil_of_length_eq_zero hl
      rfl
  | succ d ih =>
    have hno : ∀ t : Ty, (∀ a e n, t ≠ .array a e n) →
        ((Res.null : Res Ty) = .ok u ↔ ∃ ls e, ls.length = d + 1 ∧ t = nest ls e ∧ u = nest ls inner) := by
      intro t h
      constructor
      · simp
      · rintro ⟨ls, e, hl, ht, _⟩
        cases ls with
        | nil => simp at hl
        | cons x r => exact absurd ht (h x.1 _ x.2)
    cases t with
    | array a e n =>
      simp only [recombineArray]
      cases h : recombineArray e d inner with
      | ok e' =>
        obtain ⟨ls, x, hl, he, he'⟩ := (ih e e').1 h
        simp only [Res.bind, Res.ok.injEq, clone_same]
        constructor
        · rintro rfl
          exact ⟨(a, n) :: ls, x, by simp [hl], by simp [nest, ← he], by simp [nest, ← he']⟩
        · rintro ⟨ls', x', hl', ht, hu⟩
          cases ls' with
          | nil => simp at hl'
          | cons y r =>
            obtain ⟨a', n'⟩ := y
            simp only [nest, Ty.array.injEq] at ht hu
            obtain ⟨rfl, hte, rfl⟩ := ht
            rw [hu]
            have : recombineArray e d inner = .ok (nest r inner) :=
              (ih e _).2 ⟨r, x', by simpa using hl', hte, rfl⟩
            rw [h] at this
            simp only [Res.ok.injEq] at this
            rw [this]
      | null =>
        simp only [Res.bind]
        constructor
        · simp
        · rintro ⟨ls', x', hl', ht, hu⟩
          cases ls' with
          | nil => simp at hl'
          | cons y r =>
            simp only [nest, Ty.array.injEq] at ht hu
            have : recombineArray e d inner = .ok (nest r inner) :=
              (ih e _).2 ⟨r, x', by simpa using hl', ht.2.1, rfl⟩
            rw [h] at this; simp at this
      | ub =>
        simp only [Res.bind]
        constructor
        · simp
        · rintro ⟨ls', x', hl', ht, hu⟩
          cases ls' with
          | nil => simp at hl'
          | cons y r =>
            simp only [nest, Ty.array.injEq] at ht hu
            have : recombineArray e d inner = .ok (nest r inner) :=
              (ih e _).2 ⟨r, x', by simpa using hl', ht.2.1, rfl⟩
            rw [h] at this; simp at this
    | _ => simpa only [recombineArray] using hno _ (by simp)

example : recombineArray (.array { alignment := 8 } (.array {} (.scalar {} .float) (.sym "M")) (.sym "N")) 2 (.scalar {} .double)
    = .ok (nest [({ alignment := 8 }, .sym "N"), ({}, .sym "M")] (.scalar {} .double)) := by
  simp [recombineArray, nest, Ty.clone, Res.bind]

/-! ### sizes (C44) -/

/-- Specification: `Size ρ st t k` says a value of type `t` takes `k` bytes, when pointers take 8 bytes and
structure `n` takes `st n` bytes: arrays and tensors hold as many elements as the product of their extents, a scalar
takes the least number of whole bytes holding its bits. -/
inductive Size (ρ : Val) (st : String → Int) : Ty → Int → Prop
  | scalar (a : Attr) (p : Prim) (k : Nat) (h0 : 0 < p.bitWidth) (h1 : p.bitWidth ≤ 8 * k) (h2 : 8 * k < p.bitWidth + 8) :
    Size ρ st (.scalar a p) k
  | struct (a : Attr) (n : String) : Size ρ st (.structure a n) (st n)
  | array (a : Attr) (e : Ty) (n : Expr) (s k : Int) : Size ρ st e s → n.eval ρ = .fin k →
    Size ρ st (.array a e n) (k * s)
  | tensor (a ea : Attr) (t : Tensor) (s : Int) (ns : List Int) : Size ρ st (.scalar ea t.elem) s → Vals ρ t.shape ns →
    Size ρ st (.tensor a ea t) (prod ns * s)
  | opaquePtr (a : Attr) : Size ρ st (.opaquePtr a) 8
  | ptr (a : Attr) (t : Ty) : Size ρ st (.ptr a t) 8
  | reference (a : Attr) (t : Ty) : Size ρ st (.reference a t) 8
  | function (a : Attr) (r : Ty) (ps : List Ty) (v : Bool) : Size ρ st (.function a r ps v) 8

theorem sizeOf_spec (p : Prim) (k : Nat) (h0 : 0 < p.bitWidth) (h1 : p.bitWidth ≤ 8 * k) (h2 : 8 * k < p.bitWidth + 8) :
    p.sizeOf = k ∧ p.sizeOf ≠ 0 := by
  unfold Prim.sizeOf; omega

theorem eval_sizeof (ρ : Val) (n : String) : (Expr.fn ("sizeof " ++ n) []).eval ρ = .fin (ρ.fn ("sizeof " ++ n) []) := by
  have h : ∀ s : String, s.toList.head? ≠ some 's' → "sizeof " ++ n ≠ s := by
    intro s hs e
    apply hs; rw [← e]; simp
  simp only [Expr.eval, Expr.evalL, finArgs, applyFn]
  rw [if_neg (h _ (by decide)), if_neg (h _ (by decide)), if_neg (h _ (by decide)), if_neg (h _ (by decide)),
    if_neg (h _ (by decide))]

/-- C44: the expression returned by `get_type_size` (with compile-time sizes allowed) evaluates to the byte size of
the type, for all types and all values of the extents. -/
theorem type_size_correct (ρ : Val) (st : String → Int) (hst : ∀ n, ρ.fn ("sizeof " ++ n) [] = st n)
    (t : Ty) (k : Int) (h : Size ρ st t k) : ∃ e, typeSize true t = some e ∧ e.eval ρ = .fin k := by
  induction h with
  | scalar a p k h0 h1 h2 =>
    obtain ⟨e, ne⟩ := sizeOf_spec p k h0 h1 h2
    refine ⟨.int p.sizeOf, by simp [typeSize, ne], by simp [Expr.eval, e]⟩
  | struct a n => exact ⟨.fn ("sizeof " ++ n) [], by simp only [typeSize, if_true], by rw [eval_sizeof, hst]⟩
  | array a e n s k _ hn ih =>
    obtain ⟨x, hx, hv⟩ := ih
    refine ⟨.mul [x, n], by simp [typeSize, hx], ?_⟩
    rw [eval_mul2 hv hn, Int.mul_comm]
  | tensor a ea t s ns hs hv ih =>
    cases hs with
    | scalar _ _ k h0 h1 h2 =>
      obtain ⟨e, ne⟩ := sizeOf_spec t.elem k h0 h1 h2
      refine ⟨.mul [.int t.elem.sizeOf, totalElements t.shape], by simp [typeSize, ne], ?_⟩
      rw [eval_mul2 (x := (k : Int)) (by simp [Expr.eval, e]) (total_elements_value ρ _ ns hv), Int.mul_comm]
  | _ => exact ⟨.int 8, by simp [typeSize], by simp [Expr.eval]⟩

/-- C44: without compile-time sizes a result is only returned for types without structures, and it is the same. -/
theorem type_size_static (t : Ty) (e : Expr) (h : typeSize false t = some e) : typeSize true t = some e := by
  induction t using Ty.induct generalizing e with
  | ha a el n ih =>
    simp only [typeSize] at h ⊢
    cases hx : typeSize false el with
    | none => simp [hx] at h
    | some x => rw [ih x hx]; simpa [hx] using h
  | hst a n => simp [typeSize] at h
  | _ => simpa [typeSize] using h

example : ∃ e, typeSize true (.array {} (.ptr {} (.scalar {} .float)) (.sym "N")) = some e
    ∧ e.eval ⟨fun _ => 5, fun _ _ => 12⟩ = .fin 40 :=
  type_size_correct ⟨fun _ => 5, fun _ _ => 12⟩ (fun _ => 12) (fun _ => rfl) _ _
    (.array _ _ _ 8 5 (.ptr _ _) (by simp [Expr.eval]))

/-! ### peeling (C45) -/

/-- Specification: number of pointers with a known pointee on the way to the innermost element. -/
def ptrDepth : Ty → Nat
  | .array _ e _ => ptrDepth e
  | .reference _ t => ptrDepth t
  | .ptr _ t => ptrDepth t + 1
  | _ => 0

/-- Specification: the innermost element, every array, reference, tensor and typed pointer stripped. -/
def innermost : Ty → Ty
  | .array _ e _ => innermost e
  | .reference _ t => innermost t
  | .ptr _ t => innermost t
  | .tensor _ ea t => .scalar ea t.elem
  | t => t

theorem peel_noptr (t : Ty) (f : Int) (h : ptrDepth t = 0) : peel t f = innermost t := by
  induction t using Ty.induct generalizing f with
  | ha a e n ih => simp only [peel, innermost]; exact ih _ (by simpa [ptrDepth] using h)
  | hr a e ih => simp only [peel, innermost]; exact ih _ (by simpa [ptrDepth] using h)
  | hp a t ih => simp [ptrDepth] at h
  | _ => simp [peel, innermost]

theorem peel_neg (t : Ty) (k : Nat) (h : ptrDepth t + k ≤ 99) : peel t (-(k + 1 : Int)) = innermost t := by
  induction t using Ty.induct generalizing k with
  | ha a e n ih =>
    by_cases hk : (-(k + 1 : Int)) = followOnlyOuter
    · exact peel_noptr _ _ (by unfold followOnlyOuter at hk; omega)
    simp only [peel, hk, if_false, innermost]
    exact ih k h
  | hr a t ih =>
    by_cases hk : (-(k + 1 : Int)) = followOnlyOuter
    · exact peel_noptr _ _ (by unfold followOnlyOuter at hk; omega)
    simp only [peel, hk, if_false, innermost]
    exact ih k h
  | hp a t ih =>
    have hk : (-(k + 1 : Int)) ≠ followOnlyOuter := by unfold followOnlyOuter; simp [ptrDepth] at h; omega
    have h0 : (-(k + 1 : Int)) ≠ 0 := by omega
    simp only [peel, innermost, ne_eq, h0, hk, not_false_eq_true, if_true]
    have := ih (k + 1) (by simp [ptrDepth] at h; omega)
    rw [← this]; congr 1
  | ht a ea t => simp [peel, innermost]
  | _ => simp [peel, innermost]

/-- C45 (partial: at most 99 nested pointers): `peel_to_innermost_element(t, -1)` strips all arrays, references and
pointers. -/
theorem peel_all_partial (t : Ty) (h : ptrDepth t ≤ 99) : peel t (-1) = innermost t := by
  have := peel_neg t 0 (by omega)
  simpa using this

/-- `n` nested pointers around a type -/
def ptrs : Nat → Ty → Ty
  | 0, t => t
  | n + 1, t => .ptr {} (ptrs n t)

theorem peel_ptrs (n : Nat) (f : Int) (hf : ∀ k : Nat, k < n → f - k ≠ 0 ∧ f - k ≠ followOnlyOuter) (t : Ty) :
    peel (ptrs n t) f = peel t (f - n) := by
  induction n generalizing f with
  | zero => simp [ptrs]
  | succ n ih =>
    have h0 := hf 0 (by omega)
    simp only [Int.natCast_zero, Int.sub_zero] at h0
    simp only [ptrs, peel, ne_eq, h0.1, h0.2, not_false_eq_true, if_true]
    rw [ih (f - 1) (fun k hk => by have := hf (k + 1) (by omega); push_cast at this; constructor <;> omega)]
    congr 1; push_cast; omega

/-- C45 is false as documented ("-1: follow infinite pointers"): counting down from -1 reaches the sentinel -100, and
of 101 nested pointers the last is not followed. -/
theorem peel_all_violated : ∃ t : Ty, peel t (-1) ≠ innermost t := by
  refine ⟨ptrs 99 (.ptr {} (.ptr {} (.scalar {} .double))), ?_⟩
  rw [peel_ptrs 99 (-1) (fun k hk => by unfold followOnlyOuter; omega)]
  simp [peel, followOnlyOuter, ptrs, innermost]

/-- C45: with the default argument only a pointer that is the outermost level is followed. -/
theorem peel_default (t : Ty) : peel t followOnlyOuter =
    match t with
    | .ptr _ p => peel p 0
    | t => peel t 0 := by
  cases t <;> simp [peel, followOnlyOuter]

/-- C45: following no pointer never looks through one: all that is stripped are arrays and references. -/
theorem peel_zero (t : Ty) : ptrDepth (peel t 0) = ptrDepth t := by
  induction t using Ty.induct with
  | ha a e n ih => simp [peel, followOnlyOuter, ptrDepth, ih]
  | hr a e ih => simp [peel, followOnlyOuter, ptrDepth, ih]
  | hp a t ih => simp [peel, ptrDepth]
  | _ => simp [peel, ptrDepth]

example : ptrDepth (.ptr {} (.array {} (.ptr {} (.scalar {} .double)) (.sym "N"))) ≤ 99 := by simp [ptrDepth]

/-! ### contiguity (C46) -/

/-- Specification: a value of the type contains a pointer (directly, as array or tensor element or in a member). -/
inductive HoldsPtr (S : Structs) : Ty → Prop
  | opaquePtr (a : Attr) : HoldsPtr S (.opaquePtr a)
  | ptr (a : Attr) (t : Ty) : HoldsPtr S (.ptr a t)
  | reference (a : Attr) (t : Ty) : HoldsPtr S (.reference a t)
  | array (a : Attr) (e : Ty) (n : Expr) : HoldsPtr S e → HoldsPtr S (.array a e n)
  | struct (a : Attr) (n : String) (d : StructDef) (m : Ty) : S n = some d → m ∈ d.members → HoldsPtr S m →
    HoldsPtr S (.structure a n)

/-- structure members are scalars, structures, tensors or pointers, but not arrays or references -/
def PlainMembers (S : Structs) : Prop := ∀ n d, S n = some d → ∀ m ∈ d.members,
  (∀ a e k, m ≠ .array a e k) ∧ (∀ a t, m ≠ .reference a t)

theorem structs_sound {S : Structs} (hp : PlainMembers S) (fuel : Nat) (work visited : List String)
    (hv : ∀ v ∈ visited, ∀ d, S v = some d → (∀ m ∈ d.members, m.isPtr = false) ∧
      ∀ m ∈ d.members, ∀ k, m.structName? = some k → k ∈ work ∨ k ∈ visited)
    (h : structsContiguous S fuel work visited = some true) :
    ∀ n, (n ∈ work ∨ n ∈ visited) → ∀ t, HoldsPtr S t → ∀ a, t ≠ .structure a n := by
  induction fuel generalizing work visited with
  | zero => simp [structsContiguous] at h
  | succ fuel ih =>
    cases work with
    | nil =>
      have key : ∀ t, HoldsPtr S t → ∀ n ∈ visited, ∀ a, t ≠ .structure a n := by
        intro t ht
        induction ht with
        | struct a n d m hS hm hh ih2 =>
          intro k hk a' e
          simp only [Ty.structure.injEq] at e
          obtain ⟨_, rfl⟩ := e
          obtain ⟨h1, h2⟩ := hv n hk d hS
          have hmp := h1 m hm
          obtain ⟨p1, p2⟩ := hp n d hS m hm
          cases hh with
          | opaquePtr => simp [Ty.isPtr] at hmp
          | ptr => simp [Ty.isPtr] at hmp
          | reference a t => exact p2 a t rfl
          | array a e n _ => exact p1 a e n rfl
          | struct b k' d' m' _ _ _ =>
            rcases h2 _ hm k' rfl with h3 | h3
            · simp at h3
            · exact ih2 k' h3 b rfl
        | _ => intro k hk a' e; simp at e
      intro n hn t ht a
      rcases hn with hn | hn
      · simp at hn
      · exact key t ht n hn a
    | cons w work =>
      simp only [structsContiguous] at h
      by_cases hw : w ∈ visited
      · simp [hw] at h
      · simp only [hw, if_false] at h
        cases hS : S w with
        | none => simp [hS] at h
        | some d =>
          simp only [hS] at h
          by_cases hany : d.members.any Ty.isPtr = true
          · simp [hany] at h
          · simp only [hany, Bool.false_eq_true, if_false] at h
            have := ih _ _ ?_ h
            · intro n hn t ht a
              refine this n ?_ t ht a
              rcases hn with hn | hn
              · rcases List.mem_cons.1 hn with rfl | hn
                · exact Or.inr (by simp)
                · exact Or.inl (by simp [hn])
              · exact Or.inr (by simp [hn])
            · intro v hv' dv hdv
              rcases List.mem_cons.1 hv' with rfl | hv'
              · rw [hS] at hdv
                obtain rfl := Option.some.inj hdv
                refine ⟨?_, ?_⟩
                · intro m hm
                  cases hmp : m.isPtr with
                  | false => rfl
                  | true => exact absurd (List.any_eq_true.2 ⟨m, hm, hmp⟩) hany
                · intro m hm k hk
                  exact Or.inl (List.mem_append_right _ (List.mem_filterMap.2 ⟨m, hm, hk⟩))
              · obtain ⟨h1, h2⟩ := hv v hv' dv hdv
                refine ⟨h1, fun m hm k hk => ?_⟩
                rcases h2 m hm k hk with h3 | h3
                · rcases List.mem_cons.1 h3 with rfl | h3
                  · exact Or.inr (by simp)
                  · exact Or.inl (by simp [h3])
                · exact Or.inr (by simp [h3])

/-- C46 (partial: no structure member is an array or a reference): when `is_contiguous_type` accepts, the element
reached by stripping arrays, references and one outer pointer contains no pointer, however structures nest. -/
theorem is_contiguous_sound_partial (S : Structs) (hp : PlainMembers S) (fuel : Nat) (t : Ty)
    (h : isContiguousType S fuel t = some true) : ¬ HoldsPtr S (peel t followOnlyOuter) := by
  simp only [isContiguousType] at h
  by_cases h1 : (peel t followOnlyOuter).isPtr = true
  · simp [h1] at h
  · simp only [h1, Bool.false_eq_true, if_false] at h
    by_cases h2 : Ty.eq (peel t followOnlyOuter) (peel t (-1)) = true
    · simp only [h2, Bool.not_true, Bool.false_eq_true, if_false] at h
      have hna : ∀ (t : Ty) (f : Int), (∀ a e n, peel t f ≠ .array a e n) ∧ (∀ a e, peel t f ≠ .reference a e) := by
        intro t
        induction t using Ty.induct with
        | ha a e n ih => intro f; simp only [peel]; exact ih _
        | hr a e ih => intro f; simp only [peel]; exact ih _
        | hp a t ih =>
          intro f; simp only [peel]
          by_cases hf : f ≠ 0
          · simp only [hf, ne_eq, not_false_eq_true, if_true]; exact ih _
          · simp only [hf, if_false]; simp
        | _ => intro f; simp [peel]
      intro hh
      generalize hg : peel t followOnlyOuter = u at *
      cases hh with
      | opaquePtr => simp [Ty.isPtr] at h1
      | ptr => simp [Ty.isPtr] at h1
      | reference a e => exact (hna t followOnlyOuter).2 a e hg
      | array a e n _ => exact (hna t followOnlyOuter).1 a e n hg
      | struct a n d m hS hm hh =>
        simp only [Ty.structName?] at h
        exact structs_sound hp fuel [n] [] (by simp) h n (by simp) _ (.struct a n d m hS hm hh) a rfl
    · simp [h2] at h

/-- `struct S { double *p[4]; }` -/
def ptrArrayStructs : Structs := fun n => if n = "S" then
  some { packed := false, members := [.array {} (.ptr {} (.scalar {} .double)) (.int 4)] } else none

/-- C46 is false in general: a structure whose member is an array of pointers is declared contiguous. -/
theorem is_contiguous_violated : ∃ (S : Structs) (fuel : Nat) (t : Ty), isContiguousType S fuel t = some true ∧
    HoldsPtr S (peel t followOnlyOuter) := by
  refine ⟨ptrArrayStructs, 3, .ptr {} (.structure {} "S"), ?_, ?_⟩
  · simp [isContiguousType, peel, followOnlyOuter, Ty.isPtr, Ty.eq, Ty.structName?, structsContiguous, ptrArrayStructs, List.filterMap]
  · simp only [peel, followOnlyOuter]
    exact .struct {} "S" _ _ (by simp [ptrArrayStructs]; rfl) (List.mem_singleton.2 rfl)
      (.array _ _ _ (.ptr _ _))

/-- `struct S { int32 a; struct T t; }; struct T { double x; }` -/
def nestedStructs : Structs := fun n =>
  if n = "S" then some { packed := false, members := [.scalar {} .int32, .structure {} "T"] }
  else if n = "T" then some { packed := false, members := [.scalar {} .double] } else none

example : isContiguousType nestedStructs 5 (.ptr {} (.structure {} "S")) = some true := by
  simp [isContiguousType, peel, followOnlyOuter, Ty.isPtr, Ty.eq, Ty.structName?, structsContiguous, nestedStructs, List.filterMap]
example : PlainMembers nestedStructs := by
  intro n d h m hm
  simp only [nestedStructs] at h
  split at h
  · obtain rfl := Option.some.inj h; simp at hm; rcases hm with rfl | rfl <;> simp
  · split at h
    · obtain rfl := Option.some.inj h; simp at hm; subst hm; simp
    · simp at h
end Docc.Types
