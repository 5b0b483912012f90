import Verif.Types.Memlet
import Verif.Types.TyProps

/-
C82: rewriting memlets keeps the memory they access.
-/
namespace Docc.Types
open Docc.Sym

/-! ### Specification -/

/-- What the C subscript/member expression printed for a subset designates inside an object of the given type
(c_language_extension.cpp:133-171): the byte offset and the type found there.  Structures have `st n` bytes and member
`k` of structure `n` is `mo n k` bytes behind its start.  Pointers are not followed. -/
inductive Place (S : Structs) (ρ : Val) (st : String → Int) (mo : String → Nat → Int) : Ty → List Expr → Int → Ty → Prop
  | here (t : Ty) : Place S ρ st mo t [] 0 t
  | array (a : Attr) (e : Ty) (n i : Expr) (r : List Expr) (k s o : Int) (u : Ty) : i.eval ρ = .fin k → Size ρ st e s →
    Place S ρ st mo e r o u → Place S ρ st mo (.array a e n) (i :: r) (k * s + o) u
  | struct (a : Attr) (name : String) (d : StructDef) (k : Nat) (m : Ty) (r : List Expr) (o : Int) (u : Ty) :
    S name = some d → d.members[k]? = some m → Place S ρ st mo m r o u →
    Place S ρ st mo (.structure a name) (.int (Int.ofNat k) :: r) (mo name k + o) u

/-- the storage a memlet's address is relative to: the container's own or the one its pointer value points to -/
inductive Root where
  | own
  | pointee
  deriving Repr, DecidableEq

/-- subscripting a container: a pointer is followed, an array decays to a pointer to its own storage -/
def rootOf (cont : Ty) : Root := if cont.isPtr then .pointee else .own

/-- What a memlet with the given base type and subset accesses at a container of type `cont`
(block_dispatcher.cpp:72-106 and 219-300, memlet.cpp:69-113): storage, byte offset and type.
* an empty subset is the container itself;
* a pointer base type subscripts the container as such a pointer;
* a scalar, array or structure base type is indexed in the container's own storage;
* a tensor base type without dimensions stands for its scalar container, one with dimensions for the element
  `offset + sum index * stride` of the buffer. -/
inductive Acc (S : Structs) (ρ : Val) (st : String → Int) (mo : String → Nat → Int) (cont : Ty) :
    Ty → List Expr → Root → Int → Ty → Prop
  | obj (t : Ty) (s : List Expr) (o : Int) (u : Ty) : t.isPtr = false → (∀ a ea x, t ≠ .tensor a ea x) →
    Place S ρ st mo t s o u → Acc S ρ st mo cont t s .own o u
  | value (t : Ty) : t.isPtr = true → Acc S ρ st mo cont t [] .own 0 t
  | ptr (a : Attr) (p : Ty) (i : Expr) (r : List Expr) (k s o : Int) (u : Ty) : i.eval ρ = .fin k → Size ρ st p s →
    Place S ρ st mo p r o u → Acc S ρ st mo cont (.ptr a p) (i :: r) (rootOf cont) (k * s + o) u
  | scalarTensor (a ea : Attr) (t : Tensor) : cont.isScalar = true → t.shape = [] →
    Acc S ρ st mo cont (.tensor a ea t) [] .own 0 cont
  | tensor (a ea : Attr) (t : Tensor) (s : List Expr) (ns ss idx : List Int) (off k : Int) : cont.isPtr = true →
    t.shape ≠ [] → t.Layout ρ ns ss off → Vals ρ s idx → ns.length = ss.length → idx.length = ns.length →
    Size ρ st (.scalar ea t.elem) k →
    Acc S ρ st mo cont (.tensor a ea t) s .pointee (addr ss off idx * k) (.scalar ea t.elem)

/-! ### MemletLinearization -/

theorem size_unique {ρ : Val} {st : String → Int} {t : Ty} {a : Int} (h1 : Size ρ st t a) :
    ∀ {b : Int}, Size ρ st t b → a = b := by
  induction h1 with
  | scalar at_ p k h0 h1 h2 =>
    intro b hb
    cases hb with
    | scalar _ _ k' h0' h1' h2' =>
      have : k = k' := by omega
      rw [this]
  | array at_ e n s k hs hn ih =>
    intro b hb
    cases hb with
    | array _ _ _ s' k' hs' hn' =>
      have e1 := ih hs'
      have e2 : k = k' := by rw [hn] at hn'; injection hn'
      rw [e1, e2]
  | tensor a ea t s ns hs hv ih =>
    intro b hb
    cases hb with
    | tensor _ _ _ s' ns' hs' hv' => rw [ih hs', vals_unique hv hv']
  | _ => intro b hb; cases hb; rfl

/-- the size of an array nest is the product of its extents times the element size -/
theorem size_dims {ρ : Val} {st : String → Int} (t : Ty) {s : Int} (h : Size ρ st t s) :
    ∃ ns k, Vals ρ (arrayDims t).1 ns ∧ Size ρ st (arrayDims t).2 k ∧ s = prod ns * k := by
  induction h with
  | array a e n s k hs hn ih =>
    obtain ⟨ns, c, h1, h2, h3⟩ := ih
    refine ⟨k :: ns, c, vals_mk hn h1, h2, ?_⟩
    simp only [prod]; rw [h3, Int.mul_assoc]
  | scalar a p k h0 h1 h2 => exact ⟨[], k, rfl, .scalar a p k h0 h1 h2, by simp [prod]⟩
  | struct a n => exact ⟨[], _, rfl, .struct a n, by simp [prod]⟩
  | tensor a ea t s ns hs hv => exact ⟨[], _, rfl, .tensor a ea t s ns hs hv, by simp [prod]⟩
  | opaquePtr a => exact ⟨[], _, rfl, .opaquePtr a, by simp [prod]⟩
  | ptr a t => exact ⟨[], _, rfl, .ptr a t, by simp [prod]⟩
  | reference a t => exact ⟨[], _, rfl, .reference a t, by simp [prod]⟩
  | function a r ps v => exact ⟨[], _, rfl, .function a r ps v, by simp [prod]⟩

theorem linStride_value {ρ : Val} (dims : List Expr) (ns : List Int) (h : Vals ρ dims ns) (i : Nat) :
    (linStride dims i).eval ρ = .fin (prod (ns.drop i)) := by
  have hv : Vals ρ (dims.drop i) (ns.drop i) := by
    have : (dims.map (Expr.eval ρ)).drop i = (ns.map V.fin).drop i := by rw [h]
    simpa [Vals, List.map_drop] using this
  have := eval_total_aux (dims.drop i) (ns.drop i) hv (.int 1) 1 (by simp [Expr.eval])
  simpa [linStride] using this

/-- Horner-free value of the linearised index: `sum idx_i * prod (extents behind i)` -/
def linVal (ns : List Int) : List Int → Nat → Int
  | [], _ => 0
  | k :: r, i => k * prod (ns.drop i) + linVal ns r (i + 1)

theorem linIndex_value {ρ : Val} (dims : List Expr) (ns : List Int) (h : Vals ρ dims ns) (s : List Expr) (idx : List Int)
    (hs : Vals ρ s idx) (i : Nat) (acc : Expr) (a : Int) (ha : acc.eval ρ = .fin a) :
    ((s.zipIdx i).foldl (fun acc p => Expr.add [acc, .mul [p.1, linStride dims p.2]]) acc).eval ρ
      = .fin (a + linVal ns idx i) := by
  induction s generalizing idx i acc a with
  | nil =>
    cases idx with
    | nil => simp [linVal, ha]
    | cons _ _ => simp [Vals] at hs
  | cons e r ih =>
    obtain ⟨k, idx', rfl, he, hr⟩ := vals_cons hs
    simp only [List.zipIdx_cons, List.foldl_cons]
    rw [ih idx' hr (i + 1) _ _ (eval_add2 ha (eval_mul2 he (linStride_value dims ns h i)))]
    simp only [linVal]; rw [Int.add_assoc]

theorem linVal_drop (n : Int) (ns idx : List Int) (i : Nat) : linVal (n :: ns) idx (i + 1) = linVal ns idx i := by
  induction idx generalizing i with
  | nil => rfl
  | cons k r ih => simp only [linVal, List.drop_succ_cons]; rw [ih]

/-- inside an array nest of scalars the offset is the linear index times the element size -/
theorem place_dims {S : Structs} {ρ : Val} {st : String → Int} {mo : String → Nat → Int} {t : Ty} {s : List Expr}
    {o : Int} {u : Ty} (h : Place S ρ st mo t s o u) (hsc : (arrayDims t).2.isScalar = true) (ns : List Int) (k : Int)
    (hn : Vals ρ (arrayDims t).1 ns) (hk : Size ρ st (arrayDims t).2 k) :
    (∃ idx, Vals ρ s idx ∧ idx.length ≤ ns.length ∧ o = linVal ns idx 1 * k) ∧ (u.isScalar = true → u = (arrayDims t).2) := by
  induction h generalizing ns with
  | here t =>
    refine ⟨⟨[], rfl, by simp, by simp [linVal]⟩, ?_⟩
    intro hu
    cases t <;> first | rfl | simp [Ty.isScalar] at hu
  | array a e n i r c s o u hi hs _ ih =>
    simp only [arrayDims] at hsc hn hk ⊢
    obtain ⟨m, ns', rfl, hm, hn'⟩ := vals_cons hn
    obtain ⟨⟨idx, h1, h2, h3⟩, h4⟩ := ih hsc ns' hn' hk
    refine ⟨⟨c :: idx, vals_mk hi h1, by simpa using h2, ?_⟩, h4⟩
    obtain ⟨ms, k', g1, g2, g3⟩ := size_dims e hs
    rw [vals_unique g1 hn', size_unique g2 hk] at g3
    simp only [linVal, List.drop_succ_cons, List.drop_zero]
    rw [linVal_drop, h3, g3, Int.add_mul, Int.mul_assoc]
  | struct a name d k' m r o u hd hm _ ih => simp [arrayDims, Ty.isScalar] at hsc

/-- C82: MemletLinearization keeps, for every memlet, container, structure layout and valuation of the symbols, the
storage and byte offset the memlet accesses; when it accesses a scalar, the scalar type is the same too.  (A subset that
stops at a sub-array keeps the address of the sub-array, which is what a reference memlet stores.) -/
theorem memlet_linearization (S : Structs) (ρ : Val) (st : String → Int) (mo : String → Nat → Int) (cont : Ty) (m : Mlt)
    (root : Root) (o : Int) (u : Ty) (h : Acc S ρ st mo cont m.base m.subset root o u) :
    ∃ u', Acc S ρ st mo cont (linearize m).base (linearize m).subset root o u' ∧ (u.isScalar = true → u' = u) ∧
      (linearize m).kind = m.kind := by
  obtain ⟨kind, base, subset⟩ := m
  dsimp only at h
  cases h with
  | ptr a p i r k s o' _ hi hs hp =>
    simp only [linearize]
    rw [if_neg (by simp)]
    obtain ⟨ns, c, g1, g2, g3⟩ := size_dims p hs
    have key := fun hsc => place_dims hp hsc ns c g1 g2
    generalize arrayDims p = D at g1 g2 key
    obtain ⟨dims, el⟩ := D
    cases el with
    | scalar sa q =>
      dsimp only at g1 g2 key ⊢
      split
      · exact ⟨u, .ptr a p i r k s o' u hi hs hp, fun _ => rfl, rfl⟩
      · obtain ⟨⟨idx, h1, h2, h3⟩, h4⟩ := key rfl
        refine ⟨.scalar sa q, ?_, fun hu => (h4 hu).symm, rfl⟩
        have hv := linIndex_value dims ns g1 (i :: r) (k :: idx) (vals_mk hi h1) 0 (.int 0) 0 (by simp [Expr.eval])
        have := Acc.ptr (S := S) (st := st) (mo := mo) (cont := cont) a (.scalar sa q) (linIndex dims (i :: r)) [] _ c 0 (.scalar sa q) hv g2 (.here _)
        have e : k * s + o' = (0 + linVal ns (k :: idx) 0) * c + 0 := by
          simp only [linVal, List.drop_zero]
          rw [h3, g3]
          simp [Int.add_mul, Int.mul_assoc]
        rw [e]; exact this
    | _ => exact ⟨u, .ptr a p i r k s o' u hi hs hp, fun _ => rfl, rfl⟩
  | value _ ht =>
    simp only [linearize]; rw [if_pos trivial]; exact ⟨_, .value _ ht, fun _ => rfl, rfl⟩
  | obj _ _ _ _ ht hx hp =>
    simp only [linearize]
    split
    · exact ⟨u, .obj _ _ _ _ ht hx hp, fun _ => rfl, rfl⟩
    · cases base with
      | ptr a p => simp [Ty.isPtr] at ht
      | _ => exact ⟨u, .obj _ _ _ _ ht hx hp, fun _ => rfl, rfl⟩
  | scalarTensor a ea t hc ht =>
    simp only [linearize]; rw [if_pos trivial]; exact ⟨_, .scalarTensor a ea t hc ht, fun _ => rfl, rfl⟩
  | tensor a ea t s ns ss idx off k hc hne hl hv h1 h2 hk =>
    simp only [linearize]
    split <;> exact ⟨_, .tensor a ea t _ ns ss idx off k hc hne hl hv h1 h2 hk, fun _ => rfl, rfl⟩

/-- `A[i][j]` of a `double (*)[M]` is element `i * M + j`: 8 * (2 * 7 + 3) bytes behind the pointer. -/
example : linearize ⟨.comp, .ptr {} (.array {} (.scalar {} .double) (.sym "M")), [.sym "i", .sym "j"]⟩
      = ⟨.comp, .ptr {} (.scalar {} .double), [.add [.add [.int 0, .mul [.sym "i", .mul [.int 1, .sym "M"]]], .mul [.sym "j", .int 1]]]⟩ ∧
    Acc (fun _ => none) ⟨fun x => if x = "M" then 7 else if x = "i" then 2 else 3, fun _ _ => 0⟩ (fun _ => 0) (fun _ _ => 0)
      (.opaquePtr {}) (.ptr {} (.array {} (.scalar {} .double) (.sym "M"))) [.sym "i", .sym "j"] .pointee
      (2 * (7 * 8) + (3 * 8 + 0)) (.scalar {} .double) := by
  have sz : ∀ ρ, Size ρ (fun _ => 0) (.scalar {} .double) 8 := fun ρ => .scalar {} .double 8 (by decide) (by decide) (by decide)
  refine ⟨by simp [linearize, arrayDims, linIndex, linStride], ?_⟩
  exact .ptr _ _ _ _ 2 (7 * 8) _ _ (by simp [Expr.eval]) (.array _ _ _ 8 7 (sz _) (by simp [Expr.eval]))
    (.array _ _ _ _ _ 3 8 0 _ (by simp [Expr.eval]) (sz _) (.here _))

end Docc.Types
