import Verif.Types.RefProp
import Verif.Types.MemletProps

/-
C91 (memlets): rewriting the accesses to a reference keeps the memory they access.
-/
namespace Docc.Types
open Docc.Sym

/-! ### Specification -/

/-- Where containers are: the address of a container's own storage and the address a pointer container holds. -/
structure Place.Env where
  own : String → Int
  val : String → Int

/-- the address a memlet's offset is relative to -/
def Place.Env.at (D : Place.Env) (x : String) : Root → Int
  | .own => D.own x
  | .pointee => D.val x

/-- the memlet, at an access node of container `x`, accesses address `a` with type `u` -/
def Touches (S : Structs) (ρ : Val) (st : String → Int) (mo : String → Nat → Int) (D : Place.Env) (types : String → Ty) (x : String) (m : Mlt)
    (a : Int) (u : Ty) : Prop := ∃ r o, Acc S ρ st mo (types x) m.base m.subset r o u ∧ a = D.at x r + o

/-- the last index of a subset selects an element of an array -/
def lastArr (S : Structs) : Ty → List Expr → Bool
  | .array _ _ _, [_] => true
  | .array _ e _, _ :: r => lastArr S e r
  | .structure _ n, .int (.ofNat k) :: r =>
    match (S n).bind fun d => d.members[k]? with
    | some m => lastArr S m r
    | none => false
  | _, _ => false

/-- the same for a memlet: the first index of a pointer counts elements -/
def Mlt.lastIndexed (S : Structs) (m : Mlt) : Bool :=
  match m.base, m.subset with
  | .ptr _ _, [_] => true
  | .ptr _ p, _ :: r => lastArr S p r
  | t, s => lastArr S t s

/-! ### types that are equal -/

theorem eq_symm' {t u : Ty} (h : t.eq u = true) : u.eq t = true := type_eq_equivalence.symm h
theorem eq_trans' {t u v : Ty} (h : t.eq u = true) (h' : u.eq v = true) : t.eq v = true := type_eq_equivalence.trans h h'
theorem eq_refl' (t : Ty) : t.eq t = true := type_eq_equivalence.refl t

section
variable {S : Structs} {ρ : Val} {st : String → Int} {mo : String → Nat → Int}

theorem size_eq {t : Ty} {s : Int} (h : Size ρ st t s) : ∀ {u : Ty}, t.eq u = true → Size ρ st u s := by
  induction h with
  | scalar a p k h0 h1 h2 =>
    intro u hu
    cases u <;> simp [Ty.eq] at hu
    subst hu
    exact .scalar _ _ _ h0 h1 h2
  | struct a n =>
    intro u hu
    cases u <;> simp [Ty.eq] at hu
    subst hu
    exact .struct _ _
  | array a e n s k _ hn ih =>
    intro u hu
    cases u <;> simp [Ty.eq] at hu
    obtain ⟨rfl, he⟩ := hu
    exact .array _ _ _ _ _ (ih he) hn
  | tensor a ea t s ns hs hv ih =>
    intro u hu
    cases u <;> simp [Ty.eq] at hu
    rename_i a' ea' t'
    obtain ⟨⟨⟨h1, h2⟩, h3⟩, h4⟩ := hu
    rw [h3] at hv
    exact .tensor _ _ _ _ _ (ih (by simp [Ty.eq, h1])) hv
  | opaquePtr a => intro u hu; cases u <;> simp [Ty.eq] at hu; exact .opaquePtr _
  | ptr a t => intro u hu; cases u <;> simp [Ty.eq] at hu; exact .ptr _ _
  | reference a t => intro u hu; cases u <;> simp [Ty.eq] at hu; exact .reference _ _
  | function a r ps v => intro u hu; cases u <;> simp [Ty.eq] at hu; exact .function _ _ _ _

theorem place_eq {t : Ty} {s : List Expr} {o : Int} {u : Ty} (h : Place S ρ st mo t s o u) : ∀ {t' : Ty}, t.eq t' = true →
    ∃ u', Place S ρ st mo t' s o u' ∧ u'.eq u = true := by
  induction h with
  | here t => exact fun {t'} ht => ⟨t', .here _, eq_symm' ht⟩
  | array a e n i r k sz o u hi hs _ ih =>
    intro t' ht
    cases t' <;> simp [Ty.eq] at ht
    obtain ⟨rfl, he⟩ := ht
    obtain ⟨u', h1, h2⟩ := ih he
    exact ⟨u', .array _ _ _ _ _ _ _ _ _ hi (size_eq hs he) h1, h2⟩
  | struct a n d k m r o u hd hm hp ih =>
    intro t' ht
    cases t' <;> simp [Ty.eq] at ht
    subst ht
    exact ⟨u, .struct _ _ _ _ _ _ _ _ hd hm hp, eq_refl' _⟩

theorem infer_clone (t : Ty) : ∀ (s : List Expr) (u : Ty), inferInternal S t.clone s = .ok u → ∃ v, inferInternal S t s = .ok v ∧ u.eq v = true := by
  induction t using Ty.induct with
  | hs a p => intro s u h; exact ⟨u, h, eq_refl' _⟩
  | ha a e n ih =>
    intro s u h
    cases s with
    | nil =>
      rw [inferInternal] at h ⊢
      cases h
      refine ⟨_, rfl, ?_⟩
      exact clone_eq _
    | cons i r =>
      rw [Ty.clone, inferInternal] at h
      rw [inferInternal]
      exact ih r u h
  | hst a n => intro s u h; exact ⟨u, h, eq_refl' _⟩
  | ho a => intro s u h; exact ⟨u, h, eq_refl' _⟩
  | hp a t _ =>
    intro s u h
    cases s with
    | nil => rw [inferInternal] at h ⊢; cases h; exact ⟨_, rfl, clone_eq _⟩
    | cons i r => rw [Ty.clone, inferInternal] at h; cases h
  | hf a r ps v _ _ =>
    intro s u h
    cases s with
    | nil => rw [inferInternal] at h ⊢; cases h; exact ⟨_, rfl, clone_eq _⟩
    | cons i r => rw [Ty.clone, inferInternal] at h; cases h
  | hr a t _ =>
    intro s u h
    cases s with
    | nil => rw [inferInternal] at h ⊢; cases h; exact ⟨_, rfl, clone_eq _⟩
    | cons i r => rw [Ty.clone, inferInternal] at h; cases h
  | ht a ea t => intro s u h; exact ⟨u, h, eq_refl' _⟩

theorem vector_member {d : StructDef} (h : d.isVector = true) {k : Nat} {m : Ty} (hm : d.members[k]? = some m) :
    ∃ m0 r, d.members = m0 :: r ∧ m0.isScalar = true ∧ m.eq m0 = true := by
  unfold StructDef.isVector at h
  split at h
  · cases h
  · rename_i m0 r hd
    simp only [Bool.and_eq_true, List.all_eq_true] at h
    refine ⟨m0, r, hd, h.1, ?_⟩
    rw [hd] at hm
    cases k with
    | zero => cases hm; exact eq_refl' _
    | succ k => exact h.2 m (List.mem_of_getElem? hm)

/-- what a subset designates has the inferred type -/
theorem infer_place {t : Ty} {s : List Expr} {o : Int} {u : Ty} (h : Place S ρ st mo t s o u) :
    ∀ {z : List Expr} {T : Ty}, inferInternal S t (s ++ z) = .ok T → ∃ T', inferInternal S u z = .ok T' ∧ T.eq T' = true := by
  induction h with
  | here t => intro z T hT; exact ⟨T, hT, eq_refl' _⟩
  | array a e n i r k sz o u hi hs _ ih =>
    intro z T hT
    rw [List.cons_append, inferInternal] at hT
    exact ih hT
  | struct a n d k m r o u hd hm hp ih =>
    intro z T hT
    rw [List.cons_append, inferInternal, hd] at hT
    dsimp only at hT
    split at hT
    · rename_i hv
      obtain ⟨m0, rest, hms, hsc, he⟩ := vector_member hv hm
      rw [hms] at hT
      dsimp only at hT
      cases m0 <;> simp [Ty.isScalar] at hsc
      rename_i a0 p0
      cases m <;> simp [Ty.eq] at he
      rename_i a1 p1
      subst he
      have hr : r = [] ∧ u = .scalar a1 p1 := by
        cases hp
        exact ⟨rfl, rfl⟩
      obtain ⟨rfl, rfl⟩ := hr
      cases z with
      | nil =>
        rw [List.append_nil, inferInternal] at hT
        rw [inferInternal]
        cases hT
        exact ⟨_, rfl, by simp [Ty.eq, Ty.clone]⟩
      | cons i z => rw [List.nil_append, inferInternal] at hT; cases hT
    · rw [hm] at hT
      exact ih hT

theorem infer_place_eq {t : Ty} {s : List Expr} {o : Int} {u T : Ty} (h : Place S ρ st mo t s o u) (hT : inferInternal S t s = .ok T) :
    T.eq u = true := by
  obtain ⟨T', h1, h2⟩ := infer_place h (z := []) (T := T) (by rw [List.append_nil]; exact hT)
  rw [inferInternal] at h1
  cases h1
  exact eq_trans' h2 (clone_eq _)

/-! ### composing subsets -/

theorem sadd_value {a b : Expr} {x y : Int} (ha : a.eval ρ = .fin x) (hb : b.eval ρ = .fin y) : (sadd a b).eval ρ = .fin (x + y) := by
  unfold sadd
  split
  · simp only [Expr.eval] at ha hb ⊢
    cases ha; cases hb; rfl
  · exact eval_add2 ha hb

/-- the memory behind an array element -/
theorem place_join {k : Expr} {kv sz o' : Int} {r : List Expr} {u T : Ty} (hk : k.eval ρ = .fin kv) (hs : Size ρ st T sz)
    (hr : Place S ρ st mo T r o' u) : ∀ {t : Ty} {s : List Expr} {o : Int}, Place S ρ st mo t s o T → lastArr S t s = true →
    Place S ρ st mo t (joinSubset s (k :: r)) (o + (kv * sz + o')) u := by
  intro t s o h
  generalize hTT : T = T' at h
  induction h with
  | here t => intro hl; cases t <;> simp [lastArr] at hl
  | array a e n i q kq sq oq uq hi hsq hp ih =>
    intro hl
    cases q with
    | nil =>
      cases hp
      subst hTT
      have : sq = sz := size_unique hsq hs
      subst this
      have := Place.array (S := S) (mo := mo) a T n (sadd i k) r (kq + kv) sq o' u (sadd_value hi hk) hs hr
      simp only [joinSubset, List.dropLast_singleton, List.getLastD_cons, List.getLastD_nil, List.nil_append]
      have e : kq * sq + 0 + (kv * sq + o') = (kq + kv) * sq + o' := by rw [Int.add_mul]; omega
      rw [e]
      exact this
    | cons j q =>
      rw [lastArr] at hl
      · have := Place.array (S := S) a e n i _ kq sq _ u hi hsq (ih hTT hl)
        simp only [joinSubset, List.dropLast_cons_cons, List.getLastD_cons, List.cons_append] at this ⊢
        have e : kq * sq + oq + (kv * sz + o') = kq * sq + (oq + (kv * sz + o')) := by omega
        rw [e]
        exact this
      · intro hx; cases hx
  | struct a n d kk m q oq uq hd hm hp ih =>
    intro hl
    have hl' : lastArr S m q = true := by
      rw [lastArr.eq_def] at hl
      dsimp only at hl
      rw [hd] at hl
      simpa [hm] using hl
    cases q with
    | nil =>
      cases m <;> simp [lastArr] at hl'
    | cons j q =>
      have := Place.struct (S := S) a n d kk m _ _ u hd hm (ih hTT hl')
      simp only [joinSubset, List.dropLast_cons_cons, List.getLastD_cons, List.cons_append] at this ⊢
      have e : mo n kk + oq + (kv * sz + o') = mo n kk + (oq + (kv * sz + o')) := by omega
      rw [e]
      exact this

theorem sadd_zero_int (n : Int) : sadd (.int n) (.int 0) = .int n := by simp [sadd]

/-- the index 0 behind a reference changes nothing -/
theorem place_join_zero {o' : Int} {r : List Expr} {u T : Ty} (hr : Place S ρ st mo T r o' u) : ∀ {t : Ty} {s : List Expr} {o : Int},
    Place S ρ st mo t s o T → s ≠ [] → Place S ρ st mo t (joinSubset s (.int 0 :: r)) (o + o') u := by
  intro t s o h
  generalize hTT : T = T' at h
  induction h with
  | here t => intro hl; exact absurd rfl hl
  | array a e n i q kq sq oq uq hi hsq hp ih =>
    intro hl
    cases q with
    | nil =>
      cases hp
      subst hTT
      have := Place.array (S := S) (mo := mo) a T n (sadd i (.int 0)) r (kq + 0) sq o' u (sadd_value hi rfl) hsq hr
      simp only [joinSubset, List.dropLast_singleton, List.getLastD_cons, List.getLastD_nil, List.nil_append]
      rw [Int.add_zero] at this
      rw [Int.add_zero]
      exact this
    | cons j q =>
      have := Place.array (S := S) a e n i _ kq sq _ u hi hsq (ih hTT (by simp))
      simp only [joinSubset, List.dropLast_cons_cons, List.getLastD_cons, List.cons_append] at this ⊢
      rw [Int.add_assoc]
      exact this
  | struct a n d kk m q oq uq hd hm hp ih =>
    intro hl
    cases q with
    | nil =>
      cases hp
      subst hTT
      have := Place.struct (S := S) (ρ := ρ) (st := st) (mo := mo) a n d kk T r o' u hd hm hr
      simp only [joinSubset, List.dropLast_singleton, List.getLastD_cons, List.getLastD_nil, List.nil_append, sadd_zero_int]
      rw [Int.add_zero]
      exact this
    | cons j q =>
      have := Place.struct (S := S) a n d kk m _ _ u hd hm (ih hTT (by simp))
      simp only [joinSubset, List.dropLast_cons_cons, List.getLastD_cons, List.cons_append] at this ⊢
      rw [Int.add_assoc]
      exact this

theorem place_append {o' : Int} {r : List Expr} {u T : Ty} (hr : Place S ρ st mo T r o' u) : ∀ {t : Ty} {s : List Expr} {o : Int},
    Place S ρ st mo t s o T → Place S ρ st mo t (s ++ r) (o + o') u := by
  intro t s o h
  induction h with
  | here t => rw [Int.zero_add]; exact hr
  | array a e n i q kq sq oq uq hi hsq hp ih => rw [Int.add_assoc]; exact .array _ _ _ _ _ _ _ _ _ hi hsq (ih hr)
  | struct a n d kk m q oq uq hd hm hp ih => rw [Int.add_assoc]; exact .struct _ _ _ _ _ _ _ _ hd hm (ih hr)

/-! ### one memlet -/

/-- a memlet whose base type is a pointer and that has indices -/
theorem Acc.of_ptr {cont p u : Ty} {a : Attr} {s : List Expr} {r : Root} {o : Int} (h : Acc S ρ st mo cont (.ptr a p) s r o u) (hs : s ≠ []) :
    ∃ i q k z o', s = i :: q ∧ r = rootOf cont ∧ i.eval ρ = .fin k ∧ Size ρ st p z ∧ Place S ρ st mo p q o' u ∧ o = k * z + o' := by
  cases h with
  | obj _ _ _ _ h => simp [Ty.isPtr] at h
  | value => exact absurd rfl hs
  | ptr _ _ i q k z o' _ h1 h2 h3 => exact ⟨i, q, k, z, o', rfl, rfl, h1, h2, h3, rfl⟩

/-- the place a reference designates, followed by an index and a subset in the type found there -/
theorem acc_join {cont base T u : Ty} {s : List Expr} {root : Root} {o : Int} (h : Acc S ρ st mo cont base s root o T) (hs : s ≠ [])
    (hnt : ∀ a ea t, base ≠ .tensor a ea t) {k : Expr} {kv sz o' : Int} {r : List Expr} (hk : k.eval ρ = .fin kv) (hz : Size ρ st T sz)
    (hr : Place S ρ st mo T r o' u) (hl : (Mlt.lastIndexed S ⟨.ref, base, s⟩ = true) ∨ k = .int 0) :
    Acc S ρ st mo cont base (joinSubset s (k :: r)) root (o + (kv * sz + o')) u := by
  have hzero : k = .int 0 → kv = 0 := by
    rintro rfl
    simp only [Expr.eval] at hk
    cases hk
    rfl
  cases h with
  | obj _ _ _ _ hp ht hpl =>
    refine .obj _ _ _ _ hp ht ?_
    rcases hl with hl | hl
    · refine place_join hk hz hr hpl ?_
      cases base <;> simp [Ty.isPtr] at hp <;> exact hl
    · have e : kv * sz + o' = o' := by rw [hzero hl]; omega
      rw [e, hl]
      exact place_join_zero hr hpl hs
  | value => exact absurd rfl hs
  | ptr a p i q kq sq oq _ h1 h2 h3 =>
    cases q with
    | nil =>
      cases h3
      have : sq = sz := size_unique h2 hz
      subst this
      have := Acc.ptr (S := S) (mo := mo) (cont := cont) a T (sadd i k) r (kq + kv) sq o' u (sadd_value h1 hk) hz hr
      simp only [joinSubset, List.dropLast_singleton, List.getLastD_cons, List.getLastD_nil, List.nil_append]
      have e : kq * sq + 0 + (kv * sq + o') = (kq + kv) * sq + o' := by rw [Int.add_mul]; omega
      rw [e]
      exact this
    | cons j q =>
      have hpl : Place S ρ st mo p (joinSubset (j :: q) (k :: r)) (oq + (kv * sz + o')) u := by
        rcases hl with hl | hl
        · exact place_join hk hz hr h3 hl
        · have e : kv * sz + o' = o' := by rw [hzero hl]; omega
          rw [e, hl]
          exact place_join_zero hr h3 (by simp)
      have := Acc.ptr (S := S) (mo := mo) (cont := cont) a p i _ kq sq _ u h1 h2 hpl
      simp only [joinSubset, List.dropLast_cons_cons, List.getLastD_cons, List.cons_append] at this ⊢
      rw [Int.add_assoc]
      exact this
  | scalarTensor a ea t => exact absurd rfl (hnt a ea t)
  | tensor a ea t => exact absurd rfl (hnt a ea t)

theorem acc_append {cont base T u : Ty} {s : List Expr} {root : Root} {o : Int} (h : Acc S ρ st mo cont base s root o T) (hs : s ≠ [])
    (hnt : ∀ a ea t, base ≠ .tensor a ea t) {o' : Int} {r : List Expr} (hr : Place S ρ st mo T r o' u) :
    Acc S ρ st mo cont base (s ++ r) root (o + o') u := by
  cases h with
  | obj _ _ _ _ hp ht hpl => exact .obj _ _ _ _ hp ht (place_append hr hpl)
  | value => exact absurd rfl hs
  | ptr a p i q kq sq oq _ h1 h2 h3 => rw [Int.add_assoc]; exact .ptr _ _ _ _ _ _ _ _ h1 h2 (place_append hr h3)
  | scalarTensor a ea t => exact absurd rfl (hnt a ea t)
  | tensor a ea t => exact absurd rfl (hnt a ea t)

/-- the inferred type of a memlet is the type it accesses -/
theorem infer_acc {cont base T T' : Ty} {s : List Expr} {root : Root} {o : Int} (h : Acc S ρ st mo cont base s root o T) (hs : s ≠ [])
    (hnt : ∀ a ea t, base ≠ .tensor a ea t) {z : List Expr} (hT : infer S base (s ++ z) = .ok T') :
    ∃ v, inferInternal S T z = .ok v ∧ T'.eq v = true := by
  cases h with
  | obj _ _ _ _ hp ht hpl =>
    cases s with
    | nil => exact absurd rfl hs
    | cons i q =>
      rw [infer.eq_def] at hT
      cases base <;> simp [Ty.isPtr] at hp <;> exact infer_place hpl hT
  | value => exact absurd rfl hs
  | ptr a p i q kq sq oq _ h1 h2 h3 => exact infer_place h3 hT
  | scalarTensor a ea t => exact absurd rfl (hnt a ea t)
  | tensor a ea t => exact absurd rfl (hnt a ea t)

theorem acc_clone {cont base u : Ty} {s : List Expr} {r : Root} {o : Int} (h : Acc S ρ st mo cont base s r o u)
    (hnt : ∀ a ea t, base ≠ .tensor a ea t) : ∃ u', Acc S ρ st mo cont base.clone s r o u' ∧ u'.eq u = true := by
  cases h with
  | obj _ _ _ _ hp ht hpl =>
    obtain ⟨u', h1, h2⟩ := place_eq hpl (eq_symm' (clone_eq base))
    refine ⟨u', .obj _ _ _ _ ?_ ?_ h1, h2⟩
    · cases base <;> simp [Ty.isPtr] at hp <;> rfl
    · intro a ea t e
      cases base <;> simp [Ty.clone] at e
      exact ht _ _ _ rfl
  | value _ hp => exact ⟨_, .value _ (by cases base <;> simp [Ty.isPtr] at hp <;> rfl), clone_eq _⟩
  | ptr a p i q kq sq oq _ h1 h2 h3 =>
    obtain ⟨u', h4, h5⟩ := place_eq h3 (eq_symm' (clone_eq p))
    exact ⟨u', .ptr _ _ _ _ _ _ _ _ h1 (size_eq h2 (eq_symm' (clone_eq p))) h4, h5⟩
  | scalarTensor a ea t => exact absurd rfl (hnt a ea t)
  | tensor a ea t => exact absurd rfl (hnt a ea t)

/-- **one memlet**: rewritten, it accesses what it accessed relative to the place of the reference -/
theorem rewrite_edge {cont contP : Ty} {move m : Mlt} {T T' u : Ty} {root : Root} {oM o : Int} (hmove : Acc S ρ st mo cont move.base move.subset root oM T')
    (hs : move.subset ≠ []) (hnt : ∀ a ea t, move.base ≠ .tensor a ea t) (hnt' : ∀ a ea t, T' ≠ .tensor a ea t) (hmo : ∀ n, mo n 0 = 0)
    (hsz : ∃ z, Size ρ st T' z) (hel : ∀ a e n, T' = .array a e n → ∃ z, Size ρ st e z)
    (hT : infer S move.base move.subset = .ok T) (hok : edgeOk S move T m = true) {r : Root} (hm : Acc S ρ st mo contP m.base m.subset r o u)
    (hl : move.lastIndexed S = true ∨ m.subset.head? = some (.int 0)) :
    r = rootOf contP ∧ ∃ u', Acc S ρ st mo cont (rewriteEdge move T m).base (rewriteEdge move T m).subset root (oM + o) u' ∧ u'.eq u = true := by
  simp only [edgeOk, Bool.and_eq_true, Bool.or_eq_true, Bool.not_eq_true', List.isEmpty_eq_false_iff] at hok
  obtain ⟨⟨_, hne⟩, hty⟩ := hok
  obtain ⟨v, hv1, hv2⟩ := infer_acc hmove hs hnt (z := []) (T' := T) (by rw [List.append_nil]; exact hT)
  rw [inferInternal] at hv1
  cases hv1
  have hTT : T.eq T' = true := eq_trans' hv2 (clone_eq _)
  unfold rewriteEdge
  by_cases he : m.base.eq (refTy T) = true
  · rw [if_pos he]
    obtain ⟨mk, mb, ms⟩ := m
    cases mb <;> simp [refTy, Ty.eq] at he
    rename_i a q
    obtain ⟨i, w, k, z, o', rfl, rfl, h1, h2, h3, rfl⟩ := Acc.of_ptr hm hne
    obtain ⟨u1, h4, h5⟩ := place_eq h3 (eq_trans' he hTT)
    have hz : Size ρ st T' z := size_eq h2 (eq_trans' he hTT)
    have := acc_join hmove hs hnt h1 hz h4 (hl.imp (fun h => h) fun h => by simpa using h)
    obtain ⟨u2, h6, h7⟩ := acc_clone this hnt
    exact ⟨rfl, u2, h6, eq_trans' h7 h5⟩
  · rw [if_neg he]
    replace hty := hty.resolve_left he
    obtain ⟨mk, mb, ms⟩ := m
    obtain ⟨vk, vb, vs⟩ := move
    unfold compatibleType at hty
    dsimp only at hty hmove hs hnt hT hm hne ⊢
    have hb : ∃ a p b q, vb = .ptr a p ∧ mb = .ptr b q := by
      split at hty
      · exact ⟨_, _, _, _, rfl, rfl⟩
      · cases hty
    obtain ⟨a, p, b, q, rfl, rfl⟩ := hb
    simp only [Bool.and_eq_true, List.all_eq_true, beq_iff_eq] at hty
    obtain ⟨⟨⟨_, hq⟩, hzero⟩, hinf⟩ := hty
    have hb : ∃ qa qp, q = .scalar qa qp := by
      cases q <;> simp [Ty.isScalar] at hq
      exact ⟨_, _, rfl⟩
    obtain ⟨qa, qp, rfl⟩ := hb
    obtain ⟨i, w, k, z, o', rfl, rfl, h1, h2, h3, rfl⟩ := Acc.of_ptr hm hne
    have hi : i = .int 0 := hzero i (by simp)
    subst hi
    simp only [Expr.eval] at h1
    cases h1
    have hw : w = [] ∧ o' = 0 ∧ u = .scalar qa qp := by
      cases h3
      exact ⟨rfl, rfl, rfl⟩
    obtain ⟨rfl, rfl, rfl⟩ := hw
    rw [Int.zero_mul]
    unfold sameInferred at hinf
    split at hinf
    · rename_i x y hx hy
      rw [infer, inferInternal] at hy
      cases hy
      obtain ⟨v, g1, g2⟩ := infer_acc hmove hs hnt hx
      have hv : v.eq (.scalar qa qp) = true := eq_trans' (eq_symm' g2) hinf
      -- one step into the referenced object
      have hpl : ∃ u', Place S ρ st mo T' [.int 0] 0 u' ∧ u'.eq (.scalar qa qp) = true := by
        cases T' with
        | array ta te tn =>
          obtain ⟨ez, hez⟩ := hel _ _ _ rfl
          rw [inferInternal, inferInternal] at g1
          cases g1
          have := Place.array (S := S) (mo := mo) ta te tn (.int 0) [] 0 ez 0 te (by simp [Expr.eval]) hez (.here _)
          rw [Int.zero_mul] at this
          exact ⟨te, this, eq_trans' (eq_symm' (clone_eq _)) hv⟩
        | «structure» ta tn =>
          rw [inferInternal] at g1
          cases hd : S tn with
          | none => rw [hd] at g1; cases g1
          | some d =>
            rw [hd] at g1
            dsimp only at g1
            have hmem : ∃ m0, d.members[0]? = some m0 ∧ inferInternal S m0 [] = .ok v := by
              split at g1
              · split at g1
                · rename_i m0 _ hms
                  exact ⟨m0, by rw [hms]; rfl, g1⟩
                · cases g1
              · split at g1
                · rename_i m0 hm0
                  exact ⟨m0, hm0, g1⟩
                · cases g1
            obtain ⟨m0, hm0, hi0⟩ := hmem
            rw [inferInternal] at hi0
            cases hi0
            have := Place.struct (S := S) (ρ := ρ) (st := st) (mo := mo) ta tn d 0 m0 [] 0 m0 hd hm0 (.here _)
            rw [hmo] at this
            exact ⟨m0, this, eq_trans' (eq_symm' (clone_eq _)) hv⟩
        | tensor x y t => exact absurd rfl (hnt' x y t)
        | scalar x y => rw [inferInternal] at g1; cases g1
        | opaquePtr x => rw [inferInternal] at g1; cases g1
        | ptr x y => rw [inferInternal] at g1; cases g1
        | function x y w' t => rw [inferInternal] at g1; cases g1
        | reference x y => rw [inferInternal] at g1; cases g1
      obtain ⟨u', p1, p2⟩ := hpl
      have := acc_append hmove hs hnt p1
      obtain ⟨u2, h6, h7⟩ := acc_clone this hnt
      exact ⟨rfl, u2, h6, eq_trans' h7 p2⟩
    · cases hinf

end

/-! ### the node -/

/-- What holds where the accesses to `p` are rewritten: `p` holds the address of the reference `&A[move]`, whose type `T'` and address are defined.  Structures have
their first member at offset 0. -/
structure Referenced (S : Structs) (ρ : Val) (st : String → Int) (mo : String → Nat → Int) (D : Place.Env) (types : String → Ty) (A p : String)
    (move : Mlt) (T' : Ty) : Prop where
  pointer : (types p).isPtr = true
  place : Touches S ρ st mo D types A move (D.val p) T'
  valid : move.base.isPtr = false → (types A).isPtr = false
  noTensor : (∀ a ea t, move.base ≠ .tensor a ea t) ∧ ∀ a ea t, T' ≠ .tensor a ea t
  sizes : (∃ z, Size ρ st T' z) ∧ ∀ a e n, T' = .array a e n → ∃ z, Size ρ st e z
  first : ∀ n, mo n 0 = 0

/-- memlet `m'` at container `A` accesses the same memory, with the same type, as memlet `m` at container `p` -/
def SameAccess (S : Structs) (ρ : Val) (st : String → Int) (mo : String → Nat → Int) (D : Place.Env) (types : String → Ty) (p A : String)
    (m m' : Mlt) : Prop :=
  m'.kind = m.kind ∧ ∀ a u, Touches S ρ st mo D types p m a u → ∃ u', Touches S ρ st mo D types A m' a u' ∧ u'.eq u = true

/-- the memlets of the two lists correspond -/
def Each (R : Mlt → Mlt → Prop) (l l' : List Mlt) : Prop :=
  l.length = l'.length ∧ ∀ (i : Nat) (m m' : Mlt), l[i]? = some m → l'[i]? = some m' → R m m'

section
variable {S : Structs} {ρ : Val} {st : String → Int} {mo : String → Nat → Int} {D : Place.Env} {types : String → Ty} {A p : String} {move : Mlt} {T' : Ty}

theorem Referenced.edge (H : Referenced S ρ st mo D types A p move T') (hs : move.subset ≠ []) {T : Ty} (hT : infer S move.base move.subset = .ok T)
    {m : Mlt} (hok : edgeOk S move T m = true) (hl : move.lastIndexed S = true ∨ m.subset.head? = some (.int 0)) :
    SameAccess S ρ st mo D types p A m (rewriteEdge move T m) := by
  refine ⟨rfl, ?_⟩
  rintro a u ⟨r, o, hm, rfl⟩
  obtain ⟨root, oM, hmove, hval⟩ := H.place
  obtain ⟨hr, u', h1, h2⟩ := rewrite_edge hmove hs H.noTensor.1 H.noTensor.2 H.first H.sizes.1 H.sizes.2 hT hok hm hl
  refine ⟨u', ⟨root, oM + o, h1, ?_⟩, h2⟩
  subst hr
  have : rootOf (types p) = .pointee := by simp [rootOf, H.pointer]
  rw [this]
  show D.val p + o = _
  rw [hval, Int.add_assoc]

/-- `p = &A[0]`: the container alone is exchanged -/
theorem Referenced.simple (H : Referenced S ρ st mo D types A p move T') (hs : move.subset = [.int 0]) {m : Mlt} (hp : m.base.isPtr = true)
    (hne : m.subset ≠ []) : SameAccess S ρ st mo D types p A m m := by
  refine ⟨rfl, ?_⟩
  rintro a u ⟨r, o, hm, rfl⟩
  refine ⟨u, ?_, eq_refl' _⟩
  obtain ⟨mk, mb, ms⟩ := m
  obtain ⟨vk, vb, vs⟩ := move
  dsimp only at hs hp hne hm
  subst hs
  have hroot : rootOf (types p) = .pointee := by simp [rootOf, H.pointer]
  have hbase : D.at A (rootOf (types A)) = D.val p := by
    obtain ⟨root, oM, hmove, hval⟩ := H.place
    dsimp only at hmove
    cases hmove with
    | obj _ _ _ _ hnp ht hpl =>
      have : rootOf (types A) = .own := by simp [rootOf, H.valid hnp]
      rw [this, hval]
      have h0 : oM = 0 := by
        cases hpl with
        | array a e n i r k s o u hi hz hr =>
          simp only [Expr.eval] at hi
          cases hi
          cases hr
          simp
        | struct a name d k m r o u hd hm hr =>
          cases hr
          rename_i hk
          have : mo name 0 = 0 := H.first name
          simp [this]
      rw [h0, Int.add_zero]
    | ptr a q i r k s o u hi hz hr =>
      simp only [Expr.eval] at hi
      cases hi
      cases hr
      rw [hval]
      simp
    | tensor a ea t => exact absurd rfl (H.noTensor.1 a ea t)
  cases mb <;> simp [Ty.isPtr] at hp
  · cases hm with
    | obj _ _ _ _ h => simp [Ty.isPtr] at h
    | value => exact absurd rfl hne
  · obtain ⟨i, q, k, z, o', rfl, rfl, h1, h2, h3, rfl⟩ := Acc.of_ptr hm hne
    refine ⟨rootOf (types A), k * z + o', .ptr _ _ _ _ _ _ _ _ h1 h2 h3, ?_⟩
    rw [hbase, hroot]
    rfl

end

/-- **C91 (memlets; partial).** If the pointer `p` of a node holds the address of `A[move]` and the node is either only read or only written through, then after ReferencePropagation has
handled it, it is a node of `A` or as before; and in the first case every memlet accesses the address it accessed, with the same type.  Missing: nodes that
are both read and written (`reference_twice_violated`) or moved (`reference_moved_violated`), and references to a member of a structure that are used with a
nonzero index (`reference_member_violated`). -/
theorem reference_node_partial (S : Structs) (ρ : Val) (st : String → Int) (mo : String → Nat → Int) (D : Place.Env) (types : String → Ty) (A : String)
    (move : Mlt) (T' : Ty) (N : RNode) (H : Referenced S ρ st mo D types A N.data move T') (hone : N.ins = [] ∨ N.outs = [])
    (hptr : ∀ m ∈ N.ins ++ N.outs, m.base.isPtr = true ∧ m.subset ≠ [])
    (hl : move.lastIndexed S = true ∨ ∀ m ∈ N.ins ++ N.outs, m.subset.head? = some (.int 0)) :
    N.handle S A move N.users = N ∨
      ((N.handle S A move N.users).data = A ∧
        Each (SameAccess S ρ st mo D types N.data A) N.ins (N.handle S A move N.users).ins ∧
        Each (SameAccess S ρ st mo D types N.data A) N.outs (N.handle S A move N.users).outs) := by
  have hall : ∀ (l : List Mlt) (f : Mlt → Mlt), (∀ m ∈ l, SameAccess S ρ st mo D types N.data A m (f m)) →
      Each (SameAccess S ρ st mo D types N.data A) l (l.map f) := by
    intro l f h
    refine ⟨by simp, fun i m m' h1 h2 => ?_⟩
    rw [List.getElem?_map, h1] at h2
    cases h2
    exact h m (List.mem_of_getElem? h1)
  have hu : N.users = 0 ∨ N.users = 1 := by
    unfold RNode.users
    rcases hone with h | h <;> rw [h] <;> simp
    · exact Classical.em _
    · exact Classical.em _
  rcases hu with hu | hu
  · left; rw [hu]; rfl
  · rw [hu]
    show (N.propagate S A move).getD N = N ∨ _
    simp only [RNode.handle]
    unfold RNode.propagate
    split
    · left; rfl
    · split
      · rename_i hs
        right
        refine ⟨rfl, ?_, ?_⟩
        · have := hall N.ins id fun m hm => H.simple hs (hptr m (by simp [hm])).1 (hptr m (by simp [hm])).2
          simpa using this
        · have := hall N.outs id fun m hm => H.simple hs (hptr m (by simp [hm])).1 (hptr m (by simp [hm])).2
          simpa using this
      · rename_i hs _
        split
        · rename_i T hT
          split
          · rename_i hok
            rw [List.all_eq_true] at hok
            right
            refine ⟨rfl, hall _ _ fun m hm => ?_, hall _ _ fun m hm => ?_⟩
            · exact H.edge hs hT (hok m (by simp [hm])) (hl.imp id fun h => h m (by simp [hm]))
            · exact H.edge hs hT (hok m (by simp [hm])) (hl.imp id fun h => h m (by simp [hm]))
          · left; rfl
        · left; rfl

/-- `double *A`, `double *p`, `struct R { double a; int b; }` -/
def exRefTypes : String → Ty
  | "A" => .ptr default (.scalar default .double)
  | "p" => .ptr default (.scalar default .double)
  | "s" => .ptr default (.structure default "R")
  | _ => .scalar default .int64

/-- `p[e]` with type `double` -/
def exRefAcc (e : Expr) : Mlt := ⟨.comp, .ptr default (.scalar default .double), [e]⟩

/-- `p = &A[i]` -/
def exRefMove : Mlt := ⟨.ref, .ptr default (.scalar default .double), [.sym "i"]⟩

/-- the symbols have value 1 -/
def exRefVal : Val := { sym := fun _ => 1, fn := fun _ _ => 0 }

theorem exRef_size : Size exRefVal (fun _ => 16) (.scalar default .double) 8 := .scalar _ _ 8 (by decide) (by decide) (by decide)

theorem RNode.propagate_some {S : Structs} {viewed : String} {move : Mlt} {N : RNode} {T : Ty} (h1 : move.subset ≠ []) (h2 : move.subset ≠ [.int 0])
    (hT : infer S move.base move.subset = .ok T) (hok : (N.outs ++ N.ins).all (edgeOk S move T) = true) :
    N.propagate S viewed move = some ⟨viewed, N.ins.map (rewriteEdge move T), N.outs.map (rewriteEdge move T)⟩ := by
  unfold RNode.propagate
  rw [if_neg h1, if_neg h2, hT]
  simp only [hok, if_true]

theorem exRef_infer (S : Structs) (e : Expr) : infer S (.ptr default (.scalar default .double)) [e] = .ok (.scalar default .double) := by
  simp [infer, inferInternal, Ty.clone]

theorem exRef_handle1 (ins outs : List Mlt) (hok : (outs ++ ins).all (edgeOk (fun _ => none) exRefMove (.scalar default .double)) = true) (x : String) :
    (RNode.mk x ins outs).propagate (fun _ => none) "A" exRefMove =
      some ⟨"A", ins.map (rewriteEdge exRefMove (.scalar default .double)), outs.map (rewriteEdge exRefMove (.scalar default .double))⟩ :=
  RNode.propagate_some (by simp [exRefMove]) (by simp [exRefMove]) (exRef_infer _ _) hok

/-- Non-vacuity: `p = &A[i]; x = p[1]` becomes `x = A[i + 1]`, which is at the same address. -/
example : Referenced (fun _ => none) exRefVal (fun _ => 16) (fun _ k => 8 * k) ⟨fun _ => 0, fun x => if x = "A" then 1000 else 1008⟩ exRefTypes "A" "p"
      exRefMove (.scalar default .double) ∧
    exRefMove.lastIndexed (fun _ => none) = true ∧
    (RNode.handle (fun _ => none) "A" exRefMove 1 ⟨"p", [], [exRefAcc (.int 1)]⟩).data = "A" ∧
    (RNode.handle (fun _ => none) "A" exRefMove 1 ⟨"p", [], [exRefAcc (.int 1)]⟩).outs.map (·.subset) = [[.add [.sym "i", .int 1]]] := by
  refine ⟨⟨rfl, ⟨.pointee, 8, ?_, rfl⟩, (fun h => by cases h), ⟨(fun _ _ _ h => by cases h), (fun _ _ _ h => by cases h)⟩,
    ⟨⟨8, exRef_size⟩, (fun _ _ _ h => by cases h)⟩, fun _ => rfl⟩, rfl, by simp [RNode.handle, exRef_handle1 [] [exRefAcc (.int 1)] (by decide)], by simp [RNode.handle, exRef_handle1 [] [exRefAcc (.int 1)] (by decide)]; decide⟩
  exact Acc.ptr default (.scalar default .double) (.sym "i") [] 1 8 0 _ rfl exRef_size (.here _)

theorem exRef_rewrite (e : Expr) : rewriteEdge exRefMove (.scalar default .double) (exRefAcc e) = exRefAcc (.add [.sym "i", e]) := by
  have : (exRefAcc e).base.eq (refTy (.scalar default .double)) = true := by show Ty.eq (.ptr default (.scalar default .double)) _ = true; decide
  unfold rewriteEdge
  rw [if_pos this]
  rfl

theorem exRef_twice : RNode.handle (fun _ => none) "A" exRefMove 2 ⟨"p", [exRefAcc (.int 0)], [exRefAcc (.int 0)]⟩ =
    ⟨"A", [exRefAcc (.add [.sym "i", .add [.sym "i", .int 0]])], [exRefAcc (.add [.sym "i", .add [.sym "i", .int 0]])]⟩ := by
  simp only [RNode.handle]
  rw [exRef_handle1 [exRefAcc (.int 0)] [exRefAcc (.int 0)] (by decide)]
  simp only [List.map_cons, List.map_nil, exRef_rewrite, Option.getD_some]
  rw [exRef_handle1 _ _ (by decide)]
  simp only [List.map_cons, List.map_nil, exRef_rewrite, Option.getD_some]

theorem exRef_moved : RNode.handle (fun _ => none) "A" exRefMove 1 ⟨"p", [exRefMove], [exRefAcc (.int 0)]⟩ =
    ⟨"A", [⟨.ref, exRefMove.base, [.add [.sym "i", .sym "i"]]⟩], [exRefAcc (.add [.sym "i", .int 0])]⟩ := by
  simp only [RNode.handle]
  rw [exRef_handle1 _ _ (by decide)]
  rfl

/-- `struct R { double a; int b; }` -/
def exRefStructs : Structs := fun _ => some ⟨false, [.scalar default .double, .scalar default .int32]⟩

/-- `p = &s[0].a` -/
def exRefMember : Mlt := ⟨.ref, .ptr default (.structure default "R"), [.int 0, .int 0]⟩

theorem exRef_member : RNode.handle exRefStructs "s" exRefMember 1 ⟨"p", [], [exRefAcc (.sym "k")]⟩ =
    ⟨"s", [], [⟨.comp, .ptr default (.structure default "R"), [.int 0, .add [.int 0, .sym "k"]]⟩]⟩ := by
  have hi : infer exRefStructs exRefMember.base exRefMember.subset = .ok (.scalar default .double) := by
    simp [infer, inferInternal, Ty.clone, exRefMember, exRefStructs]
  simp only [RNode.handle]
  rw [RNode.propagate_some (by simp [exRefMember]) (by simp [exRefMember]) hi (by decide)]
  rfl

/-- **C91, refuted (a node with both kinds of memlets).** `p = &A[i]; p[0] = y; x = p[0]` with one access node for `p`: the node has a WRITE and a READ user, so it is rewritten
twice and both memlets become `A[i + (i + 0)]`. -/
theorem reference_twice_violated : ∃ (N : RNode) (m m' : Mlt) (a : Int), N.ins ≠ [] ∧ N.outs = [m] ∧ m.kind = .comp ∧
    Referenced (fun _ => none) exRefVal (fun _ => 16) (fun _ k => 8 * k) ⟨fun _ => 0, fun x => if x = "A" then 1000 else 1008⟩ exRefTypes "A" N.data exRefMove (.scalar default .double) ∧
    (N.handle (fun _ => none) "A" exRefMove N.users).data = "A" ∧ (N.handle (fun _ => none) "A" exRefMove N.users).outs = [m'] ∧
    (∃ u, Touches (fun _ => none) exRefVal (fun _ => 16) (fun _ k => 8 * k) ⟨fun _ => 0, fun x => if x = "A" then 1000 else 1008⟩ exRefTypes N.data m a u) ∧
    ¬ ∃ u, Touches (fun _ => none) exRefVal (fun _ => 16) (fun _ k => 8 * k) ⟨fun _ => 0, fun x => if x = "A" then 1000 else 1008⟩ exRefTypes "A" m' a u := by
  refine ⟨⟨"p", [exRefAcc (.int 0)], [exRefAcc (.int 0)]⟩, exRefAcc (.int 0), exRefAcc (.add [.sym "i", .add [.sym "i", .int 0]]), 1008, by simp, rfl, rfl, ?_,
    by rw [show RNode.users _ = 2 from rfl, exRef_twice], by rw [show RNode.users _ = 2 from rfl, exRef_twice], ⟨.scalar default .double, .pointee, 0, ?_, rfl⟩, ?_⟩
  · refine ⟨rfl, ⟨.pointee, 8, ?_, rfl⟩, (fun h => by cases h), ⟨(fun _ _ _ h => by cases h), (fun _ _ _ h => by cases h)⟩,
      ⟨⟨8, exRef_size⟩, (fun _ _ _ h => by cases h)⟩, fun _ => rfl⟩
    exact Acc.ptr default (.scalar default .double) (.sym "i") [] 1 8 0 _ rfl exRef_size (.here _)
  · exact Acc.ptr default (.scalar default .double) (.int 0) [] 0 8 0 _ rfl exRef_size (.here _)
  · rintro ⟨u, r, o, hacc, ha⟩
    obtain ⟨i, q, k, z, o', hs, rfl, h1, h2, h3, rfl⟩ := Acc.of_ptr hacc (by simp [exRefAcc])
    cases hs
    have hk : k = 2 := by
      have : (Expr.add [.sym "i", .add [.sym "i", .int 0]]).eval exRefVal = .fin 2 := rfl
      rw [this] at h1
      cases h1
      rfl
    have hz : z = 8 := size_unique h2 exRef_size
    cases h3
    subst hk hz
    revert ha
    decide

/-- **C91, refuted (a node that is assigned and read).** `p = &A[i]; x = p[0]` with one access node for `p`: the reference memlet itself is rewritten, and the node now assigns
the container `A`: `A = &A[i + i]; x = A[i + 0]`. -/
theorem reference_moved_violated : ∃ N : RNode, N.data = "p" ∧ N.ins = [exRefMove] ∧
    (N.handle (fun _ => none) "A" exRefMove 1).data = "A" ∧ (N.handle (fun _ => none) "A" exRefMove 1).ins.map (fun m => (m.kind, m.subset)) = [(.ref, [.add [.sym "i", .sym "i"]])] :=
  ⟨⟨"p", [exRefMove], [exRefAcc (.int 0)]⟩, rfl, rfl, by rw [exRef_moved], by rw [exRef_moved]; rfl⟩

/-- **C91, refuted (members).** `p = &s[0].a; x = p[k]`, which is defined for `k = 0`: the rewritten memlet `s[0].(0 + k)` has no type, so the function is invalid. -/
theorem reference_member_violated : ∃ (S : Structs) (N : RNode) (move m : Mlt) (T : Ty), N.outs = [m] ∧ N.ins = [] ∧
    infer S m.base m.subset = .ok T ∧ (N.handle S "s" move N.users).data = "s" ∧
    ∀ m' ∈ (N.handle S "s" move N.users).outs, infer S m'.base m'.subset = .null := by
  refine ⟨exRefStructs, ⟨"p", [], [exRefAcc (.sym "k")]⟩, exRefMember, exRefAcc (.sym "k"), .scalar default .double, rfl, rfl, exRef_infer _ _, ?_, ?_⟩
  · rw [show RNode.users _ = 1 from rfl, exRef_member]
  · rw [show RNode.users _ = 1 from rfl, exRef_member]
    intro m' h
    simp only [List.mem_singleton] at h
    subst h
    simp [infer, inferInternal, exRefStructs]
    rfl

end Docc.Types
