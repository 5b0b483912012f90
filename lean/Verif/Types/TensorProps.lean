import Verif.Types.Tensor

/-
C25, C26, C27: addresses computed from tensor layouts.
-/
namespace Docc.Types
open Docc.Sym

/-! ### Specification -/

/-- product of extents -/
def prod : List Int → Int
  | [] => 1
  | n :: r => n * prod r

/-- `sum idx_k * stride_k` -/
def dot : List Int → List Int → Int
  | s :: ss, i :: is => s * i + dot ss is
  | _, _ => 0

/-- every index is inside its extent -/
def InRange : List Int → List Int → Prop
  | n :: ns, i :: is => (0 ≤ i ∧ i < n) ∧ InRange ns is
  | [], [] => True
  | _, _ => False

/-- row-major position of an index tuple: the last axis varies fastest -/
def rank : List Int → List Int → Int
  | _ :: ns, i :: is => i * prod ns + rank ns is
  | _, _ => 0

/-- lexicographic order on index tuples -/
def Lex : List Int → List Int → Prop
  | i :: is, j :: js => i < j ∨ (i = j ∧ Lex is js)
  | _, _ => False

/-- the expressions evaluate to the given integers -/
def Vals (ρ : Val) (l : List Expr) (ns : List Int) : Prop := l.map (Expr.eval ρ) = ns.map V.fin

/-- the tensor has the given concrete layout in valuation `ρ` -/
structure Tensor.Layout (t : Tensor) (ρ : Val) (shape strides : List Int) (off : Int) : Prop where
  shape : Vals ρ t.shape shape
  strides : Vals ρ t.strides strides
  offset : t.offset.eval ρ = .fin off

/-- address of an element (in elements) -/
def addr (strides : List Int) (off : Int) (idx : List Int) : Int := off + dot strides idx

/-! ### Lemmas -/

theorem Vals.length {ρ : Val} {l : List Expr} {ns : List Int} (h : Vals ρ l ns) : l.length = ns.length := by
  have := congrArg List.length h; simpa using this

theorem vals_cons {ρ : Val} {e : Expr} {l : List Expr} {ns : List Int} (h : Vals ρ (e :: l) ns) :
    ∃ n ns', ns = n :: ns' ∧ e.eval ρ = .fin n ∧ Vals ρ l ns' := by
  cases ns with
  | nil => simp [Vals] at h
  | cons n ns' =>
    simp [Vals] at h
    exact ⟨n, ns', rfl, h.1, h.2⟩

theorem vals_mk {ρ : Val} {e : Expr} {l : List Expr} {n : Int} {ns : List Int} (h1 : e.eval ρ = .fin n)
    (h2 : Vals ρ l ns) : Vals ρ (e :: l) (n :: ns) := by
  simp only [Vals, List.map_cons, h1]; rw [h2]

theorem vals_unique {ρ : Val} {l : List Expr} {a b : List Int} (h1 : Vals ρ l a) (h2 : Vals ρ l b) : a = b := by
  have : a.map V.fin = b.map V.fin := h1.symm.trans h2
  exact (List.map_inj_right (fun x y h => by injection h)).1 this

theorem eval_mul2 {ρ : Val} {a b : Expr} {x y : Int} (h1 : a.eval ρ = .fin x) (h2 : b.eval ρ = .fin y) :
    (Expr.mul [a, b]).eval ρ = .fin (x * y) := by
  simp [Expr.eval, Expr.evalL, h1, h2, V.mul]

theorem eval_add2 {ρ : Val} {a b : Expr} {x y : Int} (h1 : a.eval ρ = .fin x) (h2 : b.eval ρ = .fin y) :
    (Expr.add [a, b]).eval ρ = .fin (x + y) := by
  simp [Expr.eval, Expr.evalL, h1, h2, V.add]

/-- row-major strides -/
def rowMajor : List Int → List Int
  | [] => []
  | _ :: r => prod r :: rowMajor r

theorem stridesFromShape_length (l : List Expr) : (stridesFromShape l).length = l.length := by
  induction l using stridesFromShape.induct <;> simp_all [stridesFromShape]

theorem stridesFromShape_vals {ρ : Val} (l : List Expr) {ns : List Int} (h : Vals ρ l ns) :
    Vals ρ (stridesFromShape l) (rowMajor ns) := by
  induction l generalizing ns with
  | nil => cases ns <;> simp_all [Vals, stridesFromShape, rowMajor]
  | cons a r ih =>
    obtain ⟨n, ns', rfl, ha, hr⟩ := vals_cons h
    cases r with
    | nil =>
      cases ns' with
      | nil => simp [Vals, stridesFromShape, rowMajor, prod, Expr.eval]
      | cons _ _ => simp [Vals] at hr
    | cons b r' =>
      obtain ⟨m, ms, rfl, hb, hr'⟩ := vals_cons hr
      have ih' := ih hr
      simp only [stridesFromShape]
      cases hs : stridesFromShape (b :: r') with
      | nil =>
        have := stridesFromShape_length (b :: r'); rw [hs] at this; simp at this
      | cons s ss =>
        rw [hs] at ih'
        simp only [rowMajor] at ih' ⊢
        obtain ⟨p, ps, hp, hs1, hs2⟩ := vals_cons ih'
        simp only [List.cons.injEq] at hp
        obtain ⟨rfl, rfl⟩ := hp
        refine vals_mk ?_ (vals_mk hs1 hs2)
        rw [eval_mul2 hs1 hb]
        simp [prod, Int.mul_comm]

theorem dot_rowMajor (ns idx : List Int) : dot (rowMajor ns) idx = rank ns idx := by
  induction ns generalizing idx with
  | nil => cases idx <;> simp [rowMajor, dot, rank]
  | cons n r ih =>
    cases idx with
    | nil => simp [rowMajor, dot, rank]
    | cons i is => simp [rowMajor, dot, rank, ih, Int.mul_comm]

theorem prod_pos_of_inRange {ns idx : List Int} (h : InRange ns idx) : 0 < prod ns := by
  induction ns generalizing idx with
  | nil => simp [prod]
  | cons n r ih =>
    cases idx with
    | nil => simp [InRange] at h
    | cons i is =>
      obtain ⟨⟨h1, h2⟩, h3⟩ := h
      exact Int.mul_pos (by omega) (ih h3)

theorem rank_bounds {ns idx : List Int} (h : InRange ns idx) : 0 ≤ rank ns idx ∧ rank ns idx < prod ns := by
  induction ns generalizing idx with
  | nil => cases idx <;> simp_all [InRange, rank, prod]
  | cons n r ih =>
    cases idx with
    | nil => simp [InRange] at h
    | cons i is =>
      obtain ⟨⟨h1, h2⟩, h3⟩ := h
      have := ih h3
      simp only [rank, prod]
      have hp := prod_pos_of_inRange h3
      have a1 : 0 ≤ i * prod r := Int.mul_nonneg h1 (by omega)
      have a2 : (i + 1) * prod r ≤ n * prod r := Int.mul_le_mul_of_nonneg_right (by omega) (by omega)
      rw [Int.add_mul] at a2
      omega

theorem rank_injective {ns a b : List Int} (ha : InRange ns a) (hb : InRange ns b)
    (h : rank ns a = rank ns b) : a = b := by
  induction ns generalizing a b with
  | nil => cases a <;> cases b <;> simp_all [InRange]
  | cons n r ih =>
    cases a with
    | nil => simp [InRange] at ha
    | cons i is =>
      cases b with
      | nil => simp [InRange] at hb
      | cons j js =>
        obtain ⟨_, ha2⟩ := ha
        obtain ⟨_, hb2⟩ := hb
        simp only [rank] at h
        have b1 := rank_bounds ha2
        have b2 := rank_bounds hb2
        have hij : i = j := by
          rcases Int.lt_trichotomy i j with hlt | heq | hgt
          · have : (i + 1) * prod r ≤ j * prod r := Int.mul_le_mul_of_nonneg_right (by omega) (by omega)
            rw [Int.add_mul] at this; omega
          · exact heq
          · have : (j + 1) * prod r ≤ i * prod r := Int.mul_le_mul_of_nonneg_right (by omega) (by omega)
            rw [Int.add_mul] at this; omega
        subst hij
        rw [ih ha2 hb2 (by omega)]

theorem rank_surjective (ns : List Int) (hpos : ∀ n ∈ ns, 0 < n) (k : Int) (h0 : 0 ≤ k) (h1 : k < prod ns) :
    ∃ idx, InRange ns idx ∧ rank ns idx = k := by
  induction ns generalizing k with
  | nil => exact ⟨[], by simp [InRange], by simp [prod] at h1; simp [rank]; omega⟩
  | cons n r ih =>
    have hr : ∀ n ∈ r, 0 < n := fun m hm => hpos m (by simp [hm])
    have hp : 0 < prod r := by
      clear ih h1 hpos
      induction r with
      | nil => simp [prod]
      | cons m r ih2 =>
        exact Int.mul_pos (hr m (by simp)) (ih2 (fun x hx => hr x (by simp [hx])))
    have hq := Int.emod_nonneg k (show prod r ≠ 0 by omega)
    have hq2 := Int.emod_lt_of_pos k hp
    obtain ⟨is, his, hk⟩ := ih hr (k % prod r) hq hq2
    refine ⟨(k / prod r) :: is, ⟨⟨Int.ediv_nonneg h0 (by omega), ?_⟩, his⟩, ?_⟩
    · rw [Int.ediv_lt_iff_lt_mul hp]; exact h1
    · simp only [rank, hk]
      have := Int.mul_ediv_add_emod k (prod r)
      rw [Int.mul_comm] at this; exact this

theorem rank_lex {ns a b : List Int} (ha : InRange ns a) (hb : InRange ns b) (h : Lex a b) :
    rank ns a < rank ns b := by
  induction ns generalizing a b with
  | nil => cases a <;> cases b <;> simp_all [InRange, Lex]
  | cons n r ih =>
    cases a with
    | nil => simp [InRange] at ha
    | cons i is =>
      cases b with
      | nil => simp [InRange] at hb
      | cons j js =>
        obtain ⟨_, ha2⟩ := ha
        obtain ⟨_, hb2⟩ := hb
        simp only [rank]
        have b1 := rank_bounds ha2
        have b2 := rank_bounds hb2
        rcases h with hlt | ⟨rfl, hlex⟩
        · have : (i + 1) * prod r ≤ j * prod r := Int.mul_le_mul_of_nonneg_right (by omega) (by omega)
          rw [Int.add_mul] at this; omega
        · have := ih ha2 hb2 hlex; omega

theorem eval_total_aux {ρ : Val} (l : List Expr) (ns : List Int) (h : Vals ρ l ns) (acc : Expr) (a : Int)
    (ha : acc.eval ρ = .fin a) :
    (l.foldl (fun t d => Expr.mul [t, d]) acc).eval ρ = .fin (a * prod ns) := by
  induction l generalizing ns acc a with
  | nil => cases ns <;> simp_all [Vals, prod]
  | cons e r ih =>
    obtain ⟨n, ns', rfl, he, hr⟩ := vals_cons h
    simp only [List.foldl_cons, prod]
    rw [ih ns' hr _ _ (eval_mul2 ha he), Int.mul_assoc]

/-! ### C25 -/

/-- C25: `total_elements` is the number of elements. -/
theorem total_elements_value (ρ : Val) (shape : List Expr) (ns : List Int) (h : Vals ρ shape ns) :
    (totalElements shape).eval ρ = .fin (prod ns) := by
  have := eval_total_aux shape ns h (.int 1) 1 (by simp [Expr.eval])
  simpa [totalElements] using this

/-- C25: for a tensor built from a shape, the address map is a bijection between in-range index tuples and
`0 .. total_elements-1`, and it follows row-major (lexicographic) order. -/
theorem row_major_bijection (ρ : Val) (p : Prim) (shape : List Expr) (ns : List Int)
    (hs : Vals ρ shape ns) :
    ∃ strides, (Tensor.ofShape p shape).Layout ρ ns strides 0 ∧
      (totalElements (Tensor.ofShape p shape).shape).eval ρ = .fin (prod ns) ∧
      (∀ idx, InRange ns idx → 0 ≤ addr strides 0 idx ∧ addr strides 0 idx < prod ns) ∧
      (∀ a b, InRange ns a → InRange ns b → addr strides 0 a = addr strides 0 b → a = b) ∧
      ((∀ n ∈ ns, 0 < n) → ∀ k, 0 ≤ k → k < prod ns → ∃ idx, InRange ns idx ∧ addr strides 0 idx = k) ∧
      (∀ a b, InRange ns a → InRange ns b → Lex a b → addr strides 0 a < addr strides 0 b) := by
  have ea : ∀ idx, addr (rowMajor ns) 0 idx = rank ns idx := by
    intro idx; simp [addr, dot_rowMajor]
  refine ⟨rowMajor ns, ⟨hs, stridesFromShape_vals shape hs, by simp [Tensor.ofShape, Expr.eval]⟩,
    total_elements_value ρ shape ns hs, ?_, ?_, ?_, ?_⟩
  · intro idx h; rw [ea]; exact rank_bounds h
  · intro a b ha hb h; rw [ea, ea] at h; exact rank_injective ha hb h
  · intro hp k h0 h1
    obtain ⟨idx, hi, hk⟩ := rank_surjective ns hp k h0 h1
    exact ⟨idx, hi, by rw [ea]; exact hk⟩
  · intro a b ha hb h; rw [ea, ea]; exact rank_lex ha hb h

/-- A symbolic 3-d tensor `N x 4 x M` at `N = 2`, `M = 3`. -/
example : Vals ⟨fun x => if x = "N" then 2 else 3, fun _ _ => 0⟩ [.sym "N", .int 4, .sym "M"] [2, 4, 3] ∧
    InRange [2, 4, 3] [1, 3, 2] ∧ prod [2, 4, 3] = 24 := by
  refine ⟨rfl, ?_, rfl⟩
  simp [InRange]

/-! ### C26 -/

theorem vals_insertIdx {ρ : Val} (l : List Expr) (ns : List Int) (h : Vals ρ l ns) (e : Expr) (n : Int)
    (he : e.eval ρ = .fin n) (k : Nat) : Vals ρ (l.insertIdx k e) (ns.insertIdx k n) := by
  induction k generalizing l ns with
  | zero => simpa using vals_mk he h
  | succ k ih =>
    cases l with
    | nil => cases ns <;> simp_all [Vals]
    | cons a r =>
      obtain ⟨m, ms, rfl, ha, hr⟩ := vals_cons h
      simp only [List.insertIdx_succ_cons]
      exact vals_mk ha (ih r ms hr)

theorem vals_eraseIdx {ρ : Val} (l : List Expr) (ns : List Int) (h : Vals ρ l ns) (k : Nat) :
    Vals ρ (l.eraseIdx k) (ns.eraseIdx k) := by
  induction k generalizing l ns with
  | zero =>
    cases l with
    | nil => cases ns <;> simp_all [Vals]
    | cons a r => obtain ⟨m, ms, rfl, ha, hr⟩ := vals_cons h; simpa using hr
  | succ k ih =>
    cases l with
    | nil => cases ns <;> simp_all [Vals]
    | cons a r =>
      obtain ⟨m, ms, rfl, ha, hr⟩ := vals_cons h
      simp only [List.eraseIdx_cons_succ]
      exact vals_mk ha (ih r ms hr)

theorem vals_set {ρ : Val} (l : List Expr) (ns : List Int) (h : Vals ρ l ns) (e : Expr) (n : Int)
    (he : e.eval ρ = .fin n) (k : Nat) : Vals ρ (l.set k e) (ns.set k n) := by
  unfold Vals at *
  rw [List.map_set, List.map_set, h, he]

theorem vals_get {ρ : Val} {l : List Expr} {ns : List Int} (h : Vals ρ l ns) (k : Nat) (e : Expr)
    (he : l[k]? = some e) : ∃ n, ns[k]? = some n ∧ e.eval ρ = .fin n := by
  have : (l.map (Expr.eval ρ))[k]? = (ns.map V.fin)[k]? := by rw [h]
  simp only [List.getElem?_map, he, Option.map_some] at this
  cases hn : ns[k]? with
  | none => simp [hn] at this
  | some n => exact ⟨n, rfl, by simpa [hn] using this⟩

theorem dot_insertIdx_zero (ss idx : List Int) (k : Nat) (i : Int) (hk : k ≤ ss.length)
    (hl : idx.length = ss.length) :
    dot (ss.insertIdx k 0) (idx.insertIdx k i) = dot ss idx := by
  induction k generalizing ss idx with
  | zero => simp [dot]
  | succ k ih =>
    cases ss with
    | nil => simp at hk
    | cons s ss =>
      cases idx with
      | nil => simp at hl
      | cons j js =>
        simp only [List.insertIdx_succ_cons, dot]
        rw [ih ss js (by simpa using hk) (by simpa using hl)]

theorem dot_set (ss idx : List Int) (k : Nat) (s i j : Int) (hs : ss[k]? = some s) (hi : idx[k]? = some i) :
    dot ss (idx.set k j) = dot ss idx + s * (j - i) := by
  induction k generalizing ss idx with
  | zero =>
    cases ss <;> cases idx <;> simp_all
    simp [dot, Int.mul_sub]; omega
  | succ k ih =>
    cases ss with
    | nil => simp at hs
    | cons a ss =>
      cases idx with
      | nil => simp at hi
      | cons b idx =>
        simp only [List.getElem?_cons_succ] at hs hi
        simp only [List.set_cons_succ, dot]
        rw [ih ss idx hs hi]; omega

theorem dot_stride_set (ss idx : List Int) (k : Nat) (s t i : Int) (hs : ss[k]? = some s) (hi : idx[k]? = some i) :
    dot (ss.set k t) idx = dot ss idx + (t - s) * i := by
  induction k generalizing ss idx with
  | zero =>
    cases ss <;> cases idx <;> simp_all
    simp [dot, Int.sub_mul]; omega
  | succ k ih =>
    cases ss with
    | nil => simp at hs
    | cons a ss =>
      cases idx with
      | nil => simp at hi
      | cons b idx =>
        simp only [List.getElem?_cons_succ] at hs hi
        simp only [List.set_cons_succ, dot]
        rw [ih ss idx hs hi]; omega

/-- C26 newaxis/unsqueeze: a length-one axis is inserted; whatever index is used on it, the view addresses the
element of the original at the remaining indices. -/
theorem newaxis_addresses (t t' : Tensor) (axis : Nat) (ρ : Val) (ns ss : List Int) (off : Int)
    (hL : t.Layout ρ ns ss off) (hlen : ss.length = ns.length) (h : t.newaxis axis = .ok t') :
    t'.elem = t.elem ∧ t'.Layout ρ (ns.insertIdx axis 1) (ss.insertIdx axis 0) off ∧
    ∀ idx i, idx.length = ns.length → addr (ss.insertIdx axis 0) off (idx.insertIdx axis i) = addr ss off idx := by
  unfold Tensor.newaxis at h
  split at h
  · simp at h
  · rename_i hk
    simp only [Res.ok.injEq] at h; subst h
    have hk' : axis ≤ ss.length := by have := hL.shape.length; omega
    refine ⟨rfl, ⟨vals_insertIdx _ _ hL.shape _ _ (by simp [Expr.eval]) _,
      vals_insertIdx _ _ hL.strides _ _ (by simp [Expr.eval]) _, hL.offset⟩, ?_⟩
    intro idx i hi
    simp only [addr]
    rw [dot_insertIdx_zero ss idx axis i hk' (by omega)]

/-- newaxis rejects exactly the axes beyond the rank -/
theorem newaxis_total (t : Tensor) (axis : Nat) : (∃ t', t.newaxis axis = .ok t') ↔ axis ≤ t.shape.length := by
  unfold Tensor.newaxis
  split <;> simp <;> omega

/-- C26 flip: index `i` on the flipped axis of extent `n` addresses the original element at `n-1-i`. -/
theorem flip_addresses (t t' : Tensor) (axis : Nat) (ρ : Val) (ns ss : List Int) (off : Int)
    (hL : t.Layout ρ ns ss off) (h : t.flip axis = .ok t') :
    ∃ ss' off', t'.elem = t.elem ∧ t'.Layout ρ ns ss' off' ∧
      ∀ idx i n, idx[axis]? = some i → ns[axis]? = some n →
        addr ss' off' idx = addr ss off (idx.set axis (n - 1 - i)) := by
  unfold Tensor.flip at h
  split at h
  · simp at h
  · rename_i nE hn
    split at h
    · simp at h
    · rename_i sE hsE
      simp only [Res.ok.injEq] at h; subst h
      obtain ⟨n, hn1, hn2⟩ := vals_get hL.shape axis nE hn
      obtain ⟨s, hs1, hs2⟩ := vals_get hL.strides axis sE hsE
      refine ⟨ss.set axis (-1 * s), off + s * (n + -1), rfl, ⟨hL.shape, ?_, ?_⟩, ?_⟩
      · exact vals_set _ _ hL.strides _ _ (eval_mul2 (by simp [Expr.eval]) hs2) _
      · exact eval_add2 hL.offset (eval_mul2 hs2 (eval_add2 hn2 (by simp [Expr.eval])))
      · intro idx i n' hi hn'
        rw [hn1] at hn'; injection hn' with hn'; subst hn'
        simp only [addr]
        rw [dot_set ss idx axis s i (n - 1 - i) hs1 hi, dot_stride_set ss idx axis s (-1 * s) i hs1 hi]
        have e1 : (-1 * s - s) * i = -(s * i) - s * i := by rw [Int.sub_mul]; simp [Int.neg_mul]
        have e2 : s * (n - 1 - i - i) = s * n - s - s * i - s * i := by simp [Int.mul_sub]
        have e3 : s * (n + -1) = s * n - s := by simp [Int.mul_add, Int.sub_eq_add_neg]
        rw [e1, e2, e3]; omega

/-- C26 flip is an involution on layouts. -/
theorem flip_flip (t t' t'' : Tensor) (axis : Nat) (ρ : Val) (ns ss : List Int) (off : Int)
    (hL : t.Layout ρ ns ss off) (h : t.flip axis = .ok t') (h' : t'.flip axis = .ok t'') :
    t''.Layout ρ ns ss off := by
  unfold Tensor.flip at h
  split at h
  · simp at h
  · rename_i nE hn
    split at h
    · simp at h
    · rename_i sE hsE
      simp only [Res.ok.injEq] at h; subst h
      obtain ⟨n, hn1, hn2⟩ := vals_get hL.shape axis nE hn
      obtain ⟨s, hs1, hs2⟩ := vals_get hL.strides axis sE hsE
      have hlt : axis < t.strides.length := by
        rw [List.getElem?_eq_some_iff] at hsE; exact hsE.1
      unfold Tensor.flip at h'
      simp only [hn, List.getElem?_set_self hlt, Res.ok.injEq] at h'
      subst h'
      have hm1 : (Expr.int (-1)).eval ρ = .fin (-1) := by simp [Expr.eval]
      have e0 := eval_mul2 hm1 hs2
      refine ⟨hL.shape, ?_, ?_⟩
      · have h1 := vals_set _ _ hL.strides _ _ e0 axis
        have h2 := vals_set _ _ h1 _ _ (eval_mul2 hm1 e0) axis
        have e3 : -1 * (-1 * s) = s := by omega
        rw [e3, List.set_set, List.set_set] at h2
        have e4 : ss.set axis s = ss := by
          rw [List.getElem?_eq_some_iff] at hs1
          obtain ⟨hl, he⟩ := hs1
          rw [← he]; simp
        rw [e4] at h2
        simpa using h2
      · have h2 := eval_add2 (eval_add2 hL.offset (eval_mul2 hs2 (eval_add2 hn2 hm1)))
          (eval_mul2 e0 (eval_add2 hn2 hm1))
        have e3 : off + s * (n + -1) + -1 * s * (n + -1) = off := by
          have : -1 * s * (n + -1) = -(s * (n + -1)) := by rw [Int.mul_assoc]; omega
          omega
        rw [e3] at h2
        exact h2

theorem dot_eraseIdx (ss idx : List Int) (k : Nat) (hi : idx[k]? = some 0) :
    dot (ss.eraseIdx k) (idx.eraseIdx k) = dot ss idx := by
  induction k generalizing ss idx with
  | zero => cases ss <;> cases idx <;> simp_all [dot]
  | succ k ih =>
    cases ss with
    | nil => cases idx <;> simp_all [dot]
    | cons a ss =>
      cases idx with
      | nil => simp at hi
      | cons b idx =>
        simp only [List.getElem?_cons_succ] at hi
        simp only [List.eraseIdx_cons_succ, dot]
        rw [ih ss idx hi]

theorem inRange_get {ns idx : List Int} (h : InRange ns idx) (k : Nat) (n : Int) (hn : ns[k]? = some n) :
    ∃ i, idx[k]? = some i ∧ 0 ≤ i ∧ i < n := by
  induction k generalizing ns idx with
  | zero => cases ns <;> cases idx <;> simp_all [InRange]
  | succ k ih =>
    cases ns <;> cases idx <;> simp_all [InRange]
    exact ih h.2 hn

/-- C26 squeeze(axis): accepted exactly for literal extent 1; the view at the remaining indices addresses the
original element. -/
theorem squeeze_addresses (t t' : Tensor) (axis : Nat) (ρ : Val) (ns ss : List Int) (off : Int)
    (hL : t.Layout ρ ns ss off) (h : t.squeeze axis = .ok t') :
    t'.elem = t.elem ∧ t'.Layout ρ (ns.eraseIdx axis) (ss.eraseIdx axis) off ∧ ns[axis]? = some 1 ∧
    ∀ idx, InRange ns idx → addr (ss.eraseIdx axis) off (idx.eraseIdx axis) = addr ss off idx := by
  unfold Tensor.squeeze at h
  split at h
  · simp at h
  · rename_i nE hn
    split at h
    · rename_i h1
      split at h
      · simp only [Res.ok.injEq] at h; subst h
        obtain ⟨n, hn1, hn2⟩ := vals_get hL.shape axis nE hn
        subst h1
        simp [Expr.eval] at hn2; subst hn2
        refine ⟨rfl, ⟨vals_eraseIdx _ _ hL.shape _, vals_eraseIdx _ _ hL.strides _, hL.offset⟩, hn1, ?_⟩
        intro idx hr
        obtain ⟨i, hi, h0, h1⟩ := inRange_get hr axis 1 hn1
        have : i = 0 := by omega
        subst this
        simp only [addr, dot_eraseIdx ss idx axis hi]
      · simp at h
    · simp at h

/-- drop the index of every axis whose extent is the literal 1 -/
def dropOnes : List Expr → List Int → List Int
  | n :: ns, i :: is => if n = .int 1 then dropOnes ns is else i :: dropOnes ns is
  | _, _ => []

/-- C26 squeeze(): all literal length-one axes vanish; remaining indices address the original elements. -/
theorem squeezeAll_addresses (t t' : Tensor) (ρ : Val) (ns ss : List Int) (off : Int)
    (hL : t.Layout ρ ns ss off) (h : t.squeezeAll = .ok t') :
    ∃ ns' ss', t'.elem = t.elem ∧ t'.Layout ρ ns' ss' off ∧ (∀ e ∈ t'.shape, e ≠ .int 1) ∧
      ∀ idx, InRange ns idx → InRange ns' (dropOnes t.shape idx) ∧
        addr ss' off (dropOnes t.shape idx) = addr ss off idx := by
  have key : ∀ (l m : List Expr) (ns ss : List Int), Vals ρ l ns → Vals ρ m ss → l.length ≤ m.length →
      ∃ ns' ss', Vals ρ (squeezeAxes l m).1 ns' ∧ Vals ρ (squeezeAxes l m).2 ss' ∧
        (∀ e ∈ (squeezeAxes l m).1, e ≠ .int 1) ∧
        ∀ idx, InRange ns idx → InRange ns' (dropOnes l idx) ∧ dot ss' (dropOnes l idx) = dot ss idx := by
    intro l
    induction l with
    | nil =>
      intro m ns ss h1 h2 _
      cases ns with
      | cons _ _ => simp [Vals] at h1
      | nil =>
        refine ⟨[], [], by simp [squeezeAxes, Vals], by simp [squeezeAxes, Vals], by simp [squeezeAxes], ?_⟩
        intro idx hi
        cases idx with
        | nil => cases ss <;> simp [InRange, dropOnes, dot]
        | cons _ _ => simp [InRange] at hi
    | cons a l ih =>
      intro m ns ss h1 h2 hle
      cases m with
      | nil => simp at hle
      | cons b m =>
        obtain ⟨n, ns1, rfl, ha, hl⟩ := vals_cons h1
        obtain ⟨s, ss1, rfl, hb, hm⟩ := vals_cons h2
        obtain ⟨ns', ss', e1, e2, e3, e4⟩ := ih m ns1 ss1 hl hm (by simpa using hle)
        by_cases hone : a = .int 1
        · subst hone
          simp [Expr.eval] at ha; subst ha
          refine ⟨ns', ss', by simpa [squeezeAxes] using e1, by simpa [squeezeAxes] using e2,
            by simpa [squeezeAxes] using e3, ?_⟩
          intro idx hi
          cases idx with
          | nil => simp [InRange] at hi
          | cons i is =>
            obtain ⟨⟨hi1, hi2⟩, hi3⟩ := hi
            have : i = 0 := by omega
            subst this
            have := e4 is hi3
            simp only [dropOnes, if_pos]
            exact ⟨this.1, by simp [dot, this.2]⟩
        · refine ⟨n :: ns', s :: ss', ?_, ?_, ?_, ?_⟩
          · simp only [squeezeAxes, if_neg hone]; exact vals_mk ha e1
          · simp only [squeezeAxes, if_neg hone]; exact vals_mk hb e2
          · simp only [squeezeAxes, if_neg hone]
            intro e he
            rcases List.mem_cons.1 he with rfl | he
            · exact hone
            · exact e3 e he
          · intro idx hi
            cases idx with
            | nil => simp [InRange] at hi
            | cons i is =>
              obtain ⟨hi1, hi3⟩ := hi
              have := e4 is hi3
              simp only [dropOnes, if_neg hone]
              exact ⟨⟨hi1, this.1⟩, by simp [dot, this.2]⟩
  unfold Tensor.squeezeAll at h
  split at h
  · rename_i hle
    simp only [Res.ok.injEq] at h; subst h
    obtain ⟨ns', ss', e1, e2, e3, e4⟩ := key t.shape t.strides ns ss hL.shape hL.strides hle
    exact ⟨ns', ss', rfl, ⟨e1, e2, hL.offset⟩, e3, fun idx hi => ⟨(e4 idx hi).1, by simp [addr, (e4 idx hi).2]⟩⟩
  · simp at h

/-- instances: flip and squeeze of concrete tensors are accepted -/
example : ∃ t', (Tensor.ofShape .float [.sym "N", .int 1, .int 3]).flip 2 = .ok t' ∧
    (∃ t'', t'.squeeze 1 = .ok t'') ∧ (∃ t'', t'.newaxis 3 = .ok t'') ∧ (∃ t'', t'.squeezeAll = .ok t'') :=
  ⟨_, rfl, ⟨_, rfl⟩, ⟨_, rfl⟩, ⟨_, rfl⟩⟩

/-! ### C27 -/

/-- C27 (partial): when the tensor is contiguous row-major, reshape keeps the row-major element order: positions
with equal rank have equal addresses.  Missing: the code does not check the strides; for other layouts the claim
is false (`reshape_strided_violated`). -/
theorem reshape_order_partial (eqv : Expr → Expr → Bool) (t t' : Tensor) (newShape : List Expr) (ρ : Val)
    (ns ms ss : List Int) (off : Int)
    (heqv : ∀ a b, eqv a b = true → a.eval ρ = b.eval ρ)
    (hL : t.Layout ρ ns ss off) (hrow : ss = rowMajor ns) (hm : Vals ρ newShape ms)
    (h : t.reshape eqv newShape = .ok t') :
    ∃ ss', t'.elem = t.elem ∧ t'.Layout ρ ms ss' off ∧ prod ms = prod ns ∧
      ∀ a b, InRange ns a → InRange ms b → rank ns a = rank ms b → addr ss off a = addr ss' off b := by
  unfold Tensor.reshape at h
  split at h
  · rename_i he
    simp only [Res.ok.injEq] at h; subst h
    refine ⟨rowMajor ms, rfl, ⟨hm, stridesFromShape_vals _ hm, hL.offset⟩, ?_, ?_⟩
    · have := heqv _ _ he
      rw [total_elements_value ρ _ _ hL.shape, total_elements_value ρ _ _ hm] at this
      injection this with this; exact this.symm
    · intro a b _ _ hr
      subst hrow
      simp [addr, dot_rowMajor, hr]
  · simp at h

example : ∃ t', (Tensor.ofShape .float [.int 2, .int 6]).reshape (fun a b => a.eval ⟨fun _ => 0, fun _ _ => 0⟩ == b.eval ⟨fun _ => 0, fun _ _ => 0⟩) [.int 3, .int 4] = .ok t' ∧
    rank [2, 6] [1, 2] = rank [3, 4] [2, 0] := ⟨_, rfl, rfl⟩

/-- C27 is false for strided layouts: the transposed view (shape 2x2, strides 1,2) of a row-major matrix is
reshaped to a flat tensor, and element number 1 of the result (address 1) is not element number 1 of the view
(address 2), for every equality test that accepts equal terms' values. -/
theorem reshape_strided_violated :
    ∃ (t t' : Tensor) (ρ : Val) (newShape : List Expr),
      t.Layout ρ [2, 2] [1, 2] 0 ∧
      t.reshape (fun a b => a.eval ρ == b.eval ρ) newShape = .ok t' ∧ t'.Layout ρ [4] [1] 0 ∧
      rank [2, 2] [0, 1] = rank [4] [1] ∧ addr [1, 2] 0 [0, 1] ≠ addr [1] 0 [1] := by
  refine ⟨⟨.float, [.int 2, .int 2], [.int 1, .int 2], .int 0⟩, _, ⟨fun _ => 0, fun _ _ => 0⟩, [.int 4],
    ⟨rfl, rfl, rfl⟩, rfl, ⟨rfl, rfl, rfl⟩, rfl, by decide⟩

end Docc.Types
