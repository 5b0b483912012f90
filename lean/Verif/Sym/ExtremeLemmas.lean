import Verif.Sym.Extreme
import Mathlib.Data.EReal.Inv

/-
Auxiliary facts: `V` without NaN embeds in the extended reals, where `0 * ∞ = 0` makes interval
multiplication monotone in each factor.
-/
namespace Docc.Sym

/-- embedding of the proper values in the extended reals (NaN is sent to 0, never used) -/
noncomputable def V.toE : V → EReal
  | .fin n => ((n : ℝ) : EReal)
  | .pinf => ⊤
  | .ninf => ⊥
  | .nan => 0

theorem V.le_def {a b : V} : a ≤ b ↔ V.le a b := Iff.rfl

theorem V.le_iff {a b : V} (ha : a ≠ .nan) (hb : b ≠ .nan) : a ≤ b ↔ a.toE ≤ b.toE := by
  change V.le a b ↔ _
  cases a <;> cases b <;> simp_all [V.le, V.toE]

theorem V.add_ne_nan {a b : V} (h : V.add a b ≠ .nan) : a ≠ .nan ∧ b ≠ .nan := by
  cases a <;> cases b <;> simp_all [V.add]

theorem V.mul_ne_nan {a b : V} (h : V.mul a b ≠ .nan) : a ≠ .nan ∧ b ≠ .nan := by
  cases a <;> cases b <;> simp_all [V.mul]

theorem V.max_ne_nan {a b : V} : V.max a b ≠ .nan ↔ a ≠ .nan ∧ b ≠ .nan := by
  cases a <;> cases b <;> simp_all [V.max]

theorem V.min_ne_nan {a b : V} : V.min a b ≠ .nan ↔ a ≠ .nan ∧ b ≠ .nan := by
  cases a <;> cases b <;> simp_all [V.min]

theorem V.toE_mul {a b : V} (h : V.mul a b ≠ .nan) : (V.mul a b).toE = a.toE * b.toE := by
  have key : ∀ (p : Bool) (n : Int), V.scaleInf p n ≠ .nan →
      (V.scaleInf p n).toE = (if p then (⊤ : EReal) else ⊥) * ((n : ℝ) : EReal) := by
    intro p n hn
    unfold V.scaleInf at hn ⊢
    by_cases h0 : n = 0
    · simp [h0] at hn
    · rw [if_neg h0]
      rcases lt_or_gt_of_ne h0 with hl | hg
      · have : ((n : ℝ) : EReal) < 0 := by exact_mod_cast hl
        cases p
        · simp only [Bool.false_eq_true, if_false]
          rw [EReal.bot_mul_of_neg this, if_pos (by simp; omega)]; rfl
        · simp only [if_true]
          rw [EReal.top_mul_of_neg this, if_neg (by simp; omega)]; rfl
      · have : 0 < ((n : ℝ) : EReal) := by exact_mod_cast hg
        cases p
        · simp only [Bool.false_eq_true, if_false]
          rw [EReal.bot_mul_of_pos this, if_neg (by simp; omega)]; rfl
        · simp only [if_true]
          rw [EReal.top_mul_of_pos this, if_pos (by simp; omega)]; rfl
  cases a <;> cases b <;> simp only [V.mul] at h ⊢
  case fin.fin => simp [V.toE, EReal.coe_mul]
  case fin.pinf n => rw [key true n h, mul_comm]; rfl
  case fin.ninf n => rw [key false n h, mul_comm]; rfl
  case pinf.fin n => rw [key true n h]; rfl
  case ninf.fin n => rw [key false n h]; rfl
  all_goals first | exact absurd rfl h | simp [V.toE]

theorem V.add_mono {a b c d : V} (h1 : V.add a b ≠ .nan) (h2 : V.add c d ≠ .nan)
    (hac : a ≤ c) (hbd : b ≤ d) : V.add a b ≤ V.add c d := by
  change V.le _ _ at hac hbd ⊢
  cases a <;> cases b <;> cases c <;> cases d <;> simp_all [V.add, V.le]
  omega

theorem V.le_refl {a : V} (h : a ≠ .nan) : a ≤ a := by
  change V.le _ _
  cases a <;> simp_all [V.le]

theorem V.le_trans {a b c : V} (h1 : a ≤ b) (h2 : b ≤ c) : a ≤ c := by
  change V.le _ _ at h1 h2 ⊢
  cases a <;> cases b <;> cases c <;> simp_all [V.le]
  omega

theorem V.ne_nan_of_le {a b : V} (h : a ≤ b) : a ≠ .nan ∧ b ≠ .nan := by
  change V.le _ _ at h
  cases a <;> cases b <;> simp_all [V.le]

theorem V.min_le {a b : V} (h : V.min a b ≠ .nan) : V.min a b ≤ a ∧ V.min a b ≤ b := by
  change V.le _ _ ∧ V.le _ _
  cases a <;> cases b <;> simp_all [V.min, V.le]
  split <;> omega

theorem V.le_max {a b : V} (h : V.max a b ≠ .nan) : a ≤ V.max a b ∧ b ≤ V.max a b := by
  change V.le _ _ ∧ V.le _ _
  cases a <;> cases b <;> simp_all [V.max, V.le]
  split <;> omega

theorem V.le_min {a b c : V} (h1 : c ≤ a) (h2 : c ≤ b) : c ≤ V.min a b := by
  change V.le _ _ at h1 h2 ⊢
  cases a <;> cases b <;> cases c <;> simp_all [V.min, V.le]
  split <;> omega

theorem V.max_le {a b c : V} (h1 : a ≤ c) (h2 : b ≤ c) : V.max a b ≤ c := by
  change V.le _ _ at h1 h2 ⊢
  cases a <;> cases b <;> cases c <;> simp_all [V.max, V.le]
  split <;> omega

theorem V.mul_one (a : V) : V.mul a (.fin 1) = a := by
  cases a <;> simp [V.mul, V.scaleInf]

theorem V.add_zero (a : V) : V.add a (.fin 0) = a := by
  cases a <;> simp [V.add]

/-! ### folds -/

theorem foldl_min_ne_nan (l : List V) (a : V) :
    l.foldl V.min a ≠ .nan ↔ a ≠ .nan ∧ ∀ v ∈ l, v ≠ .nan := by
  induction l generalizing a with
  | nil => simp
  | cons b r ih => simp [ih, V.min_ne_nan]; tauto

theorem foldl_max_ne_nan (l : List V) (a : V) :
    l.foldl V.max a ≠ .nan ↔ a ≠ .nan ∧ ∀ v ∈ l, v ≠ .nan := by
  induction l generalizing a with
  | nil => simp
  | cons b r ih => simp [ih, V.max_ne_nan]; tauto

theorem foldl_min_le (l : List V) (a : V) (h : l.foldl V.min a ≠ .nan) :
    l.foldl V.min a ≤ a ∧ ∀ v ∈ l, l.foldl V.min a ≤ v := by
  induction l generalizing a with
  | nil => exact ⟨V.le_refl (by simpa using h), by simp⟩
  | cons b r ih =>
    simp only [List.foldl_cons] at h ⊢
    obtain ⟨h1, h2⟩ := ih _ h
    have hm := V.min_le ((foldl_min_ne_nan _ _).1 h).1
    refine ⟨V.le_trans h1 hm.1, ?_⟩
    intro v hv
    rcases List.mem_cons.1 hv with rfl | hv
    · exact V.le_trans h1 hm.2
    · exact h2 v hv

theorem le_foldl_max (l : List V) (a : V) (h : l.foldl V.max a ≠ .nan) :
    a ≤ l.foldl V.max a ∧ ∀ v ∈ l, v ≤ l.foldl V.max a := by
  induction l generalizing a with
  | nil => exact ⟨V.le_refl (by simpa using h), by simp⟩
  | cons b r ih =>
    simp only [List.foldl_cons] at h ⊢
    obtain ⟨h1, h2⟩ := ih _ h
    have hm := V.le_max ((foldl_max_ne_nan _ _).1 h).1
    refine ⟨V.le_trans hm.1 h1, ?_⟩
    intro v hv
    rcases List.mem_cons.1 hv with rfl | hv
    · exact V.le_trans hm.2 h1
    · exact h2 v hv

theorem foldl_max_mem (l : List V) (a : V) : l.foldl V.max a = .nan ∨ l.foldl V.max a ∈ a :: l := by
  induction l generalizing a with
  | nil => simp
  | cons b r ih =>
    simp only [List.foldl_cons]
    rcases ih (V.max a b) with h | h
    · exact .inl h
    · rcases List.mem_cons.1 h with h | h
      · rw [h]
        cases a <;> cases b <;> simp [V.max]
        split <;> simp_all
      · right; simp [h]

theorem foldl_min_mem (l : List V) (a : V) : l.foldl V.min a = .nan ∨ l.foldl V.min a ∈ a :: l := by
  induction l generalizing a with
  | nil => simp
  | cons b r ih =>
    simp only [List.foldl_cons]
    rcases ih (V.min a b) with h | h
    · exact .inl h
    · rcases List.mem_cons.1 h with h | h
      · rw [h]
        cases a <;> cases b <;> simp [V.min]
        split <;> simp_all
      · right; simp [h]

theorem foldr_add_ne_nan (l : List V) (h : l.foldr V.add (.fin 0) ≠ .nan) : ∀ v ∈ l, v ≠ .nan := by
  induction l with
  | nil => simp
  | cons a r ih =>
    simp only [List.foldr_cons] at h
    have := V.add_ne_nan h
    intro v hv
    rcases List.mem_cons.1 hv with rfl | hv
    · exact this.1
    · exact ih this.2 v hv

theorem foldr_mul_ne_nan (l : List V) (h : l.foldr V.mul (.fin 1) ≠ .nan) : ∀ v ∈ l, v ≠ .nan := by
  induction l with
  | nil => simp
  | cons a r ih =>
    simp only [List.foldr_cons] at h
    have := V.mul_ne_nan h
    intro v hv
    rcases List.mem_cons.1 hv with rfl | hv
    · exact this.1
    · exact ih this.2 v hv

theorem foldr_mul_toE (l : List V) (h : l.foldr V.mul (.fin 1) ≠ .nan) :
    (l.foldr V.mul (.fin 1)).toE = (l.map V.toE).prod := by
  induction l with
  | nil => simp [V.toE]
  | cons a r ih =>
    simp only [List.foldr_cons] at h
    simp only [List.foldr_cons, List.map_cons, List.prod_cons]
    rw [V.toE_mul h, ih (V.mul_ne_nan h).2]

theorem foldl_mul_ne_nan (l : List V) (a : V) (h : l.foldl V.mul a ≠ .nan) : a ≠ .nan ∧ ∀ v ∈ l, v ≠ .nan := by
  induction l generalizing a with
  | nil => simpa using h
  | cons b r ih =>
    simp only [List.foldl_cons] at h
    obtain ⟨h1, h2⟩ := ih _ h
    have := V.mul_ne_nan h1
    simp_all

theorem foldl_mul_toE (l : List V) (a : V) (h : l.foldl V.mul a ≠ .nan) :
    (l.foldl V.mul a).toE = a.toE * (l.map V.toE).prod := by
  induction l generalizing a with
  | nil => simp
  | cons b r ih =>
    simp only [List.foldl_cons] at h
    simp only [List.foldl_cons, List.map_cons, List.prod_cons]
    rw [ih _ h, V.toE_mul (foldl_mul_ne_nan _ _ h).1, mul_assoc]

/-! ### corners of a box in the extended reals -/

/-- pick one end of every interval -/
def pick {α : Type} : List (α × α) → List Bool → List α
  | b :: bs, c :: cs => (if c then b.2 else b.1) :: pick bs cs
  | _, _ => []

theorem exists_corner_le (l : List ((EReal × EReal) × EReal))
    (h : ∀ t ∈ l, t.1.1 ≤ t.2 ∧ t.2 ≤ t.1.2) (c : EReal) :
    ∃ cs : List Bool, cs.length = l.length ∧
      c * (pick (l.map Prod.fst) cs).prod ≤ c * (l.map Prod.snd).prod := by
  induction l generalizing c with
  | nil => exact ⟨[], rfl, le_of_eq rfl⟩
  | cons t r ih =>
    obtain ⟨⟨lo, hi⟩, x⟩ := t
    have ht := h ((lo, hi), x) (by simp)
    simp only at ht
    have hr : ∀ t ∈ r, t.1.1 ≤ t.2 ∧ t.2 ≤ t.1.2 := fun t ht => h t (by simp [ht])
    generalize hR : (r.map Prod.snd).prod = R at *
    have hb : ∃ b : Bool, c * (if b then hi else lo) * R ≤ c * (x * R) := by
      have e1 : ∀ y, c * y * R = y * (c * R) := fun y => by rw [mul_right_comm, mul_comm]
      have e2 : c * (x * R) = x * (c * R) := by rw [mul_left_comm]
      rcases le_total 0 (c * R) with h0 | h0
      · exact ⟨false, by simp only [Bool.false_eq_true, if_false]; rw [e1, e2]; exact mul_le_mul_of_nonneg_right ht.1 h0⟩
      · exact ⟨true, by simp only [if_true]; rw [e1, e2]; exact EReal.mul_le_mul_of_nonpos_right ht.2 h0⟩
    obtain ⟨b, hb⟩ := hb
    obtain ⟨cs, hl, hcs⟩ := ih hr (c * (if b then hi else lo))
    refine ⟨b :: cs, by simp [hl], ?_⟩
    simp only [List.map_cons, pick, List.prod_cons, hR]
    rw [← mul_assoc]
    exact le_trans hcs hb

theorem exists_corner_ge (l : List ((EReal × EReal) × EReal))
    (h : ∀ t ∈ l, t.1.1 ≤ t.2 ∧ t.2 ≤ t.1.2) (c : EReal) :
    ∃ cs : List Bool, cs.length = l.length ∧
      c * (l.map Prod.snd).prod ≤ c * (pick (l.map Prod.fst) cs).prod := by
  induction l generalizing c with
  | nil => exact ⟨[], rfl, le_of_eq rfl⟩
  | cons t r ih =>
    obtain ⟨⟨lo, hi⟩, x⟩ := t
    have ht := h ((lo, hi), x) (by simp)
    simp only at ht
    have hr : ∀ t ∈ r, t.1.1 ≤ t.2 ∧ t.2 ≤ t.1.2 := fun t ht => h t (by simp [ht])
    generalize hR : (r.map Prod.snd).prod = R at *
    have hb : ∃ b : Bool, c * (x * R) ≤ c * (if b then hi else lo) * R := by
      have e1 : ∀ y, c * y * R = y * (c * R) := fun y => by rw [mul_right_comm, mul_comm]
      have e2 : c * (x * R) = x * (c * R) := by rw [mul_left_comm]
      rcases le_total 0 (c * R) with h0 | h0
      · exact ⟨true, by simp only [if_true]; rw [e1, e2]; exact mul_le_mul_of_nonneg_right ht.2 h0⟩
      · exact ⟨false, by simp only [Bool.false_eq_true, if_false]; rw [e1, e2]; exact EReal.mul_le_mul_of_nonpos_right ht.1 h0⟩
    obtain ⟨b, hb⟩ := hb
    obtain ⟨cs, hl, hcs⟩ := ih hr (c * (if b then hi else lo))
    refine ⟨b :: cs, by simp [hl], ?_⟩
    simp only [List.map_cons, pick, List.prod_cons, hR]
    refine le_trans hb (le_trans hcs (le_of_eq ?_))
    rw [mul_assoc]

/-! ### the masks reach every corner -/

theorem exists_mask (cs : List Bool) (k : Nat) :
    ∃ m, m < 2 ^ (k + cs.length) ∧ ∀ i (h : i < cs.length), m.testBit (k + i) = cs[i] := by
  have base : ∀ cs : List Bool, ∃ m, m < 2 ^ cs.length ∧ ∀ i (h : i < cs.length), m.testBit i = cs[i] := by
    intro cs
    induction cs with
    | nil => exact ⟨0, by simp, by simp⟩
    | cons c r ih =>
      obtain ⟨m, hm, hb⟩ := ih
      refine ⟨2 * m + c.toNat, ?_, ?_⟩
      · have : c.toNat ≤ 1 := by cases c <;> simp
        simp only [List.length_cons, Nat.pow_succ]; omega
      · intro i hi
        cases i with
        | zero => cases c <;> simp [Nat.testBit_zero]
        | succ i =>
          have hd : (2 * m + c.toNat) / 2 = m := by
            have : c.toNat ≤ 1 := by cases c <;> simp
            omega
          rw [Nat.testBit_succ, hd]
          simpa using hb i (by simpa using hi)
  obtain ⟨m, hm, hb⟩ := base cs
  refine ⟨m <<< k, ?_, ?_⟩
  · rw [Nat.shiftLeft_eq, Nat.pow_add, Nat.mul_comm]
    exact Nat.mul_lt_mul_of_pos_left hm (Nat.two_pow_pos k)
  · intro i hi
    simp [Nat.testBit_shiftLeft, hb i hi]

theorem eval_corner_aux (ρ : Val) (mask : Nat) (bs : List (Expr × Expr)) (cs : List Bool) (k : Nat) (acc : Expr)
    (hl : cs.length = bs.length) (hm : ∀ i (h : i < cs.length), mask.testBit (k + i) = cs[i]) :
    ((bs.zipIdx k).foldl
      (fun acc b => .mul [acc, if mask.testBit b.2 then b.1.2 else b.1.1]) acc).eval ρ
    = ((pick bs cs).map (Expr.eval ρ)).foldl V.mul (acc.eval ρ) := by
  induction bs generalizing cs k acc with
  | nil => simp [pick]
  | cons b r ih =>
    cases cs with
    | nil => simp at hl
    | cons c cs =>
      have h0 := hm 0 (by simp)
      simp only [Nat.add_zero, List.getElem_cons_zero] at h0
      simp only [List.zipIdx_cons, List.foldl_cons, pick, List.map_cons]
      rw [ih cs (k + 1) _ (by simpa using hl)]
      · congr 1
        simp only [Expr.eval, Expr.evalL, List.foldr_cons, List.foldr_nil, V.mul_one, h0]
      · intro i hi
        have := hm (i + 1) (by simpa using hi)
        rw [show k + 1 + i = k + (i + 1) by omega]
        simpa using this

theorem corner_mem (ρ : Val) (bs : List (Expr × Expr)) (cs : List Bool) (hl : cs.length = bs.length) :
    ∃ p ∈ cornerProducts bs, p.eval ρ = ((pick bs cs).map (Expr.eval ρ)).foldl V.mul (.fin 1) := by
  obtain ⟨m, hm, hb⟩ := exists_mask cs 0
  simp only [Nat.zero_add] at hm hb
  refine ⟨cornerProduct bs m, ?_, ?_⟩
  · simp only [cornerProducts, List.mem_map, List.mem_range]
    exact ⟨m, by rw [← hl]; exact hm, rfl⟩
  · have := eval_corner_aux ρ m bs cs 0 (.int 1) hl (by simpa using hb)
    simpa [cornerProduct, Expr.eval] using this

theorem pick_map {α β : Type} (f : α → β) (bs : List (α × α)) (cs : List Bool) :
    (pick bs cs).map f = pick (bs.map fun b => (f b.1, f b.2)) cs := by
  induction bs generalizing cs with
  | nil => simp [pick]
  | cons b r ih =>
    cases cs with
    | nil => simp [pick]
    | cons c cs => cases c <;> simp [pick, ih]

theorem pick_replicate {α : Type} (bs : List (α × α)) (c : Bool) :
    pick bs (List.replicate bs.length c) = bs.map (fun b => if c then b.2 else b.1) := by
  induction bs with
  | nil => rfl
  | cons b r ih => simp [pick, List.replicate_succ, ih]

theorem Res.mapM_ok {α β : Type} (f : α → Res β) (l : List α) (bs : List β) (h : Res.mapM f l = .ok bs) :
    List.Forall₂ (fun a b => f a = .ok b) l bs := by
  induction l generalizing bs with
  | nil => simp [Res.mapM] at h; subst h; exact .nil
  | cons a r ih =>
    simp only [Res.mapM] at h
    cases hf : f a with
    | ub => rw [hf] at h; simp [Res.bind] at h
    | null => rw [hf] at h; simp [Res.bind] at h
    | ok b =>
      rw [hf] at h; simp only [Res.bind] at h
      cases hr : Res.mapM f r with
      | ub => rw [hr] at h; simp at h
      | null => rw [hr] at h; simp at h
      | ok bs' =>
        rw [hr] at h; simp at h; subst h
        exact .cons hf (ih bs' hr)

theorem pairBounds_ok {a b : Res Expr} {p : Expr × Expr} (h : pairBounds a b = .ok p) :
    a = .ok p.1 ∧ b = .ok p.2 := by
  cases a <;> cases b <;> simp [pairBounds] at h ⊢
  subst h; simp

/-- eval of a left fold of binary `min` terms -/
theorem eval_foldl_min (ρ : Val) (l : List Expr) (a : Expr) :
    (l.foldl (fun x y => Expr.min [x, y]) a).eval ρ = (l.map (Expr.eval ρ)).foldl V.min (a.eval ρ) := by
  induction l generalizing a with
  | nil => rfl
  | cons b r ih => simp [ih, Expr.eval, Expr.evalL]

theorem eval_foldl_max (ρ : Val) (l : List Expr) (a : Expr) :
    (l.foldl (fun x y => Expr.max [x, y]) a).eval ρ = (l.map (Expr.eval ρ)).foldl V.max (a.eval ρ) := by
  induction l generalizing a with
  | nil => rfl
  | cons b r ih => simp [ih, Expr.eval, Expr.evalL]

theorem eval_foldl_add (ρ : Val) (l : List Expr) (a : Expr) :
    (l.foldl (fun x y => Expr.add [x, y]) a).eval ρ = (l.map (Expr.eval ρ)).foldl V.add (a.eval ρ) := by
  induction l generalizing a with
  | nil => rfl
  | cons b r ih => simp [ih, Expr.eval, Expr.evalL, V.add_zero]

theorem V.add_assoc (a b c : V) : V.add (V.add a b) c = V.add a (V.add b c) := by
  cases a <;> cases b <;> cases c <;> simp [V.add]
  omega

theorem V.zero_add (a : V) : V.add (.fin 0) a = a := by
  cases a <;> simp [V.add]

theorem foldl_add_eq (l : List V) (a : V) : l.foldl V.add a = V.add a (l.foldr V.add (.fin 0)) := by
  induction l generalizing a with
  | nil => simp [V.add_zero]
  | cons b r ih => simp [ih, V.add_assoc]

theorem accumulate_eval_min {ρ : Val} {l : List Expr} {m : Expr}
    (h : accumulate (fun x y => .min [x, y]) l = .ok m) (hm : m.eval ρ ≠ .nan) :
    ∀ e ∈ l, m.eval ρ ≤ e.eval ρ := by
  cases l with
  | nil => simp
  | cons a r =>
    simp only [accumulate, Res.ok.injEq] at h
    subst h
    rw [eval_foldl_min] at hm ⊢
    have := foldl_min_le _ _ hm
    intro e he
    rcases List.mem_cons.1 he with rfl | he
    · exact this.1
    · exact this.2 _ (List.mem_map_of_mem he)

theorem accumulate_eval_max {ρ : Val} {l : List Expr} {m : Expr}
    (h : accumulate (fun x y => .max [x, y]) l = .ok m) (hm : m.eval ρ ≠ .nan) :
    ∀ e ∈ l, e.eval ρ ≤ m.eval ρ := by
  cases l with
  | nil => simp
  | cons a r =>
    simp only [accumulate, Res.ok.injEq] at h
    subst h
    rw [eval_foldl_max] at hm ⊢
    have := le_foldl_max _ _ hm
    intro e he
    rcases List.mem_cons.1 he with rfl | he
    · exact this.1
    · exact this.2 _ (List.mem_map_of_mem he)

theorem accumulate_eval_add {ρ : Val} {l : List Expr} {m : Expr}
    (h : accumulate (fun x y => .add [x, y]) l = .ok m) :
    m.eval ρ = (l.map (Expr.eval ρ)).foldr V.add (.fin 0) := by
  cases l with
  | nil => simp [accumulate] at h
  | cons a r =>
    simp only [accumulate, Res.ok.injEq] at h
    subst h
    rw [eval_foldl_add, foldl_add_eq]
    simp

/-- the values of the corner list bound the product from below -/
theorem mul_lower {ρ : Val} (bs : List (Expr × Expr)) (l : List Expr) (m : Expr)
    (hacc : accumulate (fun x y => .min [x, y]) (cornerProducts bs) = .ok m)
    (hm : m.eval ρ ≠ .nan) (he : (Expr.mul l).eval ρ ≠ .nan)
    (hb : List.Forall₂ (fun a (b : Expr × Expr) =>
      (b.1.eval ρ ≠ .nan → a.eval ρ ≠ .nan → b.1.eval ρ ≤ a.eval ρ) ∧
      (b.2.eval ρ ≠ .nan → a.eval ρ ≠ .nan → a.eval ρ ≤ b.2.eval ρ)) l bs) :
    m.eval ρ ≤ (Expr.mul l).eval ρ := by
  have hle := accumulate_eval_min hacc hm
  have hlen : l.length = bs.length := hb.length_eq
  have hnn : ∀ c : Bool, ∀ b ∈ bs, (if c then b.2 else b.1).eval ρ ≠ .nan := by
    intro c b hbm
    obtain ⟨p, hp, hpe⟩ := corner_mem ρ bs (List.replicate bs.length c) (by simp)
    have h1 := (V.ne_nan_of_le (hle p hp)).2
    rw [hpe, pick_replicate] at h1
    have := (foldl_mul_ne_nan _ _ h1).2
    exact this _ (List.mem_map_of_mem (List.mem_map_of_mem hbm))
  simp only [Expr.eval, Expr.evalL_eq_map] at he ⊢
  have hvn := foldr_mul_ne_nan _ he
  set t : List ((EReal × EReal) × EReal) :=
    (l.zip bs).map (fun p => (((p.2.1.eval ρ).toE, (p.2.2.eval ρ).toE), (p.1.eval ρ).toE)) with ht
  have hts : t.map Prod.snd = (l.map (Expr.eval ρ)).map V.toE := by
    rw [ht]; simp only [List.map_map]
    have : (List.map Prod.fst (l.zip bs)) = l := List.map_fst_zip (by omega)
    conv_rhs => rw [← this]
    simp [List.map_map, Function.comp_def]
  have htf : t.map Prod.fst = bs.map (fun b => ((b.1.eval ρ).toE, (b.2.eval ρ).toE)) := by
    rw [ht]; simp only [List.map_map]
    have : (List.map Prod.snd (l.zip bs)) = bs := List.map_snd_zip (by omega)
    conv_rhs => rw [← this]
    simp [List.map_map, Function.comp_def]
  have hbox : ∀ x ∈ t, x.1.1 ≤ x.2 ∧ x.2 ≤ x.1.2 := by
    intro x hx
    rw [ht, List.mem_map] at hx
    obtain ⟨⟨a, b⟩, hab, rfl⟩ := hx
    have hrel := (List.forall₂_iff_zip.1 hb).2 hab
    have ha := (List.of_mem_zip hab).1
    have hbb := (List.of_mem_zip hab).2
    have hav : a.eval ρ ≠ .nan := hvn _ (List.mem_map_of_mem ha)
    have h1 := hnn false b hbb
    have h2 := hnn true b hbb
    simp only [Bool.false_eq_true, if_false, if_true] at h1 h2
    exact ⟨(V.le_iff h1 hav).1 (hrel.1 h1 hav), (V.le_iff hav h2).1 (hrel.2 h2 hav)⟩
  obtain ⟨cs, hcl, hc⟩ := exists_corner_le t hbox 1
  have hcl' : cs.length = bs.length := by rw [hcl, ht]; simp; omega
  obtain ⟨p, hp, hpe⟩ := corner_mem ρ bs cs hcl'
  have hpn := (V.ne_nan_of_le (hle p hp)).2
  refine V.le_trans (hle p hp) ?_
  rw [V.le_iff hpn he, foldr_mul_toE _ he, hpe, foldl_mul_toE _ _ (hpe ▸ hpn)]
  have e1 : ((V.fin 1).toE : EReal) = 1 := by simp [V.toE]
  rw [e1, ← hts, List.map_map, pick_map, ← one_mul (t.map Prod.snd).prod]
  rw [htf] at hc
  exact hc

/-- the values of the corner list bound the product from above -/
theorem mul_upper {ρ : Val} (bs : List (Expr × Expr)) (l : List Expr) (m : Expr)
    (hacc : accumulate (fun x y => .max [x, y]) (cornerProducts bs) = .ok m)
    (hm : m.eval ρ ≠ .nan) (he : (Expr.mul l).eval ρ ≠ .nan)
    (hb : List.Forall₂ (fun a (b : Expr × Expr) =>
      (b.1.eval ρ ≠ .nan → a.eval ρ ≠ .nan → b.1.eval ρ ≤ a.eval ρ) ∧
      (b.2.eval ρ ≠ .nan → a.eval ρ ≠ .nan → a.eval ρ ≤ b.2.eval ρ)) l bs) :
    (Expr.mul l).eval ρ ≤ m.eval ρ := by
  have hle := accumulate_eval_max hacc hm
  have hlen : l.length = bs.length := hb.length_eq
  have hnn : ∀ c : Bool, ∀ b ∈ bs, (if c then b.2 else b.1).eval ρ ≠ .nan := by
    intro c b hbm
    obtain ⟨p, hp, hpe⟩ := corner_mem ρ bs (List.replicate bs.length c) (by simp)
    have h1 := (V.ne_nan_of_le (hle p hp)).1
    rw [hpe, pick_replicate] at h1
    have := (foldl_mul_ne_nan _ _ h1).2
    exact this _ (List.mem_map_of_mem (List.mem_map_of_mem hbm))
  simp only [Expr.eval, Expr.evalL_eq_map] at he ⊢
  have hvn := foldr_mul_ne_nan _ he
  set t : List ((EReal × EReal) × EReal) :=
    (l.zip bs).map (fun p => (((p.2.1.eval ρ).toE, (p.2.2.eval ρ).toE), (p.1.eval ρ).toE)) with ht
  have hts : t.map Prod.snd = (l.map (Expr.eval ρ)).map V.toE := by
    rw [ht]; simp only [List.map_map]
    have : (List.map Prod.fst (l.zip bs)) = l := List.map_fst_zip (by omega)
    conv_rhs => rw [← this]
    simp [List.map_map, Function.comp_def]
  have htf : t.map Prod.fst = bs.map (fun b => ((b.1.eval ρ).toE, (b.2.eval ρ).toE)) := by
    rw [ht]; simp only [List.map_map]
    have : (List.map Prod.snd (l.zip bs)) = bs := List.map_snd_zip (by omega)
    conv_rhs => rw [← this]
    simp [List.map_map, Function.comp_def]
  have hbox : ∀ x ∈ t, x.1.1 ≤ x.2 ∧ x.2 ≤ x.1.2 := by
    intro x hx
    rw [ht, List.mem_map] at hx
    obtain ⟨⟨a, b⟩, hab, rfl⟩ := hx
    have hrel := (List.forall₂_iff_zip.1 hb).2 hab
    have ha := (List.of_mem_zip hab).1
    have hbb := (List.of_mem_zip hab).2
    have hav : a.eval ρ ≠ .nan := hvn _ (List.mem_map_of_mem ha)
    have h1 := hnn false b hbb
    have h2 := hnn true b hbb
    simp only [Bool.false_eq_true, if_false, if_true] at h1 h2
    exact ⟨(V.le_iff h1 hav).1 (hrel.1 h1 hav), (V.le_iff hav h2).1 (hrel.2 h2 hav)⟩
  obtain ⟨cs, hcl, hc⟩ := exists_corner_ge t hbox 1
  have hcl' : cs.length = bs.length := by rw [hcl, ht]; simp; omega
  obtain ⟨p, hp, hpe⟩ := corner_mem ρ bs cs hcl'
  have hpn := (V.ne_nan_of_le (hle p hp)).1
  refine V.le_trans ?_ (hle p hp)
  rw [V.le_iff he hpn, foldr_mul_toE _ he, hpe, foldl_mul_toE _ _ (hpe ▸ hpn)]
  have e1 : ((V.fin 1).toE : EReal) = 1 := by simp [V.toE]
  rw [e1, ← hts, List.map_map (f := Expr.eval ρ), pick_map, ← one_mul (t.map Prod.snd).prod]
  rw [htf] at hc
  exact hc

end Docc.Sym
