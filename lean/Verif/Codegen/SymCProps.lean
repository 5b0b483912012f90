import Verif.Codegen.SymCLemmas
/-
C65: the C text of a symbolic expression or condition has the value of the expression.
-/
namespace Docc.Codegen
open Docc.C Docc.Sym

/-! ### what is assumed about the expression -/

/-- values of `int` -/
def In32 (v : V) : Prop := ∀ n, v = .fin n → -(2 ^ 31) ≤ n ∧ n < 2 ^ 31

mutual
/-- no infinities, sizes or unknown functions; zero extensions of values in [0, 2^32) only; bases and exponents of powers (other than
squares) in the range of `int` -/
def Narrow (ρ : Val) : Expr → Prop
  | .int _ => True
  | .sym _ => True
  | .inf _ => False
  | .nan => True
  | .add l => NarrowL ρ l
  | .mul l => NarrowL ρ l
  | .max l => NarrowL ρ l
  | .min l => NarrowL ρ l
  | .pow b e => Narrow ρ b ∧ Narrow ρ e ∧ (e = .int 2 ∨ (In32 (b.eval ρ) ∧ In32 (e.eval ρ)))
  | .fn f l => NarrowL ρ l ∧ (f = "idiv" ∨ f = "iabs" ∨ f = "trunc_i32" ∨
      (f = "zext_i64" ∧ ∀ a ∈ l, ∀ n, a.eval ρ = .fin n → 0 ≤ n ∧ n < 2 ^ 32))
/-- all members -/
def NarrowL (ρ : Val) : List Expr → Prop
  | [] => True
  | e :: r => Narrow ρ e ∧ NarrowL ρ r
end

/-- the magnitude of a value -/
def mag : V → Nat
  | .fin n => n.natAbs
  | _ => 0

mutual
/-- a bound of the magnitudes of all intermediate values: the expression on absolute values -/
def bnd (ρ : Val) : Expr → Nat
  | .int n => max 1 n.natAbs
  | .sym x => max 1 (ρ.sym x).natAbs
  | .inf _ => 1
  | .nan => 1
  | .add l => max 1 (bndL ρ l).sum
  | .mul l => (bndL ρ l).foldr (· * ·) 1
  | .max l => (bndL ρ l).foldr max 1
  | .min l => (bndL ρ l).foldr max 1
  | .pow b e => max (bnd ρ e) (match e with | .int 2 => bnd ρ b * bnd ρ b | _ => bnd ρ b ^ (2 * mag (e.eval ρ) + 1))
  | .fn _ l => (bndL ρ l).foldr max 1
/-- argument lists -/
def bndL (ρ : Val) : List Expr → List Nat
  | [] => []
  | e :: r => bnd ρ e :: bndL ρ r
end

/-- `x` is printed as a variable of signed (or `_Bool`) integer type that holds the value of the symbol -/
def SymOk (K : Fmt) (env : String → CV K.F) (S : SymKind) (ρ : Val) (x : String) : Prop :=
  S.null x = false ∧ S.ext x = false ∧ S.ptr x = false ∧ SV (env x) (ρ.sym x)

/-! ### the power function -/

theorem fit_exact {n m : Int} (h : fit (.int 32 true) n = some m) : m = n ∧ InR 32 true n := by
  rw [fit] at h
  split at h
  · rename_i h'; cases h; exact ⟨rfl, h'⟩
  · cases h

theorem powLoop_val (k : Nat) : ∀ (r : Int) (e : Nat) (b v : Int), e < 2 ^ k → InR 32 true r → powLoop k r e b = some v →
    v = r * b ^ e ∧ InR 32 true v := by
  induction k with
  | zero =>
    intro r e b v he hr h
    have : e = 0 := by omega
    subst this
    simp only [powLoop, Option.some.injEq] at h
    subst h
    exact ⟨by rw [Int.pow_zero, Int.mul_one], hr⟩
  | succ k ih =>
    intro r e b v he hr h
    rw [powLoop] at h
    split at h
    · rename_i h0
      subst h0
      cases h
      exact ⟨by rw [Int.pow_zero, Int.mul_one], hr⟩
    · rw [Option.bind_eq_some_iff] at h
      obtain ⟨r', hr', h⟩ := h
      rw [Option.bind_eq_some_iff] at h
      obtain ⟨b', hb', h⟩ := h
      obtain ⟨rfl, _⟩ := fit_exact hb'
      have h2 : (b * b) ^ (e / 2) = b ^ (2 * (e / 2)) := by rw [Int.pow_mul, Int.pow_succ, Int.pow_succ, Int.pow_zero, Int.one_mul]
      have hk : e / 2 < 2 ^ k := by rw [Nat.pow_succ] at he; omega
      split at hr'
      · rename_i h1
        obtain ⟨rfl, hin⟩ := fit_exact hr'
        obtain ⟨h3, h4⟩ := ih _ _ _ _ hk hin h
        refine ⟨?_, h4⟩
        rw [h3, h2, Int.mul_assoc]
        congr 1
        rw [Int.mul_comm, ← Int.pow_succ]
        congr 1; omega
      · cases hr'
        obtain ⟨h3, h4⟩ := ih _ _ _ _ hk hr h
        refine ⟨?_, h4⟩
        rw [h3, h2]
        congr 2; omega

theorem powLoop_defd (k : Nat) : ∀ (r : Int) (e : Nat) (b : Int) (A B : Nat), r.natAbs ≤ A → b.natAbs ≤ B → 1 ≤ A → 1 ≤ B →
    A * B ^ (2 * e) < 2 ^ 31 → ∃ v, powLoop k r e b = some v := by
  induction k with
  | zero => intro r e b A B _ _ _ _ _; exact ⟨r, rfl⟩
  | succ k ih =>
    intro r e b A B hA hB h1 h2 h
    rw [powLoop]
    split
    · exact ⟨r, rfl⟩
    · rename_i he
      have hp : ∀ j, j ≤ 2 * e → B ^ j ≤ B ^ (2 * e) := fun j hj => Nat.pow_le_pow_right (by omega) hj
      have hq : ∀ j, j ≤ 2 * e → A * B ^ j < 2 ^ 31 := fun j hj => Nat.lt_of_le_of_lt (Nat.mul_le_mul_left A (hp j hj)) h
      have f : ∀ n : Int, n.natAbs < 2 ^ 31 → fit (.int 32 true) n = some n := fun n hn => fit_in (small_in (by decide) hn)
      have hbb : (b * b).natAbs ≤ B * B := by rw [Int.natAbs_mul]; exact Nat.mul_le_mul hB hB
      have hrb : (r * b).natAbs ≤ A * B := by rw [Int.natAbs_mul]; exact Nat.mul_le_mul hA hB
      have e2 : B ^ 2 = B * B := by rw [Nat.pow_succ, Nat.pow_one]
      have hBB : B * B < 2 ^ 31 := by
        have := hq 2 (by omega)
        rw [e2] at this
        exact Nat.lt_of_le_of_lt (Nat.le_mul_of_pos_left _ (by omega)) this
      rw [f (b * b) (by omega)]
      have hAB : A * B < 2 ^ 31 := by have := hq 1 (by omega); rwa [Nat.pow_one] at this
      have hpw : (B * B) ^ (2 * (e / 2)) = B ^ (2 * (2 * (e / 2))) := by rw [← e2, ← Nat.pow_mul]
      split
      · rw [f (r * b) (by omega)]
        simp only [Option.bind_some]
        refine ih _ _ _ (A * B) (B * B) hrb hbb (Nat.mul_pos h1 h2) (Nat.mul_pos h2 h2) ?_
        rw [hpw, Nat.mul_assoc, show B * B ^ (2 * (2 * (e / 2))) = B ^ (2 * (2 * (e / 2)) + 1) by rw [Nat.pow_succ, Nat.mul_comm]]
        exact hq _ (by omega)
      · simp only [Option.bind_some]
        refine ih _ _ _ A (B * B) hA hbb h1 (Nat.mul_pos h2 h2) ?_
        rw [hpw]
        exact hq _ (by omega)

section
variable {K : Fmt} {env : String → CV K.F} {size : String → String → Int}

theorem Good.mul {x y : XE} {m n : Int} {B C : Nat} (hx : Good K env size x m B) (hy : Good K env size y n C) :
    Good K env size (.bin .mul x y) (m * n) (B * C) := by
  have h1 := hx.one
  have h2 := hy.one
  refine hx.bin rfl hy (fun q h => h) (fun h => by cases h) (Nat.le_mul_of_pos_right _ h2) (Nat.le_mul_of_pos_left _ h1) ?_
  rw [Int.natAbs_mul]
  exact Nat.mul_le_mul hx.bnd hy.bnd

theorem Good.pow {x y : XE} {m n : Int} {B C : Nat} (hx : Good K env size x m B) (hy : Good K env size y n C)
    (hm : -(2 ^ 31) ≤ m ∧ m < 2 ^ 31) (hn : -(2 ^ 31) ≤ n ∧ n < 2 ^ 31) (h0 : 0 ≤ n) :
    Good K env size (.pow x y) (m ^ n.toNat) (max C (B ^ (2 * n.toNat + 1))) := by
  have h1 := hx.one
  have hBp : B ≤ B ^ (2 * n.toNat + 1) := by
    have := Nat.pow_le_pow_right (n := B) (by omega) (show 1 ≤ 2 * n.toNat + 1 by omega)
    rwa [Nat.pow_one] at this
  have r1 : InR 32 true m := by simp only [InR, if_true]; exact hm
  have r2 : InR 32 true n := by simp only [InR, if_true]; exact hn
  have hlt : n.toNat < 2 ^ 32 := by omega
  have hone : InR 32 true (1 : Int) := by simp only [InR, if_true]; decide
  refine ⟨Or.inr ⟨32, by decide, rfl⟩, ?_, ?_, ?_, by have := hy.one; omega⟩
  · intro v hv
    rw [XE.eval, Option.bind_eq_some_iff] at hv
    obtain ⟨u, hu, hv⟩ := hv
    rw [Option.bind_eq_some_iff] at hv
    obtain ⟨w, hw, hv⟩ := hv
    obtain ⟨t, rfl⟩ := sv_i (hx.val u hu).1
    obtain ⟨t', rfl⟩ := sv_i (hy.val w hw).1
    simp only [conv_in (by decide) r1, conv_in (by decide) r2, symPow, if_neg (show ¬ n < 0 by omega)] at hv
    rw [Option.map_eq_some_iff] at hv
    obtain ⟨q, hq, rfl⟩ := hv
    obtain ⟨rfl, hin⟩ := powLoop_val 32 _ _ _ _ hlt hone hq
    rw [Int.one_mul] at hin ⊢
    exact ⟨Or.inl ⟨32, by decide, rfl, hin⟩, rfl⟩
  · intro hd
    obtain ⟨u, hu⟩ := hx.defd (by omega)
    obtain ⟨w, hw⟩ := hy.defd (by omega)
    obtain ⟨t, rfl⟩ := sv_i (hx.val u hu).1
    obtain ⟨t', rfl⟩ := sv_i (hy.val w hw).1
    rw [XE.eval, hu, hw]
    simp only [Option.bind_some, conv_in (by decide) r1, conv_in (by decide) r2, symPow, if_neg (show ¬ n < 0 by omega)]
    obtain ⟨v, hv⟩ := powLoop_defd 32 1 n.toNat m 1 B (by decide) hx.bnd (by decide) h1 (by
      have := Nat.pow_le_pow_right (n := B) (by omega) (show 2 * n.toNat ≤ 2 * n.toNat + 1 by omega)
      omega)
    rw [hv]
    exact ⟨_, rfl⟩
  · rw [Int.natAbs_pow]
    have h3 := Nat.pow_le_pow_left hx.bnd n.toNat
    have h4 := Nat.pow_le_pow_right (n := B) (by omega) (show n.toNat ≤ 2 * n.toNat + 1 by omega)
    omega

/-! ### terms, products and sums -/

/-- the factors of a product -/
inductive Facs (K : Fmt) (env : String → CV K.F) (size : String → String → Int) : List XE → Int → Nat → Prop
  | nil : Facs K env size [] 1 1
  | cons {f : XE} {r : List XE} {m n : Int} {B C : Nat} : Good K env size f m B → Facs K env size r n C →
      Facs K env size (f :: r) (m * n) (B * C)

/-- a term has a value -/
def GoodT (K : Fmt) (env : String → CV K.F) (size : String → String → Int) (t : Term) (n : Int) (B : Nat) : Prop :=
  ∃ m, Facs K env size t.2 m B ∧ n = if t.1 then -m else m

theorem Facs.fold {r : List XE} {n : Int} {C : Nat} (h : Facs K env size r n C) :
    ∀ {acc : XE} {m : Int} {A : Nat}, Good K env size acc m A → Good K env size (r.foldl (.bin .mul) acc) (m * n) (A * C) := by
  induction h with
  | nil => intro acc m A ha; rw [Int.mul_one, Nat.mul_one]; exact ha
  | cons hf _ ih =>
    intro acc m A ha
    rw [← Int.mul_assoc, ← Nat.mul_assoc]
    exact ih (ha.mul hf)

theorem good_finish {t : Term} {n : Int} {B : Nat} (h : GoodT K env size t n B) : Good K env size (finish t) n B := by
  obtain ⟨s, fs⟩ := t
  obtain ⟨m, hf, rfl⟩ := h
  cases hf with
  | nil =>
    cases s
    · exact (good_lit 1)
    · exact (good_lit 1).neg
  | cons hf hr =>
    cases s
    · exact hr.fold hf
    · simp only [if_true]
      rw [← Int.neg_mul]
      exact hr.fold hf.neg

theorem GoodT.of {x : XE} {n : Int} {B : Nat} (h : Good K env size x n B) : GoodT K env size (false, [x]) n B :=
  ⟨n, by simpa using Facs.cons h Facs.nil, rfl⟩

/-- the terms of a sum -/
inductive Sums (K : Fmt) (env : String → CV K.F) (size : String → String → Int) : List Term → Int → Nat → Prop
  | nil : Sums K env size [] 0 0
  | cons {t : Term} {r : List Term} {m n : Int} {B C : Nat} : GoodT K env size t m B → Sums K env size r n C →
      Sums K env size (t :: r) (m + n) (B + C)

theorem Sums.fold {r : List Term} {n : Int} {C : Nat} (h : Sums K env size r n C) :
    ∀ {acc : XE} {m : Int} {A : Nat}, Good K env size acc m A →
      Good K env size (r.foldl (fun acc t => .bin (if t.1 then .sub else .add) acc (finish (false, t.2))) acc) (m + n) (A + C) := by
  induction h with
  | nil => intro acc m A ha; rw [Int.add_zero]; exact ha
  | @cons t r k n B C ht _ ih =>
    intro acc m A ha
    rw [← Int.add_assoc, ← Nat.add_assoc]
    refine ih ?_
    obtain ⟨s, fs⟩ := t
    obtain ⟨j, hf, rfl⟩ := ht
    have hg : Good K env size (finish (false, fs)) j B := good_finish ⟨j, hf, rfl⟩
    have b1 := ha.bnd
    have b2 := hg.bnd
    cases s
    · simp only [Bool.false_eq_true, if_false]
      exact ha.bin rfl hg (fun q h => h) (fun h => by cases h) (by omega) (by omega) (by omega)
    · simp only [if_true]
      exact ha.bin rfl hg (fun q h => by rw [show q = m - j from h]; omega) (fun h => by cases h) (by omega) (by omega) (by omega)

theorem good_sum {ts : List Term} {n : Int} {C : Nat} (h : Sums K env size ts n C) : Good K env size (sumX ts) n (max 1 C) := by
  cases h with
  | nil => exact good_lit 0
  | cons ht hr =>
    refine (hr.fold (good_finish ht)).mono (by omega)

/-- the arguments of a minimum or maximum -/
inductive Args (K : Fmt) (env : String → CV K.F) (size : String → String → Int) : List XE → List Int → List Nat → Prop
  | nil : Args K env size [] [] []
  | cons {f : XE} {r : List XE} {m : Int} {ns : List Int} {B : Nat} {C : List Nat} : Good K env size f m B → Args K env size r ns C →
      Args K env size (f :: r) (m :: ns) (B :: C)

theorem foldl_assoc (f : Int → Int → Int) (hf : ∀ a b c, f (f a b) c = f a (f b c)) (r : List Int) (a b : Int) :
    r.foldl f (f a b) = f a (r.foldl f b) := by
  induction r generalizing b with
  | nil => rfl
  | cons c r ih => rw [List.foldl_cons, List.foldl_cons, hf, ih]

theorem good_mac (isMax : Bool) : ∀ {xs : List XE} {n : Int} {ns : List Int} {Bs : List Nat}, Args K env size xs (n :: ns) Bs →
    ∃ x, macX isMax xs = some x ∧ Good K env size x (ns.foldl (fun a b => if isMax then max a b else min a b) n) (Bs.foldr max 1) := by
  intro xs n ns
  induction ns generalizing xs n with
  | nil =>
    intro Bs h
    cases h with
    | cons hf hr =>
      cases hr
      exact ⟨_, rfl, hf.mono (by simp only [List.foldr_cons, List.foldr_nil]; omega)⟩
  | cons n' ns ih =>
    intro Bs h
    cases h with
    | @cons f r _ _ B C hf hr =>
      obtain ⟨x, hx, hg⟩ := ih hr
      cases hr with
      | cons h1 h2 =>
        refine ⟨.mac isMax f x, (by rw [macX, hx, Option.map_some]; exact fun h => by simp at h), ?_⟩
        rw [List.foldl_cons, foldl_assoc _ (by intro a b c; cases isMax <;> simp only [Bool.false_eq_true, if_false, if_true] <;> omega), List.foldr_cons]
        exact hf.mac hg

/-! ### the printer -/

theorem narrowL_iff (ρ : Val) (l : List Expr) : NarrowL ρ l ↔ ∀ e ∈ l, Narrow ρ e := by
  induction l with
  | nil => simp [NarrowL]
  | cons a r ih => simp [NarrowL, ih]

/-- no infinite values -/
theorem narrow_cases (ρ : Val) (e : Expr) (h : Narrow ρ e) : e.eval ρ = .nan ∨ ∃ n, e.eval ρ = .fin n := by
  induction e using Expr.induct with
  | hint n => exact Or.inr ⟨n, rfl⟩
  | hsym x => exact Or.inr ⟨_, rfl⟩
  | hinf b => exact absurd h (by simp [Narrow])
  | hnan => exact Or.inl rfl
  | hadd l ih =>
    rw [Narrow, narrowL_iff] at h
    rw [Expr.eval, Expr.evalL_eq_map]
    refine foldr_add_cases _ ?_
    simp only [List.mem_map, forall_exists_index, and_imp]
    rintro v e he rfl; exact ih e he (h e he)
  | hmul l ih =>
    rw [Narrow, narrowL_iff] at h
    rw [Expr.eval, Expr.evalL_eq_map]
    refine foldr_mul_cases _ ?_
    simp only [List.mem_map, forall_exists_index, and_imp]
    rintro v e he rfl; exact ih e he (h e he)
  | hmax l ih =>
    rw [Narrow, narrowL_iff] at h
    cases l with
    | nil => exact Or.inl rfl
    | cons a r =>
      simp only [Expr.eval, Expr.evalL_eq_map, List.map_cons]
      rcases foldl_max_mem (r.map (Expr.eval ρ)) (a.eval ρ) with h1 | h1
      · exact Or.inl h1
      · rw [← List.map_cons (f := Expr.eval ρ), List.mem_map] at h1
        obtain ⟨e, he, hv⟩ := h1
        rw [← hv]; exact ih e he (h e he)
  | hmin l ih =>
    rw [Narrow, narrowL_iff] at h
    cases l with
    | nil => exact Or.inl rfl
    | cons a r =>
      simp only [Expr.eval, Expr.evalL_eq_map, List.map_cons]
      rcases foldl_min_mem (r.map (Expr.eval ρ)) (a.eval ρ) with h1 | h1
      · exact Or.inl h1
      · rw [← List.map_cons (f := Expr.eval ρ), List.mem_map] at h1
        obtain ⟨e, he, hv⟩ := h1
        rw [← hv]; exact ih e he (h e he)
  | hpow b e ih1 ih2 =>
    simp only [Expr.eval]
    unfold V.pow
    split
    · exact Or.inr ⟨_, rfl⟩
    · exact Or.inl rfl
  | hfn f l ih =>
    simp only [Expr.eval]
    split
    · exact applyFn_cases _ _ _
    · exact Or.inl rfl

variable (K env size) in
/-- the claim about one expression -/
def Claim (S : SymKind) (ρ : Val) (e : Expr) : Prop :=
  Narrow ρ e → (∀ x ∈ e.atoms, SymOk K env S ρ x) → ∀ n, e.eval ρ = .fin n → ∃ t, term S e = some t ∧ GoodT K env size t n (bnd ρ e)

theorem good_addend {e : Expr} {t : Term} {n : Int} {B : Nat} (h : GoodT K env size t n B) : GoodT K env size (addend e t) n B := by
  cases e <;> first | exact h | exact GoodT.of (good_finish h).par

theorem good_factor {e : Expr} {t : Term} {n : Int} {B : Nat} (h : GoodT K env size t n B) : Good K env size (factor e t) n B := by
  cases e <;> first | exact good_finish h | exact (good_finish h).par | skip
  rw [factor]
  split
  · exact (good_finish h).par
  · exact good_finish h

theorem claim_add {S : SymKind} {ρ : Val} : ∀ (l : List Expr), (∀ e ∈ l, Claim K env size S ρ e) → NarrowL ρ l →
    (∀ x ∈ Expr.atomsL l, SymOk K env S ρ x) → ∀ n, (Expr.evalL ρ l).foldr V.add (.fin 0) = .fin n →
    ∃ ts, termL S l = some ts ∧ Sums K env size (List.zipWith addend l ts) n (bndL ρ l).sum
  | [], _, _, _, n, h => by
    simp only [Expr.evalL, List.foldr_nil, V.fin.injEq] at h
    subst h
    exact ⟨[], rfl, Sums.nil⟩
  | e :: r, ih, hn, ha, n, h => by
    rw [Expr.evalL, List.foldr_cons] at h
    obtain ⟨x, y, hx, hy, rfl⟩ := V.add_fin h
    rw [Expr.atomsL] at ha
    obtain ⟨t, ht, hg⟩ := ih e List.mem_cons_self hn.1 (fun x hx => ha x (List.mem_append_left _ hx)) x hx
    obtain ⟨ts, hts, hgs⟩ := claim_add r (fun e he => ih e (List.mem_cons_of_mem _ he)) hn.2
      (fun x hx => ha x (List.mem_append_right _ hx)) y hy
    refine ⟨t :: ts, by rw [termL, ht, hts]; rfl, ?_⟩
    exact Sums.cons (good_addend hg) hgs

theorem claim_mul {S : SymKind} {ρ : Val} : ∀ (l : List Expr), (∀ e ∈ l, Claim K env size S ρ e) → NarrowL ρ l →
    (∀ x ∈ Expr.atomsL l, SymOk K env S ρ x) → ∀ n, (Expr.evalL ρ l).foldr V.mul (.fin 1) = .fin n →
    ∃ ts, termL S l = some ts ∧ ts.length = l.length ∧ Facs K env size (List.zipWith factor l ts) n ((bndL ρ l).foldr (· * ·) 1)
  | [], _, _, _, n, h => by
    simp only [Expr.evalL, List.foldr_nil, V.fin.injEq] at h
    subst h
    exact ⟨[], rfl, rfl, Facs.nil⟩
  | e :: r, ih, hn, ha, n, h => by
    rw [Expr.evalL, List.foldr_cons] at h
    obtain ⟨x, y, hx, hy, rfl⟩ := V.mul_fin h
    rw [Expr.atomsL] at ha
    obtain ⟨t, ht, hg⟩ := ih e List.mem_cons_self hn.1 (fun x hx => ha x (List.mem_append_left _ hx)) x hx
    obtain ⟨ts, hts, hl, hgs⟩ := claim_mul r (fun e he => ih e (List.mem_cons_of_mem _ he)) hn.2
      (fun x hx => ha x (List.mem_append_right _ hx)) y hy
    exact ⟨t :: ts, by rw [termL, ht, hts]; rfl, by simp [hl], Facs.cons (good_factor hg) hgs⟩

/-- finite arguments -/
theorem claim_args {S : SymKind} {ρ : Val} : ∀ (l : List Expr), (∀ e ∈ l, Claim K env size S ρ e) → NarrowL ρ l →
    (∀ x ∈ Expr.atomsL l, SymOk K env S ρ x) → ∀ ns : List Int, Expr.evalL ρ l = ns.map V.fin →
    ∃ ts, termL S l = some ts ∧ Args K env size (ts.map finish) ns (bndL ρ l)
  | [], _, _, _, ns, h => by
    cases ns with
    | nil => exact ⟨[], rfl, Args.nil⟩
    | cons => cases h
  | e :: r, ih, hn, ha, ns, h => by
    cases ns with
    | nil => cases h
    | cons n ns =>
      rw [Expr.evalL, List.map_cons, List.cons.injEq] at h
      rw [Expr.atomsL] at ha
      obtain ⟨t, ht, hg⟩ := ih e List.mem_cons_self hn.1 (fun x hx => ha x (List.mem_append_left _ hx)) n h.1
      obtain ⟨ts, hts, hgs⟩ := claim_args r (fun e he => ih e (List.mem_cons_of_mem _ he)) hn.2
        (fun x hx => ha x (List.mem_append_right _ hx)) ns h.2
      exact ⟨t :: ts, by rw [termL, ht, hts]; rfl, Args.cons (good_finish hg) hgs⟩

/-- values that are not infinite and whose fold is finite are finite -/
theorem fold_fin (f : V → V → V) (hf : ∀ a b, f a b ≠ .nan → a ≠ .nan ∧ b ≠ .nan) : ∀ (l : List V) (a : V),
    (∀ v ∈ a :: l, v = .nan ∨ ∃ n, v = .fin n) → l.foldl f a ≠ .nan → ∃ (n : Int) (ns : List Int), a = .fin n ∧ l = ns.map V.fin := by
  have hne : ∀ (l : List V) (a : V), l.foldl f a ≠ .nan → a ≠ .nan ∧ ∀ v ∈ l, v ≠ .nan := by
    intro l
    induction l with
    | nil => intro a h; exact ⟨h, by simp⟩
    | cons b r ih =>
      intro a h
      obtain ⟨h1, h2⟩ := ih _ h
      obtain ⟨h3, h4⟩ := hf _ _ h1
      exact ⟨h3, fun v hv => (List.mem_cons.1 hv).elim (fun e => e ▸ h4) (h2 v)⟩
  intro l a hc h
  obtain ⟨h1, h2⟩ := hne l a h
  have hl : ∀ l : List V, (∀ v ∈ l, ∃ n, v = .fin n) → ∃ ns : List Int, l = ns.map V.fin := by
    intro l
    induction l with
    | nil => intro _; exact ⟨[], rfl⟩
    | cons e r ih =>
      intro hh
      obtain ⟨n, hn⟩ := hh e (by simp)
      obtain ⟨ns, hns⟩ := ih (fun x hx => hh x (List.mem_cons_of_mem _ hx))
      exact ⟨n :: ns, by simp [hn, hns]⟩
  obtain ⟨n, hn⟩ := (hc a (by simp)).resolve_left h1
  obtain ⟨ns, hns⟩ := hl l (fun v hv => (hc v (List.mem_cons_of_mem _ hv)).resolve_left (h2 v hv))
  exact ⟨n, ns, hn, hns⟩

theorem finArgs_fin : ∀ (l : List V) (ns : List Int), finArgs l = some ns → l = ns.map V.fin
  | [], ns, h => by cases h; rfl
  | .fin n :: r, ns, h => by
    rw [finArgs] at h
    cases hr : finArgs r with
    | none => rw [hr] at h; cases h
    | some l => rw [hr] at h; cases h; rw [List.map_cons, finArgs_fin r l hr]
  | .nan :: _, _, h => by cases h
  | .pinf :: _, _, h => by cases h
  | .ninf :: _, _, h => by cases h

theorem foldl_fin (isMax : Bool) (ns : List Int) (n : Int) :
    (ns.map V.fin).foldl (if isMax then V.max else V.min) (.fin n) = .fin (ns.foldl (fun a b => if isMax then max a b else min a b) n) := by
  induction ns generalizing n with
  | nil => rfl
  | cons b r ih =>
    rw [List.map_cons, List.foldl_cons, List.foldl_cons, ← ih]
    congr 1
    cases isMax <;> simp only [Bool.false_eq_true, if_false, if_true, V.max, V.min, V.fin.injEq]
    · split <;> omega
    · split <;> omega

theorem claim_mac (isMax : Bool) {S : SymKind} {ρ : Val} (l : List Expr) (ih : ∀ e ∈ l, Claim K env size S ρ e) (hn : NarrowL ρ l)
    (ha : ∀ x ∈ Expr.atomsL l, SymOk K env S ρ x) (n : Int)
    (h : (match Expr.evalL ρ l with | [] => V.nan | v :: r => r.foldl (if isMax then V.max else V.min) v) = .fin n) :
    ∃ ts x, termL S l = some ts ∧ macX isMax (ts.map finish) = some x ∧ Good K env size x n ((bndL ρ l).foldr max 1) := by
  cases l with
  | nil => cases h
  | cons e r =>
    simp only [Expr.evalL] at h
    obtain ⟨m, ms, h1, h2⟩ := fold_fin (if isMax then V.max else V.min)
      (by intro a b hab; cases isMax
          · exact V.min_ne_nan.1 hab
          · exact V.max_ne_nan.1 hab) (Expr.evalL ρ r) (e.eval ρ)
      (by
        rw [narrowL_iff] at hn
        intro v hv
        rw [Expr.evalL_eq_map, ← List.map_cons (f := Expr.eval ρ), List.mem_map] at hv
        obtain ⟨e', he', rfl⟩ := hv
        exact narrow_cases ρ e' (hn e' he')) (by rw [h]; exact fun h => by cases h)
    obtain ⟨ts, hts, hargs⟩ := claim_args (e :: r) ih hn ha (m :: ms) (by rw [Expr.evalL, h1, h2, List.map_cons])
    obtain ⟨x, hx, hg⟩ := good_mac isMax hargs
    refine ⟨ts, x, hts, hx, ?_⟩
    rw [h1, h2, foldl_fin, V.fin.injEq] at h
    rw [h] at hg
    exact hg

theorem args1 {ts : List Term} {m : Int} {Bs : List Nat} (h : Args K env size (ts.map finish) [m] Bs) :
    ∃ a B, ts = [a] ∧ Bs = [B] ∧ Good K env size (finish a) m B := by
  match ts, h with
  | [], h => cases h
  | [a], .cons h .nil => exact ⟨a, _, rfl, rfl, h⟩
  | _ :: _ :: _, .cons _ h => cases h

theorem args2 {ts : List Term} {m n : Int} {Bs : List Nat} (h : Args K env size (ts.map finish) [m, n] Bs) :
    ∃ a b B C, ts = [a, b] ∧ Bs = [B, C] ∧ Good K env size (finish a) m B ∧ Good K env size (finish b) n C := by
  match ts, h with
  | [], h => cases h
  | [_], .cons _ h => cases h
  | [a, b], .cons h (.cons h' .nil) => exact ⟨a, b, _, _, rfl, rfl, h, h'⟩
  | _ :: _ :: _ :: _, .cons _ (.cons _ h) => cases h

theorem powX_ne {e : Expr} (h : e ≠ .int 2) (b' e' : Term) : powX e b' e' = .pow (finish b') (finish e') := by
  rw [powX.eq_def]
  split
  · exact absurd rfl h
  · rfl

theorem bnd_pow_ne {e : Expr} (h : e ≠ .int 2) (ρ : Val) (b : Expr) :
    bnd ρ (.pow b e) = max (bnd ρ e) (bnd ρ b ^ (2 * mag (e.eval ρ) + 1)) := by
  rw [bnd]
  exact h

theorem sq_eq (m : Int) : m ^ 2 = m * m := by rw [Int.pow_succ, Int.pow_succ, Int.pow_zero, Int.one_mul]

theorem claim {S : SymKind} {ρ : Val} (e : Expr) : Claim K env size S ρ e := by
  induction e using Expr.induct with
  | hint n =>
    intro _ _ m h
    rw [Expr.eval, V.fin.injEq] at h
    subst h
    refine ⟨_, rfl, (n.natAbs : Nat), by simpa [bnd] using Facs.cons (good_lit n.natAbs) Facs.nil, ?_⟩
    by_cases h : n < 0
    · simp only [h, decide_true, if_true]; omega
    · simp only [h, decide_false, Bool.false_eq_true, if_false]; omega
  | hsym x =>
    intro _ ha m h
    rw [Expr.eval, V.fin.injEq] at h
    subst h
    obtain ⟨h1, h2, h3, hs⟩ := ha x (by simp [Expr.atoms])
    refine ⟨_, rfl, ?_⟩
    rw [printSym, h1, h2, h3]
    refine GoodT.of ⟨?_, ?_, ?_, by rw [bnd]; omega, by rw [bnd]; omega⟩
    · simp only [Bool.false_eq_true, if_false, XE.ty]
      obtain ⟨t, ht⟩ := sv_i hs
      rw [ht] at hs ⊢
      exact (sv_sty hs).1
    · intro v hv
      cases hv
      exact ⟨hs, rfl⟩
    · intro _; exact ⟨_, rfl⟩
  | hinf b => intro h; exact absurd h (by simp [Narrow])
  | hnan => intro _ _ n h; cases h
  | hadd l ih =>
    intro hn ha n h
    rw [Narrow] at hn
    rw [Expr.atoms] at ha
    rw [Expr.eval] at h
    obtain ⟨ts, hts, hs⟩ := claim_add l ih hn ha n h
    exact ⟨_, by rw [term, hts]; rfl, GoodT.of (by rw [bnd]; exact good_sum hs)⟩
  | hmul l ih =>
    intro hn ha n h
    rw [Narrow] at hn
    rw [Expr.atoms] at ha
    rw [Expr.eval] at h
    rw [bnd]
    cases l with
    | nil =>
      obtain ⟨ts, hts, hl, hs⟩ := claim_mul [] ih hn ha n h
      refine ⟨_, by rw [term, hts]; rfl, n, ?_, rfl⟩
      simpa [mulTerm] using hs
    | cons e r =>
      by_cases hc : ∃ c, e = .int c
      · obtain ⟨c, rfl⟩ := hc
        rw [Expr.evalL, List.foldr_cons] at h
        obtain ⟨x, y, hx, hy, rfl⟩ := V.mul_fin h
        rw [Expr.eval, V.fin.injEq] at hx
        subst hx
        rw [Expr.atomsL] at ha
        obtain ⟨ts, hts, hl, hs⟩ := claim_mul r (fun e he => ih e (List.mem_cons_of_mem _ he)) hn.2
          (fun x hx => ha x (List.mem_append_right _ hx)) y hy
        refine ⟨mulTerm (.int c :: r) ((decide (c < 0), [.lit c.natAbs]) :: ts), by rw [term, termL, hts]; rfl, ?_⟩
        rw [mulTerm, bndL, List.foldr_cons, bnd]
        by_cases hm : (c = -1 && !r.isEmpty) = true
        · rw [if_pos hm]
          have hc : c = -1 := by simp at hm; exact hm.1
          subst hc
          refine ⟨y, ?_, by simp⟩
          simpa using hs
        · rw [if_neg hm]
          refine ⟨c.natAbs * y, Facs.cons (good_lit _) hs, ?_⟩
          by_cases h0 : c < 0
          · simp only [h0, decide_true, if_true]
            rw [show ((c.natAbs : Nat) : Int) = -c by omega, Int.neg_mul, Int.neg_neg]
          · simp only [h0, decide_false, Bool.false_eq_true, if_false]
            rw [show ((c.natAbs : Nat) : Int) = c by omega]
      · obtain ⟨ts, hts, hl, hs⟩ := claim_mul (e :: r) ih hn ha n h
        refine ⟨mulTerm (e :: r) ts, by rw [term, hts]; rfl, n, ?_, ?_⟩
        · have : mulTerm (e :: r) ts = (false, List.zipWith factor (e :: r) ts) := by
            cases e <;> first | rfl | exact absurd ⟨_, rfl⟩ hc
          rw [this]; exact hs
        · have : mulTerm (e :: r) ts = (false, List.zipWith factor (e :: r) ts) := by
            cases e <;> first | rfl | exact absurd ⟨_, rfl⟩ hc
          rw [this]; rfl
  | hmax l ih =>
    intro hn ha n h
    rw [Narrow] at hn
    rw [Expr.atoms] at ha
    rw [Expr.eval] at h
    obtain ⟨ts, x, hts, hx, hg⟩ := claim_mac true l ih hn ha n h
    exact ⟨(false, [x]), by rw [term, hts, Option.bind_some, hx]; rfl, GoodT.of (by rw [bnd]; exact hg)⟩
  | hmin l ih =>
    intro hn ha n h
    rw [Narrow] at hn
    rw [Expr.atoms] at ha
    rw [Expr.eval] at h
    obtain ⟨ts, x, hts, hx, hg⟩ := claim_mac false l ih hn ha n h
    exact ⟨(false, [x]), by rw [term, hts, Option.bind_some, hx]; rfl, GoodT.of (by rw [bnd]; exact hg)⟩
  | hpow b e ih1 ih2 =>
    intro hn ha n h
    rw [Narrow] at hn
    rw [Expr.atoms] at ha
    rw [Expr.eval] at h
    obtain ⟨hb, he, hr⟩ := hn
    unfold V.pow at h
    split at h
    case h_2 => cases h
    case h_1 v w x k hx hk =>
      cases h
      obtain ⟨t, ht, hg⟩ := ih1 hb (fun x hx => ha x (List.mem_append_left _ hx)) x hx
      obtain ⟨t', ht', hg'⟩ := ih2 he (fun x hx => ha x (List.mem_append_right _ hx)) _ hk
      refine ⟨_, by rw [term, ht, ht']; rfl, GoodT.of ?_⟩
      have hG := good_finish hg
      have hG' := good_finish hg'
      by_cases h2 : e = .int 2
      · subst h2
        rw [Expr.eval, V.fin.injEq] at hk
        have : k = 2 := by have : (k : Int) = 2 := hk.symm
                           omega
        subst this
        rw [sq_eq]
        exact (hG.par.mul hG.par).par.mono (by rw [bnd]; exact Nat.le_max_right _ _)
      · obtain ⟨r1, r2⟩ := hr.resolve_left h2
        rw [powX_ne h2, bnd_pow_ne h2, hk]
        exact hG.pow hG' (r1 x hx) (r2 _ hk) (Int.natCast_nonneg k)
  | hfn f l ih =>
    intro hn ha n h
    rw [Narrow] at hn
    rw [Expr.atoms] at ha
    rw [Expr.eval] at h
    cases hfa : finArgs (Expr.evalL ρ l) with
    | none => rw [hfa] at h; cases h
    | some ns =>
      rw [hfa] at h
      simp only at h
      have hev := finArgs_fin _ _ hfa
      obtain ⟨ts, hts, hargs⟩ := claim_args l ih hn.1 ha ns hev
      rw [term, hts, Option.bind_some, bnd]
      rcases hn.2 with rfl | rfl | rfl | ⟨rfl, hz⟩
      · simp only [applyFn, if_true] at h
        match ns, h with
        | [m, k], h =>
          obtain ⟨a, b, B, C, rfl, hB, ha', hb'⟩ := args2 hargs
          rw [hB]
          simp only at h
          split at h
          · cases h
          · rename_i h0
            rw [V.fin.injEq] at h
            subst h
            refine ⟨_, rfl, GoodT.of (Good.par ?_)⟩
            simp only [List.foldr_cons, List.foldr_nil]
            refine ha'.par.bin (o := .div) rfl hb'.par (fun q hq => hq.2) (fun _ => h0) (by omega) (by omega) ?_
            have h2 : (m.tdiv k).natAbs ≤ m.natAbs := by rw [Int.natAbs_tdiv]; exact Nat.div_le_self _ _
            have := ha'.bnd
            omega
      · simp only [applyFn, if_true, show ("iabs" : String) ≠ "idiv" by decide, show ("iabs" : String) ≠ "imod" by decide, if_false] at h
        match ns, h with
        | [m], h =>
          obtain ⟨a, B, rfl, hB, ha'⟩ := args1 hargs
          rw [hB]
          simp only [V.fin.injEq] at h
          subst h
          exact ⟨_, rfl, GoodT.of (ha'.abs.mono (by simp only [List.foldr_cons, List.foldr_nil]; omega))⟩
      · simp only [applyFn, if_true, show ("trunc_i32" : String) ≠ "idiv" by decide, show ("trunc_i32" : String) ≠ "imod" by decide,
          show ("trunc_i32" : String) ≠ "iabs" by decide, show ("trunc_i32" : String) ≠ "zext_i64" by decide, if_false] at h
        match ns, h with
        | [m], h =>
          obtain ⟨a, B, rfl, hB, ha'⟩ := args1 hargs
          rw [hB]
          simp only [V.fin.injEq] at h
          subst h
          exact ⟨_, rfl, GoodT.of (ha'.trunc.mono (by simp only [List.foldr_cons, List.foldr_nil]; omega))⟩
      · simp only [applyFn, if_true, show ("zext_i64" : String) ≠ "idiv" by decide, show ("zext_i64" : String) ≠ "imod" by decide,
          show ("zext_i64" : String) ≠ "iabs" by decide, if_false] at h
        have hr : ∀ m ∈ ns, 0 ≤ m ∧ m < 2 ^ 32 := by
          intro m hm
          have : V.fin m ∈ Expr.evalL ρ l := by rw [hev]; exact List.mem_map_of_mem hm
          rw [Expr.evalL_eq_map, List.mem_map] at this
          obtain ⟨a, h1, h2⟩ := this
          exact hz a h1 m h2
        match ns, h with
        | [m], h =>
          obtain ⟨a, B, rfl, hB, ha'⟩ := args1 hargs
          rw [hB]
          obtain ⟨h1, h2⟩ := hr m List.mem_cons_self
          simp only [V.fin.injEq] at h
          rw [show m % 2 ^ 32 = m by omega] at h
          subst h
          exact ⟨_, rfl, GoodT.of ((ha'.zext h1 h2).mono (by simp only [List.foldr_cons, List.foldr_nil]; omega))⟩
end
end Docc.Codegen
