import Verif.IR.Interchange
import Verif.IR.Par
import Verif.IR.SkewProps

/-
C20: LoopInterchange.
-/
namespace Docc.IR
open Docc.Sym

/-- Rows `v ∈ xs` of a nest over `i` and `j ∈ ys`: `cur v n` is the state after the first `n` inner iterations of row `v` run alone
from `σ`; `R v n`, `W v n` is the footprint of its next one.  Each ends normally without writing a loop variable, reads no private
container before writing it, and what it reads or writes outside `X` is not written by another row. -/
structure RowsIndependent (D : Rel) (i j : String) (X : String → Prop) (σ : St) (xs ys : List Int) (cur : Int → Nat → St)
    (R W : Int → Nat → Loc → Prop) : Prop where
  ivars : X i ∧ X j ∧ i ≠ j
  start : ∀ v, cur v 0 = σ
  foot : ∀ v ∈ xs, ∀ n, (h : n < ys.length) → ∃ k, (k = .normal ∨ k = .cont) ∧
    D.Foot (((cur v n).setS i v).setS j ys[n]) k (cur v (n + 1)) (R v n) (W v n)
  keep : ∀ v ∈ xs, ∀ n < ys.length, ¬ W v n (i, []) ∧ ¬ W v n (j, [])
  priv : ∀ v ∈ xs, ∀ n < ys.length, ∀ l, R v n l → l ≠ (i, []) → l ≠ (j, []) → ¬ X l.1
  apart : ∀ v ∈ xs, ∀ w ∈ xs, v ≠ w → ∀ n < ys.length, ∀ k < ys.length, ∀ l, W v n l → ¬ X l.1 → ¬ R w k l ∧ ¬ W w k l

/-- the state in which row `v` has executed `n v` inner iterations -/
def MergedRows (X : String → Prop) (σ : St) (xs : List Int) (cur : Int → Nat → St) (W : Int → Nat → Loc → Prop) (n : Int → Nat) (τ : St) :
    Prop :=
  ∀ l : Loc, ¬ X l.1 → (∀ v ∈ xs, (∃ k < n v, W v k l) → τ.at l = (cur v (n v)).at l) ∧
    ((∀ v ∈ xs, ∀ k < n v, ¬ W v k l) → τ.at l = σ.at l)

section
variable {D : Rel} {i j : String} {X : String → Prop} {σ : St} {xs ys : List Int} {cur : Int → Nat → St} {R W : Int → Nat → Loc → Prop}

theorem RowsIndependent.unwritten (I : RowsIndependent D i j X σ xs ys cur R W) {v : Int} (hv : v ∈ xs) {l : Loc} (hx : ¬ X l.1) :
    (n : Nat) → n ≤ ys.length → (∀ k < n, ¬ W v k l) → (cur v n).at l = σ.at l
  | 0, _, _ => by rw [I.start]
  | n + 1, hn, h => by
    obtain ⟨k, _, _, h2, _⟩ := I.foot v hv n (by omega)
    rw [h2 l (h n (by omega)), at_setS, at_setS]
    · exact I.unwritten hv hx n (by omega) fun k hk => h k (by omega)
    · intro e; exact hx (by rw [e]; exact I.ivars.1)
    · intro e; exact hx (by rw [e]; exact I.ivars.2.1)

/-- progress of one row by one -/
def bump (n : Int → Nat) (v : Int) : Int → Nat := fun w => if w = v then n v + 1 else n w

/-- the next inner iteration of a row, started where other rows have made progress -/
theorem RowsIndependent.inst (I : RowsIndependent D i j X σ xs ys cur R W) {v : Int} (hv : v ∈ xs) {n : Int → Nat}
    (hb : ∀ w ∈ xs, n w ≤ ys.length) (hn : n v < ys.length) {τ : St} (hm : MergedRows X σ xs cur W n τ) (hi : τ.at (i, []) = v)
    (hj : τ.at (j, []) = ys[n v]) :
    ∃ k τ', (k = .normal ∨ k = .cont) ∧ D τ k τ' ∧ MergedRows X σ xs cur W (bump n v) τ' ∧ τ'.at (i, []) = v ∧ τ'.at (j, []) = ys[n v] := by
  obtain ⟨k, hk, h1, h2, h3⟩ := I.foot v hv (n v) hn
  have hval : ∀ l : Loc, ¬ X l.1 → (¬ ∃ w ∈ xs, w ≠ v ∧ ∃ k < n w, W w k l) → τ.at l = (cur v (n v)).at l := by
    intro l hx hno
    by_cases hw : ∃ k < n v, W v k l
    · exact (hm l hx).1 v hv hw
    · rw [I.unwritten hv hx (n v) (by omega) fun k hk hW => hw ⟨k, hk, hW⟩]
      refine (hm l hx).2 fun w hw' k hk hW => ?_
      by_cases e : w = v
      · rw [e] at hk hW; exact hw ⟨k, hk, hW⟩
      · exact hno ⟨w, hw', e, k, hk, hW⟩
  have hread : ∀ l, R v (n v) l → τ.at l = (((cur v (n v)).setS i v).setS j ys[n v]).at l := by
    intro l hl
    by_cases e : l = (j, [])
    · rw [e, at_setS_same, hj]
    · rw [at_setS e]
      by_cases e' : l = (i, [])
      · rw [e', at_setS_same, hi]
      · rw [at_setS e']
        have hx := I.priv v hv (n v) hn l hl e' e
        refine hval l hx ?_
        rintro ⟨w, hw, hne, k, hk, hW⟩
        exact (I.apart w hw v hv hne k (by have := hb w hw; omega) (n v) hn l hW hx).1 hl
  obtain ⟨τ', a, b, c⟩ := h3 τ hread
  refine ⟨k, τ', hk, a, fun l hx => ⟨fun w hw hW => ?_, fun hall => ?_⟩, ?_, ?_⟩
  · have hli : l ≠ (i, []) := fun e => hx (by rw [e]; exact I.ivars.1)
    have hlj : l ≠ (j, []) := fun e => hx (by rw [e]; exact I.ivars.2.1)
    by_cases e : w = v
    · subst e
      simp only [bump, if_pos] at hW ⊢
      obtain ⟨k', hk', hW⟩ := hW
      by_cases hWv : W w (n w) l
      · exact b l hWv
      · rw [c l hWv, h2 l hWv, at_setS hlj, at_setS hli]
        refine hval l hx ?_
        rintro ⟨w', hw', hne, k'', hk'', hW'⟩
        exact (I.apart w' hw' w hw hne k'' (by have := hb w' hw'; omega) k' (by omega) l hW' hx).2 hW
    · simp only [bump, if_neg e] at hW ⊢
      obtain ⟨k', hk', hW⟩ := hW
      have hk2 : k' < ys.length := by have := hb w hw; omega
      have : ¬ W v (n v) l := (I.apart w hw v hv e k' hk2 (n v) hn l hW hx).2
      rw [c l this]
      exact (hm l hx).1 w hw ⟨k', hk', hW⟩
  · have hnv : ¬ W v (n v) l := hall v hv (n v) (by simp [bump])
    rw [c l hnv]
    refine (hm l hx).2 fun w hw k hk => hall w hw k ?_
    by_cases e : w = v
    · subst e; simp [bump]; omega
    · simpa [bump, if_neg e] using hk
  · rw [c _ (I.keep v hv _ hn).1, hi]
  · rw [c _ (I.keep v hv _ hn).2, hj]

theorem MergedRows.set {n : Int → Nat} {τ : St} (h : MergedRows X σ xs cur W n τ) {x : String} (hx : X x) (a : Int) :
    MergedRows X σ xs cur W n (τ.setS x a) := by
  intro l hl
  have : l ≠ (x, []) := fun e => hl (by rw [e]; exact hx)
  rw [at_setS this]; exact h l hl

theorem MergedRows.congr {n n' : Int → Nat} {τ : St} (h : MergedRows X σ xs cur W n τ) (he : ∀ v ∈ xs, n v = n' v) :
    MergedRows X σ xs cur W n' τ := by
  intro l hl
  refine ⟨fun v hv hW => ?_, fun hall => (h l hl).2 fun v hv k hk => hall v hv k (he v hv ▸ hk)⟩
  rw [← he v hv] at hW ⊢
  exact (h l hl).1 v hv hW

theorem MergedRows.offX {n : Int → Nat} {τ τ' : St} (h : MergedRows X σ xs cur W n τ) (h' : MergedRows X σ xs cur W n τ') : OffX X τ τ' := by
  intro l hx
  by_cases hw : ∃ v ∈ xs, ∃ k < n v, W v k l
  · obtain ⟨v, hv, hW⟩ := hw
    rw [(h l hx).1 v hv hW, (h' l hx).1 v hv hW]
  · have : ∀ v ∈ xs, ∀ k < n v, ¬ W v k l := fun v hv k hk hW => hw ⟨v, hv, k, hk, hW⟩
    rw [(h l hx).2 this, (h' l hx).2 this]
end

/-- what a loop header over `i` reads besides `i` and `Y` is neither private nor written in any row -/
def RowHeader (i : String) (Y : String → Prop) (X : String → Prop) (a : Expr) (k : Cond) (u : Expr) (xs : List Int) (len : Nat) (W : Int → Nat → Loc → Prop) :
    Prop :=
  i ∉ a.atoms ∧ ∀ x, (x ∈ a.atoms ∨ x ∈ k.atoms ∨ x ∈ u.atoms) → x ≠ i → ¬ Y x → ¬ X x ∧ ∀ v ∈ xs, ∀ n < len, ¬ W v n (x, [])

/-- Executing a loop whose iterations take the invariant from `P n` to `P (n + 1)`. -/
theorem iter_steps {E : Env} {i : String} {k : Cond} {u : Expr} {D : Rel} {σ : St} {vs : List Int} {P : Nat → St → Prop} {v e : Int}
    {ws : List Int} (hI : Iters E i k u σ v ws e)
    (hsame : ∀ n τ x, n ≤ vs.length → P n τ → (x ∈ k.atoms ∨ x ∈ u.atoms) → x ≠ i → τ x [] = σ x [])
    (hset : ∀ n τ a, P n τ → P n (τ.setS i a))
    (hstep : ∀ (n : Nat) (hn : n < vs.length) (τ : St), P n τ → τ.at (i, []) = vs[n] →
      ∃ c τ', (c = .normal ∨ c = .cont) ∧ D τ c τ' ∧ P (n + 1) τ' ∧ τ'.at (i, []) = vs[n])
    (n : Nat) (hn : vs.drop n = ws) (hn' : n ≤ vs.length) (τ : St) (hP : P n τ) (hi : τ.at (i, []) = v) :
    ∃ τ', Rel.iter (fun σ => σ.cond E k) (fun σ => σ.setS i (σ.ev E u)) D τ .normal τ' ∧ P vs.length τ' := by
  have hag : ∀ n τ v, n ≤ vs.length → P n τ → τ.at (i, []) = v → ∀ x, (x ∈ k.atoms ∨ x ∈ u.atoms) → τ x [] = (σ.setS i v) x [] := by
    intro n τ v hn hP hi x hx
    by_cases e : x = i
    · rw [e]; simpa [St.at, St.setS, St.set] using hi
    · rw [St.setS_other _ _ e]; exact hsame n τ x hn hP hx e
  induction hI generalizing n τ with
  | @done v hc =>
    have : n = vs.length := by have := congrArg List.length hn; simp at this; omega
    subst this
    refine ⟨τ, .done ?_, hP⟩
    rw [← hc]; exact St.cond_congr E fun x hx => hag _ τ v hn' hP hi x (Or.inl hx)
  | @step v ws e hc _ ih =>
    have hlt : n < vs.length := by have := congrArg List.length hn; simp at this; omega
    have hget : vs[n] = v := by rw [List.drop_eq_getElem_cons hlt] at hn; exact (List.cons.inj hn).1
    have hdrop : vs.drop (n + 1) = ws := by rw [List.drop_eq_getElem_cons hlt] at hn; exact (List.cons.inj hn).2
    obtain ⟨c, τ1, hc1, h1, h2, h3⟩ := hstep n hlt τ hP (by rw [hi, hget])
    have hu : τ1.ev E u = (σ.setS i v).ev E u := St.ev_congr E fun x hx => hag _ τ1 v (by omega) h2 (by rw [h3, hget]) x (Or.inr hx)
    obtain ⟨τ', a, b⟩ := ih (n + 1) hdrop hlt (τ1.setS i (τ1.ev E u)) (hset _ _ _ h2) (by rw [at_setS_same, hu])
    refine ⟨τ', .step c ?_ h1 hc1 a, b⟩
    rw [← hc]; exact St.cond_congr E fun x hx => hag _ τ v hn' hP hi x (Or.inl hx)

theorem one_child_den (E : Env) (n : Node) : (Seq.cons n [] .nil).den E = n.den E := by
  have : Rel.upd (runTrans E []) = Rel.upd id := rfl
  simp only [Seq.den, this, Rel.seq_skip]

/-- a whole loop whose iterations take the invariant from `P n` to `P (n + 1)` -/
theorem loop_steps {E : Env} {m : Bool} {i : String} {a : Expr} {k : Cond} {u : Expr} {s : Seq} {σ : St} {vs : List Int}
    {P : Nat → St → Prop} {e : Int} (hI : Iters E i k u σ (σ.ev E a) vs e) (ha : i ∉ a.atoms)
    (hsame : ∀ n τ x, n ≤ vs.length → P n τ → (x ∈ a.atoms ∨ x ∈ k.atoms ∨ x ∈ u.atoms) → x ≠ i → τ x [] = σ x [])
    (hset : ∀ n τ a, P n τ → P n (τ.setS i a))
    (hstep : ∀ (n : Nat) (hn : n < vs.length) (τ : St), P n τ → τ.at (i, []) = vs[n] →
      ∃ c τ', (c = .normal ∨ c = .cont) ∧ s.den E τ c τ' ∧ P (n + 1) τ' ∧ τ'.at (i, []) = vs[n]) (τ : St) (hP : P 0 τ) :
    ∃ τ', (Node.loop m i a k u s).den E τ .normal τ' ∧ P vs.length τ' := by
  have hv : τ.ev E a = σ.ev E a := St.ev_congr E fun x hx => hsame 0 τ x (Nat.zero_le _) hP (Or.inl hx) fun e : x = i => ha (e ▸ hx)
  obtain ⟨τ', h1, h2⟩ := iter_steps (D := s.den E) (P := P) hI (fun n τ x hn hp hx => hsame n τ x hn hp (Or.inr hx)) hset hstep 0 rfl
    (Nat.zero_le _) (τ.setS i (τ.ev E a)) (hset _ _ _ hP) (by rw [at_setS_same, hv])
  exact ⟨τ', by rw [Node.den, Rel.upd_seq]; exact h1, h2⟩

/-- **C20** (partial): if LoopInterchange accepts the nest, its rows are independent (what an outer Map promises), neither header depends
on what the body writes, and the outer one not on the inner variable, then the nest and the interchanged nest both terminate and leave
the same memory outside the private containers and the loop variables.  Missing: `can_be_applied` also accepts nests where only the inner
loop is a Map, bodies that leave the inner loop, and headers the body changes (see the `_violated` theorems); final values of the loop
variables. -/
theorem interchange_partial {E : Env} {m mj : Bool} {i j : String} {ai aj : Expr} {ci cj : Cond} {ui uj : Expr} {s : Seq} {t : Trans} {r : Seq}
    {X : String → Prop} {σ : St} {xs ys : List Int} {ei ej : Int} {cur : Int → Nat → St} {R W : Int → Nat → Loc → Prop}
    (hc : canInterchange m i (.cons (.loop mj j aj cj uj s) t r) = true)
    (hx : Iters E i ci ui σ (σ.ev E ai) xs ei) (hy : Iters E j cj uj σ (σ.ev E aj) ys ej)
    (I : RowsIndependent (s.den E) i j X σ xs ys cur R W) (hi : RowHeader i (fun _ => False) X ai ci ui xs ys.length W)
    (hj : RowHeader j (· = i) X aj cj uj xs ys.length W) :
    ∃ σ' σ'', (Node.loop m i ai ci ui (.cons (.loop mj j aj cj uj s) t r)).den E σ .normal σ' ∧
      (interchange m i ai ci ui (.cons (.loop mj j aj cj uj s) t r)).den E σ .normal σ'' ∧ OffX X σ' σ'' := by
  obtain ⟨rfl, rfl, hfree⟩ : t = [] ∧ r = .nil ∧ ¬ (i ∈ aj.atoms ∨ i ∈ cj.atoms ∨ i ∈ uj.atoms) := by
    unfold canInterchange at hc
    split at hc
    · rename_i heq
      simp only [Seq.cons.injEq, Node.loop.injEq] at heq
      obtain ⟨⟨rfl, rfl, rfl, rfl, rfl, rfl⟩, rfl, rfl⟩ := heq
      simp only [Bool.and_eq_true, Bool.not_eq_true', decide_eq_false_iff_not] at hc
      exact ⟨rfl, rfl, by rintro (h | h | h); exacts [hc.1.1.1 h, hc.1.1.2 h, hc.1.2 h]⟩
    · cases hc
  have hnd := hx.distinct
  have hj' : ∀ x, (x ∈ aj.atoms ∨ x ∈ cj.atoms ∨ x ∈ uj.atoms) → x ≠ j → ¬ X x ∧ ∀ v ∈ xs, ∀ n < ys.length, ¬ W v n (x, []) :=
    fun x h hne => hj.2 x h hne fun e => hfree (e ▸ h)
  have hfix : ∀ (x : String) (n : Int → Nat) (τ : St), (¬ X x ∧ ∀ v ∈ xs, ∀ n < ys.length, ¬ W v n (x, [])) → (∀ v ∈ xs, n v ≤ ys.length) →
      MergedRows X σ xs cur W n τ → τ x [] = σ x [] := by
    intro x n τ h hb hm
    exact (hm (x, []) h.1).2 fun v hv k hk => h.2 v hv k (by have := hb v hv; omega)
  have h0 : MergedRows X σ xs cur W (fun _ => 0) σ := fun l _ => ⟨fun v _ h => by obtain ⟨k, hk, _⟩ := h; exact absurd hk (Nat.not_lt_zero k), fun _ => rfl⟩
  -- the original nest
  let rowN (n : Nat) (k : Nat) : Int → Nat := fun w => if w ∈ xs.take n then ys.length else if xs[n]? = some w then k else 0
  have hrowb : ∀ n k w, k ≤ ys.length → rowN n k w ≤ ys.length := by
    intro n k w hk; simp only [rowN]; split
    · exact Nat.le_refl _
    · split <;> omega
  have hnotin : ∀ n (hn : n < xs.length), xs[n] ∉ xs.take n := by
    intro n hn h
    obtain ⟨k, hk, e⟩ := List.mem_iff_getElem.1 h
    simp only [List.length_take] at hk
    rw [List.getElem_take] at e
    have := (List.nodup_iff_injective_get.1 hnd) (a₁ := ⟨k, by omega⟩) (a₂ := ⟨n, hn⟩) e
    simp at this; omega
  have hrow1 : ∀ n (hn : n < xs.length) k, rowN n k xs[n] = k := by
    intro n hn k; simp only [rowN, if_neg (hnotin n hn), List.getElem?_eq_getElem hn, if_true]
  have hbump1 : ∀ n (hn : n < xs.length) k w, bump (rowN n k) xs[n] w = rowN n (k + 1) w := by
    intro n hn k w
    by_cases e : w = xs[n]
    · subst e; simp only [bump, if_pos, hrow1 n hn]
    · have e' : ¬ (some xs[n] = some w) := fun h => e (Option.some.inj h).symm
      simp only [bump, if_neg e, rowN, List.getElem?_eq_getElem hn, if_neg e']
  have hnext : ∀ n (hn : n < xs.length) w, rowN n ys.length w = rowN (n + 1) 0 w := by
    intro n hn w
    simp only [rowN, List.getElem?_eq_getElem hn]
    simp only [List.take_succ_eq_append_getElem hn, List.mem_append, List.mem_singleton]
    by_cases h1 : w ∈ xs.take n
    · simp [h1]
    · by_cases h2 : w = xs[n]
      · subst h2; simp
      · have h2' : ¬ xs[n] = w := fun h => h2 h.symm
        simp [h1, h2, h2']
  obtain ⟨σ', ho, hom⟩ := loop_steps (m := m) (s := .cons (.loop mj j aj cj uj s) [] .nil)
    (P := fun n τ => MergedRows X σ xs cur W (rowN n 0) τ) hx hi.1
    (fun n τ x _ hP hx hne => hfix x _ τ (hi.2 x hx hne fun h => h) (fun v _ => hrowb n 0 v (Nat.zero_le _)) hP)
    (fun n τ a hP => hP.set I.ivars.1 a)
    (fun n hn τ hP hiv => by
      obtain ⟨τ', h1, h2, h3⟩ := loop_steps (m := mj) (s := s)
        (P := fun k τ => MergedRows X σ xs cur W (rowN n k) τ ∧ τ.at (i, []) = xs[n]) hy hj.1
        (fun k τ x hk hP hx hne => hfix x _ τ (hj' x hx hne) (fun v _ => hrowb n k v hk) hP.1)
        (fun k τ a hP => ⟨hP.1.set I.ivars.2.1 a, by
          rw [at_setS fun e => I.ivars.2.2 (congrArg Prod.fst e)]; exact hP.2⟩)
        (fun k hk τ hP hjv => by
          have hr := hrow1 n hn k
          obtain ⟨c, τ', a1, a2, a3, a4, a5⟩ := I.inst (List.getElem_mem hn) (n := rowN n k) (fun w _ => hrowb n k w (by omega))
            (by rw [hr]; exact hk) hP.1 hP.2 (by simp only [hr]; exact hjv)
          exact ⟨c, τ', a1, a2, ⟨a3.congr fun v _ => hbump1 n hn k v, a4⟩, by simp only [hr] at a5; exact a5⟩)
        τ ⟨hP, hiv⟩
      exact ⟨.normal, τ', Or.inl rfl, by rw [one_child_den]; exact h1, h2.congr fun v _ => hnext n hn v, h3⟩)
    σ (h0.congr fun v _ => by simp only [rowN, List.take_zero, List.not_mem_nil, if_false]; split <;> rfl)
  -- the interchanged nest
  let colN (n : Nat) (k : Nat) : Int → Nat := fun w => if w ∈ xs.take k then n + 1 else n
  have hcolb : ∀ n k w, n < ys.length → colN n k w ≤ ys.length := by
    intro n k w hk; simp only [colN]; split <;> omega
  have hcol1 : ∀ n k (hk : k < xs.length), colN n k xs[k] = n := by
    intro n k hk; simp only [colN, if_neg (hnotin k hk)]
  have hbump2 : ∀ n k (hk : k < xs.length) w, bump (colN n k) xs[k] w = colN n (k + 1) w := by
    intro n k hk w
    rw [bump, hcol1 n k hk]
    simp only [colN]
    simp only [List.take_succ_eq_append_getElem hk, List.mem_append, List.mem_singleton]
    by_cases e : w = xs[k]
    · simp [e]
    · simp [e]
  obtain ⟨σ'', hp, hpm⟩ := loop_steps (m := mj) (s := .cons (.loop m i ai ci ui s) [] .nil)
    (P := fun n τ => MergedRows X σ xs cur W (fun _ => n) τ) hy hj.1
    (fun n τ x hn hP hx hne => hfix x _ τ (hj' x hx hne) (fun v _ => hn) hP)
    (fun n τ a hP => hP.set I.ivars.2.1 a)
    (fun n hn τ hP hjv => by
      obtain ⟨τ', h1, h2, h3⟩ := loop_steps (m := m) (s := s)
        (P := fun k τ => MergedRows X σ xs cur W (colN n k) τ ∧ τ.at (j, []) = ys[n]) hx hi.1
        (fun k τ x _ hP hx hne => hfix x _ τ (hi.2 x hx hne fun h => h) (fun v _ => hcolb n k v hn) hP.1)
        (fun k τ a hP => ⟨hP.1.set I.ivars.1 a, by
          rw [at_setS fun e => I.ivars.2.2 (congrArg Prod.fst e).symm]; exact hP.2⟩)
        (fun k hk τ hP hiv => by
          have hr := hcol1 n k hk
          obtain ⟨c, τ', a1, a2, a3, a4, a5⟩ := I.inst (List.getElem_mem hk) (n := colN n k) (fun w _ => hcolb n k w hn)
            (by rw [hr]; exact hn) hP.1 hiv (by simp only [hr]; exact hP.2)
          exact ⟨c, τ', a1, a2, ⟨a3.congr fun v _ => hbump2 n k hk v, by simp only [hr] at a5; exact a5⟩, a4⟩)
        τ ⟨hP.congr fun v _ => by simp [colN], hjv⟩
      exact ⟨.normal, τ', Or.inl rfl, by rw [one_child_den]; exact h1, h2.congr fun v hv => by simp [colN, hv], h3⟩)
    σ h0
  refine ⟨σ', σ'', ho, hp, MergedRows.offX (hom.congr fun v hv => ?_) hpm⟩
  simp [rowN, hv]

/-- header `i < 3`, `i + 1` -/
def exLt (i : String) (n : Int) : Cond := .lt (.sym i) (.int n)
/-- the successor update -/
def exInc (i : String) : Expr := .add [.sym i, .int 1]
/-- a nest `for/map (i = 0; i < 2; i++) for/map (j = 0; j < 2; j++) s` -/
def exNest (m mj : Bool) (s : Seq) : Node :=
  .loop m "i" (.int 0) (exLt "i" 2) (exInc "i") (.cons (.loop mj "j" (.int 0) (exLt "j" 2) (exInc "j") s) [] .nil)
/-- its interchange -/
def exSwapped (m mj : Bool) (s : Seq) : Node :=
  interchange m "i" (.int 0) (exLt "i" 2) (exInc "i") (.cons (.loop mj "j" (.int 0) (exLt "j" 2) (exInc "j") s) [] .nil)

theorem exIters (i : String) (σ : St) : Iters exEnv i (exLt i 2) (exInc i) σ (σ.ev exEnv (.int 0)) [0, 1] 2 := by
  have hc : ∀ v : Int, (σ.setS i v).cond exEnv (exLt i 2) = decide (v < 2) := by
    intro v
    have h1 : (σ.setS i v).ev exEnv (.sym i) = v := St.ev_of_eval (by simp [Expr.eval, St.val, St.setS_same])
    have h2 : (σ.setS i v).ev exEnv (.int 2) = 2 := St.ev_of_eval rfl
    simp [St.cond, exLt, Cond.eval, h1, h2]
  have hu : ∀ v : Int, (σ.setS i v).ev exEnv (exInc i) = v + 1 := by
    intro v
    exact St.ev_of_eval (eval_add2 (by simp [Expr.eval, St.val, St.setS_same]) rfl)
  have h0 : σ.ev exEnv (.int 0) = 0 := St.ev_of_eval rfl
  rw [h0]
  refine .step (by rw [hc]; decide) ?_
  rw [hu]
  refine .step (by rw [hc]; decide) ?_
  rw [hu]
  exact .done (by rw [hc]; decide)

/-- `A[i, j] := A[i, j - 1]`: a dependency within each row -/
def exRowStmt : Stmt := .tasklet "assign" [("A", [.sym "i", .add [.sym "j", .int (-1)]])] "A" [.sym "i", .sym "j"]

/-- the state after `n` inner iterations of row `v` -/
def exRowCur (σ : St) (v : Int) : Nat → St
  | 0 => σ
  | n + 1 => exRowStmt.run exEnv (((exRowCur σ v n).setS "i" v).setS "j" n)

/-- the hypotheses of `interchange_partial` hold for `map i { for j { A[i, j] := A[i, j - 1] } }` -/
example (σ : St) : canInterchange true "i" (.cons (.loop false "j" (.int 0) (exLt "j" 2) (exInc "j") (.one (.block [exRowStmt]))) [] .nil) = true ∧
    RowsIndependent ((Seq.one (.block [exRowStmt])).den exEnv) "i" "j" (fun x => x = "i" ∨ x = "j") σ [0, 1] [0, 1] (exRowCur σ)
      (fun v n l => l = ("i", []) ∨ l = ("j", []) ∨ l = ("A", [v, (n : Int) - 1])) (fun v n l => l = ("A", [v, (n : Int)])) ∧
    RowHeader "i" (fun _ => False) (fun x => x = "i" ∨ x = "j") (.int 0) (exLt "i" 2) (exInc "i") [0, 1] 2 (fun v n l => l = ("A", [v, (n : Int)])) ∧
    RowHeader "j" (· = "i") (fun x => x = "i" ∨ x = "j") (.int 0) (exLt "j" 2) (exInc "j") [0, 1] 2 (fun v n l => l = ("A", [v, (n : Int)])) := by
  refine ⟨by decide, ⟨⟨Or.inl rfl, Or.inr rfl, by decide⟩, fun _ => rfl, fun v _ n hn => ⟨.normal, Or.inl rfl, ?_⟩, ?_, ?_, ?_⟩,
    ⟨by decide, ?_⟩, ⟨by decide, ?_⟩⟩
  · have hget : ([0, 1] : List Int)[n] = (n : Int) := by
      match n, hn with
      | 0, _ => rfl
      | 1, _ => rfl
      | n + 2, h => simp at h
    rw [hget, Seq.one, one_child_den, Node.den]
    have hi : ∀ τ : St, ((τ.setS "i" v).setS "j" n).ev exEnv (.sym "i") = v := fun τ =>
      St.ev_of_eval (by simp [Expr.eval, St.val, St.setS, St.set])
    have hj : ∀ τ : St, ((τ.setS "i" v).setS "j" n).ev exEnv (.sym "j") = n := fun τ =>
      St.ev_of_eval (by simp [Expr.eval, St.val, St.setS, St.set])
    have hj1 : ∀ τ : St, ((τ.setS "i" v).setS "j" n).ev exEnv (.add [.sym "j", .int (-1)]) = (n : Int) - 1 := fun τ => by
      have h : (Expr.sym "j").eval (((τ.setS "i" v).setS "j" n).val exEnv) = .fin n := by simp [Expr.eval, St.val, St.setS, St.set]
      have h2 := eval_add2 (b := .int (-1)) (y := -1) h rfl
      rw [← Int.sub_eq_add_neg] at h2
      exact St.ev_of_eval h2
    have hw : ∀ l, exRowStmt.wr exEnv (((exRowCur σ v n).setS "i" v).setS "j" n) l ↔ l = ("A", [v, (n : Int)]) := by
      intro l; simp only [exRowStmt, Stmt.wr, List.map_cons, List.map_nil, hi, hj]
    have hr : ∀ l, exRowStmt.rd exEnv (((exRowCur σ v n).setS "i" v).setS "j" n) l →
        l = ("i", []) ∨ l = ("j", []) ∨ l = ("A", [v, (n : Int) - 1]) := by
      intro l hl
      have hatom : ∀ x : String, l.1 = x → l.2 = [] → l = (x, []) := fun x h1 h2 => Prod.ext h1 h2
      simp only [exRowStmt, Stmt.rd, List.map_cons, List.map_nil, hi, hj1, List.mem_cons, List.not_mem_nil, or_false, exists_eq_left,
        exists_eq_or_imp, Expr.atoms, Expr.atomsL, List.append_nil] at hl
      rcases hl with (h | h | h) | h | h
      · exact Or.inr (Or.inr h)
      · exact Or.inl (hatom _ h.1 h.2)
      · exact Or.inr (Or.inl (hatom _ h.1 h.2))
      · exact Or.inl (hatom _ h.1 h.2)
      · exact Or.inr (Or.inl (hatom _ h.1 h.2))
    exact (exRowStmt.foot exEnv _).mono hr (fun l h => (hw l).1 h) (fun l h h' => absurd ((hw l).2 h) h')
  · intro v _ n _; simp
  · rintro v _ n _ l (h | h | h) h1 h2
    · exact absurd h h1
    · exact absurd h h2
    · subst h; simp
  · rintro v _ w _ hne n _ k _ l rfl hx
    simp [hne]
  · intro x hx hne; simp [exLt, exInc, Expr.atoms, Expr.atomsL, Cond.atoms] at hx; exact absurd hx hne
  · intro x hx hne; simp [exLt, exInc, Expr.atoms, Expr.atomsL, Cond.atoms] at hx; exact absurd hx hne

/-- **C20 fails** when only the inner loop is a Map: `for i { map j { A[i, j] := A[i - 1, j + 1] } }`: the inner iterations are
independent for each `i`, but `A[1, 0]` needs `A[0, 1]`, which the interchanged nest computes later. -/
theorem interchange_inner_map_violated : ∃ (E : Env) (σ σ' : St) (s : Seq),
    canInterchange false "i" (.cons (.loop true "j" (.int 0) (exLt "j" 2) (exInc "j") s) [] .nil) = true ∧
    (exNest false true s).den E σ .normal σ' ∧ ∀ c τ', (exSwapped false true s).den E σ c τ' → τ' "A" [1, 0] ≠ σ' "A" [1, 0] := by
  obtain ⟨σ', h1, h2⟩ := Node.run_obs (E := exEnv) (σ := fun x l => if x = "A" ∧ l = [-1, 2] then 1 else 0) 60 (x := "A") (j := [1, 0])
    (c := .normal) (v := 1) (s := exNest false true (.one (.block [.tasklet "assign"
      [("A", [.add [.sym "i", .int (-1)], .add [.sym "j", .int 1]])] "A" [.sym "i", .sym "j"]]))) (by decide)
  refine ⟨exEnv, _, σ', _, by decide, h1, ?_⟩
  intro c τ' h
  have := (Node.run_obs_all 60 (x := "A") (j := [1, 0]) (c := .normal) (v := 0) (by decide) h).2
  rw [this, h2]; decide

/-- **C20 fails** for bodies with a break: `map i { for j { if (j == i) break; A[i, j] := 1 } }`; interchanged, the break leaves the loop
over `i`. -/
theorem interchange_break_violated : ∃ (E : Env) (σ σ' : St) (s : Seq),
    canInterchange true "i" (.cons (.loop false "j" (.int 0) (exLt "j" 2) (exInc "j") s) [] .nil) = true ∧
    (exNest true false s).den E σ .normal σ' ∧ ∀ c τ', (exSwapped true false s).den E σ c τ' → τ' "A" [1, 0] ≠ σ' "A" [1, 0] := by
  obtain ⟨σ', h1, h2⟩ := Node.run_obs (E := exEnv) (σ := fun x _ => if x = "B" then 1 else 0) 60 (x := "A") (j := [1, 0])
    (c := .normal) (v := 1) (s := exNest true false (.cons (.ifElse (.cons (.eq (.sym "i") (.sym "j")) (.one .brk) .nil)) []
      (.one (.block [.tasklet "assign" [("B", [])] "A" [.sym "i", .sym "j"]])))) (by decide)
  refine ⟨exEnv, _, σ', _, by decide, h1, ?_⟩
  intro c τ' h
  have := (Node.run_obs_all 60 (x := "A") (j := [1, 0]) (c := .normal) (v := 0) (by decide) h).2
  rw [this, h2]; decide

/-- **C20 fails** when the body changes the bound of the inner loop: `map i { for (j = 0; j < N; j++) { A[i, j] := 1; N := 0 } }` with
`N = 1` runs `(0, 0)` only; interchanged, it runs `(0, 0)` and `(1, 0)`. -/
theorem interchange_bound_violated : ∃ (E : Env) (σ σ' : St) (k : Cond) (s : Seq),
    canInterchange true "i" (.cons (.loop false "j" (.int 0) k (exInc "j") s) [] .nil) = true ∧
    (Node.loop true "i" (.int 0) (exLt "i" 2) (exInc "i") (.cons (.loop false "j" (.int 0) k (exInc "j") s) [] .nil)).den E σ .normal σ' ∧
    ∀ c τ', (interchange true "i" (.int 0) (exLt "i" 2) (exInc "i") (.cons (.loop false "j" (.int 0) k (exInc "j") s) [] .nil)).den E σ c τ' →
      τ' "A" [1, 0] ≠ σ' "A" [1, 0] := by
  obtain ⟨σ', h1, h2⟩ := Node.run_obs (E := exEnv) (σ := fun x _ => if x = "B" ∨ x = "N" then 1 else 0) 60 (x := "A") (j := [1, 0])
    (c := .normal) (v := 0) (s := .loop true "i" (.int 0) (exLt "i" 2) (exInc "i")
      (.cons (.loop false "j" (.int 0) (.lt (.sym "j") (.sym "N")) (exInc "j")
        (.cons (.block [.tasklet "assign" [("B", [])] "A" [.sym "i", .sym "j"]]) [("N", .int 0)] .nil)) [] .nil)) (by decide)
  refine ⟨exEnv, _, σ', .lt (.sym "j") (.sym "N"), _, by decide, h1, ?_⟩
  intro c τ' h
  have := (Node.run_obs_all 60 (x := "A") (j := [1, 0]) (c := .normal) (v := 1) (by decide) h).2
  rw [this, h2]; decide

end Docc.IR
