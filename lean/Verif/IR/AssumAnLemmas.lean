import Verif.IR.AssumAn
import Verif.IR.Visit
import Verif.IR.LoopInfoProps
import Verif.Sym.AssumptionsProps
import Verif.Sym.CNFProps
import Verif.Sym.PolyProps

/-
Each step of the assumptions analysis preserves the truth of the assumptions.
-/
namespace Docc.IR
open Docc.Sym

theorem default_holds (x : String) (ρ : Val) : Assum.HoldsFor {} x ρ := by
  simp [Assum.HoldsFor, Expr.eval, V.le_def, V.le]

theorem upd_hold {A : Assums} {ρ : Val} {x : String} {f : Assum → Assum} (h : A.Hold ρ)
    (hf : ∀ a : Assum, a.HoldsFor x ρ → (f a).HoldsFor x ρ) : (Sym.upd A x f).Hold ρ := by
  rw [Assums.hold_iff] at *
  intro y a ha
  unfold Sym.upd at ha
  split at ha
  · rename_i hy; subst hy
    simp only [Option.some.injEq] at ha; subst ha
    apply hf
    cases hA : A y with
    | none => exact default_holds y ρ
    | some b => exact h y b hA
  · exact h y a ha

theorem updAll_hold {ρ : Val} {f : Assum → Assum} : ∀ (xs : List String) {A : Assums}, A.Hold ρ →
    (∀ x ∈ xs, ∀ a : Assum, a.HoldsFor x ρ → (f a).HoldsFor x ρ) → (Sym.updAll A xs f).Hold ρ
  | [], _, h, _ => h
  | x :: r, _, h, hf => updAll_hold r (upd_hold h (hf x (by simp))) fun y hy => hf y (by simp [hy])

theorem addLower_holds {a : Assum} {x : String} {ρ : Val} {b : Expr} (h : a.HoldsFor x ρ) (hb : b.eval ρ ≤ .fin (ρ.sym x)) :
    (a.addLowerBound b).HoldsFor x ρ := by
  unfold Assum.addLowerBound
  split
  · exact h
  · obtain ⟨h1, h2, h3, h4, h5⟩ := h
    refine ⟨h1, fun c hc => ?_, h3, h4, h5⟩
    rcases List.mem_cons.1 hc with rfl | hc
    · exact hb
    · exact h2 c hc

theorem addUpper_holds {a : Assum} {x : String} {ρ : Val} {b : Expr} (h : a.HoldsFor x ρ) (hb : .fin (ρ.sym x) ≤ b.eval ρ) :
    (a.addUpperBound b).HoldsFor x ρ := by
  unfold Assum.addUpperBound
  split
  · exact h
  · obtain ⟨h1, h2, h3, h4, h5⟩ := h
    refine ⟨h1, h2, fun c hc => ?_, h4, h5⟩
    rcases List.mem_cons.1 hc with rfl | hc
    · exact hb
    · exact h3 c hc

theorem addLowers_holds {x : String} {ρ : Val} : ∀ (l : List Expr) {a : Assum}, a.HoldsFor x ρ →
    (∀ b ∈ l, b.eval ρ ≤ .fin (ρ.sym x)) → (l.foldl Assum.addLowerBound a).HoldsFor x ρ
  | [], _, h, _ => h
  | b :: r, _, h, hb => addLowers_holds r (addLower_holds h (hb b (by simp))) fun c hc => hb c (by simp [hc])

theorem addUppers_holds {x : String} {ρ : Val} : ∀ (l : List Expr) {a : Assum}, a.HoldsFor x ρ →
    (∀ b ∈ l, .fin (ρ.sym x) ≤ b.eval ρ) → (l.foldl Assum.addUpperBound a).HoldsFor x ρ
  | [], _, h, _ => h
  | b :: r, _, h, hb => addUppers_holds r (addUpper_holds h (hb b (by simp))) fun c hc => hb c (by simp [hc])

theorem merge_holds {o a : Assum} {x : String} {ρ : Val} (ho : o.HoldsFor x ρ) (ha : a.HoldsFor x ρ) :
    (mergeAssum o a).HoldsFor x ρ := by
  obtain ⟨⟨o1, o1'⟩, o2, o3, o4, o5⟩ := ho
  have hb := addLowers_holds o.lowers (addUppers_holds o.uppers ha o3) o2
  obtain ⟨⟨a1, a1'⟩, _, _, a4, a5⟩ := ha
  obtain ⟨_, b2, b3, _, _⟩ := hb
  refine ⟨⟨?_, ?_⟩, b2, b3, ?_, ?_⟩
  · simp only [mergeAssum, Expr.eval, Expr.evalL_eq_map, List.map_cons, List.map_nil, List.foldl_cons, List.foldl_nil]
    exact V.max_le o1 a1
  · simp only [mergeAssum, Expr.eval, Expr.evalL_eq_map, List.map_cons, List.map_nil, List.foldl_cons, List.foldl_nil]
    exact V.le_min o1' a1'
  · intro b hb
    simp only [mergeAssum] at hb
    split at hb
    · exact o4 b hb
    · rename_i t ht; exact a4 b (by rw [ht]; exact hb)
  · intro b hb
    simp only [mergeAssum] at hb
    split at hb
    · exact o5 b hb
    · rename_i t ht; exact a5 b (by rw [ht]; exact hb)

theorem propagate_hold {inner outer : Assums} {ρ : Val} (hi : inner.Hold ρ) (ho : outer.Hold ρ) :
    (propagate inner outer).Hold ρ := by
  rw [Assums.hold_iff] at *
  intro x a ha
  unfold propagate at ha
  split at ha
  · exact hi x a ha
  · rename_i o hO _; simp only [Option.some.injEq] at ha; subst ha; exact ho x _ hO
  · rename_i o a' hO hI; simp only [Option.some.injEq] at ha; subst ha
    exact merge_holds (ho x o hO) (hi x a' hI)

/-! ### the upper bound of the condition -/

theorem minFold_ge {X : V} {ρ : Val} : ∀ (r : List Expr) (c : Expr), X ≤ c.eval ρ → (∀ b ∈ r, X ≤ b.eval ρ) →
    X ≤ (r.foldl (fun a b => Expr.min [a, b]) c).eval ρ
  | [], _, h, _ => h
  | b :: r, c, h, hr => by
    rw [List.foldl_cons]
    refine minFold_ge r _ ?_ fun d hd => hr d (by simp [hd])
    simp only [Expr.eval, Expr.evalL_eq_map, List.map_cons, List.map_nil, List.foldl_cons, List.foldl_nil]
    exact V.le_min h (hr b (by simp))

theorem minFold_atoms {x : String} : ∀ (r : List Expr) (c : Expr), x ∈ (r.foldl (fun a b => Expr.min [a, b]) c).atoms →
    x ∈ c.atoms ∨ ∃ b ∈ r, x ∈ b.atoms
  | [], _, h => Or.inl h
  | b :: r, c, h => by
    rw [List.foldl_cons] at h
    rcases minFold_atoms r _ h with h | ⟨d, hd, hx⟩
    · simp only [Expr.atoms, Expr.atomsL, List.append_nil, List.mem_append] at h
      rcases h with h | h
      · exact Or.inl h
      · exact Or.inr ⟨b, by simp, h⟩
    · exact Or.inr ⟨d, by simp [hd], hx⟩

theorem minFold_sym {y : String} : ∀ (r : List Expr) (c : Expr), r.foldl (fun a b => Expr.min [a, b]) c = .sym y →
    r = [] ∧ c = .sym y
  | [], _, h => ⟨rfl, h⟩
  | b :: r, c, h => by
    rw [List.foldl_cons] at h
    obtain ⟨_, h⟩ := minFold_sym r _ h
    cases h

/-- The literals from which the analysis may take an upper bound of `i`: `i < N` for another symbol `N`, or a comparison
with an integer. -/
def PlainUpper (i : String) (l : Cond) : Prop :=
  (∃ N, N ≠ i ∧ l = .lt (.sym i) (.sym N)) ∨
    ∃ k : Int, l = .lt (.sym i) (.int k) ∨ l = .le (.sym i) (.int k) ∨ l = .eq (.sym i) (.int k)

theorem plain_upper {i : String} {l : Cond} {b : Expr} (hp : PlainUpper i l) (hb : literalUpper i l = some b) (E : Env) (σ : St)
    (ht : σ.cond E l = true) : .fin (σ i []) ≤ b.eval (σ.val E) ∧ (∀ x ∈ b.atoms, σ i [] + 1 ≤ σ x []) ∧
      ∀ y, b ≠ .sym y := by
  rcases hp with ⟨N, hN, rfl⟩ | ⟨k, rfl | rfl | rfl⟩
  · simp only [literalUpper, true_and] at hb
    split at hb
    · simp only [Option.some.injEq] at hb; subst hb
      have ht : σ i [] < σ N [] := of_decide_eq_true ht
      refine ⟨?_, ?_, ?_⟩
      · rw [eval_ssub (x := σ N []) (y := 1) rfl rfl]
        show σ i [] ≤ _; omega
      · intro x hx
        simp [ssub, Expr.atoms, Expr.atomsL] at hx; subst hx; omega
      · intro y h; simp [ssub] at h
    · simp at hb
  · simp only [literalUpper, true_and, Expr.uses, if_true, Option.some.injEq] at hb; subst hb
    have ht : σ i [] < k := of_decide_eq_true ht
    refine ⟨?_, ?_, ?_⟩
    · rw [eval_ssub (x := k) (y := 1) rfl rfl]
      show σ i [] ≤ _; omega
    · intro x hx
      simp [ssub, Expr.atoms, Expr.atomsL] at hx
    · intro y h; simp [ssub] at h
  · simp only [literalUpper, true_and, Expr.uses, if_true, Option.some.injEq] at hb; subst hb
    have ht : σ i [] ≤ k := of_decide_eq_true ht
    exact ⟨ht, by simp [Expr.atoms], by simp⟩
  · simp only [literalUpper, true_and, Expr.uses, if_true, Option.some.injEq] at hb; subst hb
    have ht : σ i [] = k := by simpa [St.cond, Cond.eval, St.ev, Expr.eval, St.val] using ht
    refine ⟨?_, by simp [Expr.atoms], by simp⟩
    show σ i [] ≤ k; omega

/-- the literal compares `i` with an expression without `i`: `i < e`, `i <= e` or `i == e` -/
def BoundsAbove (i : String) (l : Cond) : Prop :=
  ∃ e : Expr, i ∉ e.atoms ∧ (l = .lt (.sym i) e ∨ l = .le (.sym i) e ∨ l = .eq (.sym i) e)

/-- every literal that bounds `i` from above stands alone in its clause and is plain -/
def PlainCond (i : String) (c : Cond) : Prop :=
  ∀ f, cnf c = some f → ∀ cl ∈ f, ∀ l ∈ cl, BoundsAbove i l → cl = [l] ∧ PlainUpper i l

theorem literalUpper_bounds {i : String} {l : Cond} {b : Expr} (h : literalUpper i l = some b) : BoundsAbove i l := by
  have key : ∀ e : Expr, e.uses i = false → i ∉ e.atoms := by
    intro e he hi
    rw [(uses_iff_mem_atoms i e).mpr hi] at he; cases he
  unfold literalUpper at h
  split at h <;> first | (split at h) | skip
  all_goals first
    | (rename_i hc; obtain ⟨rfl, he⟩ := hc; exact ⟨_, key _ he, by simp⟩)
    | cases h

theorem cnfToUpper_sound {i : String} {c : Cond} {f : CNF} {ub : Expr} (hc : cnf c = some f) (hp : PlainCond i c)
    (hu : cnfToUpper f i = some ub) (E : Env) (σ : St) (ht : σ.cond E c = true) :
    .fin (σ i []) ≤ ub.eval (σ.val E) ∧ (∀ x ∈ ub.atoms, σ i [] + 1 ≤ σ x []) ∧ ∀ y, ub ≠ .sym y := by
  have key : ∀ b ∈ upperCandidates f i, .fin (σ i []) ≤ b.eval (σ.val E) ∧ (∀ x ∈ b.atoms, σ i [] + 1 ≤ σ x []) ∧
      ∀ y, b ≠ .sym y := by
    intro b hb
    simp only [upperCandidates, List.mem_flatMap, List.mem_filterMap] at hb
    obtain ⟨cl, hcl, l, hl, hlb⟩ := hb
    obtain ⟨h1, h2⟩ := hp f hc cl hcl l hl (literalUpper_bounds hlb)
    refine plain_upper h2 hlb E σ ?_
    have := cnf_sound c f hc ⟨fun e => σ.ev E e, fun x => σ x [] != 0⟩
    unfold St.cond at ht ⊢
    rw [ht] at this
    simp only [CNF.eval, List.all_eq_true] at this
    have := this cl hcl
    rw [h1] at this
    simpa using this
  unfold cnfToUpper at hu
  split at hu
  · simp at hu
  · rename_i c0 r hr
    simp only [Option.some.injEq] at hu; subst hu
    rw [hr] at key
    refine ⟨minFold_ge r c0 (key c0 (by simp)).1 fun b hb => (key b (by simp [hb])).1, ?_, ?_⟩
    · intro x hx
      rcases minFold_atoms r c0 hx with h | ⟨b, hb, h⟩
      · exact (key c0 (by simp)).2.1 x h
      · exact (key b (by simp [hb])).2.1 x h
    · intro y h
      obtain ⟨_, h⟩ := minFold_sym r c0 h
      exact (key c0 (by simp)).2.2 y h

/-! ### the assumptions of a loop body -/

theorem body_hold (C : Ctx) (AT : Assums) (E : Env) (σ : St) (i : String) (init : Expr) (cond : Cond) (upd : Expr) (s : Seq)
    (hdef : σ.defd E init) (hp : PlainCond i cond)
    (hc : σ.cond E cond = true) (hlo : isMonotonic C.eng AT upd i = true → σ.ev E init ≤ σ i [])
    (hl : ∀ b ∈ (C.indexBounds i).1, b.eval (σ.val E) ≤ .fin (σ i []))
    (hu : ∀ b ∈ (C.indexBounds i).2, .fin (σ i []) ≤ b.eval (σ.val E))
    (hl0 : ∀ b ∈ (C.indexBounds i).1, b.eval (σ.val E) ≤ .fin (σ.ev E init)) :
    (C.body AT i init cond upd s).Hold (σ.val E) := by
  have h0 : (C.bodyBase i cond upd s).Hold (σ.val E) := by
    unfold Ctx.bodyBase
    refine upd_hold (upd_hold (upd_hold (updAll_hold _ (updAll_hold _ (fun x a h => by simp at h) ?_) ?_) ?_) ?_) ?_
    · intro x _ a ha; exact ha
    · intro x _ a ha; exact ha
    · intro a ha; exact ha
    · intro a ha; exact addLowers_holds _ ha hl
    · intro a ha; exact addUppers_holds _ ha hu
  unfold Ctx.body
  cases hm : isMonotonic C.eng AT upd i with
  | false => simpa using h0
  | true =>
    have hev := St.eval_of_defd hdef
    have hi : init.eval (σ.val E) ≤ .fin ((σ.val E).sym i) := by rw [hev]; exact hlo hm
    have h1 : (C.bodyInit i init (C.bodyBase i cond upd s)).Hold (σ.val E) := by
      have h2 : (Sym.upd (C.bodyBase i cond upd s) i fun a =>
          { a.addLowerBound init with tightLower := some init, lower := init }).Hold (σ.val E) := by
        refine upd_hold h0 fun a ha => ?_
        obtain ⟨⟨_, b1⟩, b2, b3, _, b5⟩ := addLower_holds ha hi
        refine ⟨⟨hi, b1⟩, b2, b3, ?_, b5⟩
        intro b hb; simp only [Option.some.injEq] at hb; subst hb; exact hi
      unfold Ctx.bodyInit
      split
      · rename_i y
        split
        · exact h2
        · refine upd_hold h2 fun a ha => addLowers_holds _ ha fun b hb => ?_
          have := hl0 b hb
          rwa [St.ev_of_eval (n := σ y []) rfl] at this
      · exact h2
    simp only [Bool.not_true, Bool.false_eq_true, if_false]
    split
    · exact h1
    · rename_i f hf
      split
      · exact h1
      · rename_i ub hub
        obtain ⟨u1, u2, u3⟩ := cnfToUpper_sound hf hp hub E σ hc
        unfold Ctx.bodyUpper
        refine updAll_hold _ ?_ ?_
        · have k1 : (Sym.upd (C.bodyInit i init (C.bodyBase i cond upd s)) i fun a =>
              { a.addUpperBound ub with upper := ub }).Hold (σ.val E) := by
            refine upd_hold h1 fun a ha => ?_
            obtain ⟨⟨b1, _⟩, b2, b3, b4, b5⟩ := addUpper_holds ha u1
            exact ⟨⟨b1, u1⟩, b2, b3, b4, b5⟩
          have k2 : (if isContiguous C.eng AT upd i = true then Sym.upd (Sym.upd (C.bodyInit i init (C.bodyBase i cond upd s)) i fun a =>
              { a.addUpperBound ub with upper := ub }) i (fun a => { a with tightUpper := some ub })
              else (Sym.upd (C.bodyInit i init (C.bodyBase i cond upd s)) i fun a =>
              { a.addUpperBound ub with upper := ub })).Hold (σ.val E) := by
            split
            · refine upd_hold k1 fun a ha => ?_
              obtain ⟨b1, b2, b3, b4, b5⟩ := ha
              refine ⟨b1, b2, b3, b4, ?_⟩
              intro b hb; simp only [Option.some.injEq] at hb; subst hb; exact u1
            · exact k1
          split
          · exact absurd rfl (u3 _)
          · exact k2
        · intro x hx a ha
          have hb : (Expr.add [init, .int 1]).eval (σ.val E) ≤ .fin ((σ.val E).sym x) := by
            rw [Docc.Sym.eval_add2 hev (show (Expr.int 1).eval (σ.val E) = .fin 1 from rfl)]
            have := u2 x hx
            have := hlo hm
            show σ.ev E init + 1 ≤ σ x []
            omega
          obtain ⟨⟨_, b1⟩, b2, b3, b4, b5⟩ := addLower_holds ha hb
          exact ⟨⟨hb, b1⟩, b2, b3, b4, b5⟩

end Docc.IR
