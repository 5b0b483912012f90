import Verif.IR.AssumAnLemmas
import Verif.IR.LoopNormProps
import Verif.Sym.SeriesProps

/-
C69: the assumptions reported for an element hold whenever an execution enters the element.
-/
namespace Docc.IR
open Docc.Sym

/-! ### specification -/

/-- header and body of a loop -/
structure LoopHdr where
  i : String
  init : Expr
  cond : Cond
  upd : Expr
  body : Seq

mutual
/-- the loop at a path -/
def Node.loopAt : Node → List Nat → Option LoopHdr
  | .seq s, p => s.loopAt p
  | .ifElse b, p => b.loopAt p
  | .loop _ i init cond upd s, [] => some ⟨i, init, cond, upd, s⟩
  | .whileL s, 0 :: p => s.loopAt p
  | .loop _ _ _ _ _ s, 0 :: p => s.loopAt p
  | _, _ => none
/-- the loop at a path of a sequence -/
def Seq.loopAt : Seq → List Nat → Option LoopHdr
  | _, [] => none
  | .nil, _ :: _ => none
  | .cons n _ _, 0 :: p => n.loopAt p
  | .cons _ _ r, (k + 1) :: p => r.loopAt (k :: p)
/-- the loop at a path of the branches -/
def Brs.loopAt : Brs → List Nat → Option LoopHdr
  | _, [] => none
  | .nil, _ :: _ => none
  | .cons _ s _, 0 :: p => s.loopAt p
  | .cons _ _ r, (k + 1) :: p => r.loopAt (k :: p)
end

/-- Every index that mentions `i` is within the bounds of its dimension. -/
def InBounds (C : Ctx) (E : Env) (i : String) (τ : St) : Prop :=
  ∀ a ∈ C.accs, mentions i a = true → ∀ q ∈ a.2.zip (C.dims a.1), τ.defd E q.1 ∧ 0 ≤ τ.ev E q.1 ∧
    ∀ n, C.extent a.1 q.2 = some n → τ.defd E n ∧ τ.ev E q.1 < τ.ev E n

/-- Every memlet that mentions `i` is one-dimensional with unit stride: `i` plus something that does not depend on `i`; and
SymEngine's polynomial of the index is correct. -/
def UnitIndex (C : Ctx) (i : String) : Prop :=
  i ≠ constName ∧ ∀ a ∈ C.accs, mentions i a = true → ∃ e, a.2 = [e] ∧
    (∀ ρ : Val, ∃ b : Int, ∀ k : Int, e.eval (ρ.set i k) = .fin (k + b)) ∧ (∀ ρ, C.eng.Sound ρ) ∧
    (∀ D, C.eng.poly e [i] = some D → ∀ t ∈ D, t.1.length = 1) ∧
    ∀ D A, C.eng.poly e [i] = some D → affineCoefficients D [i] = some A →
      (A.at' i).uses i = false ∧ (A.at' constName).uses i = false ∧ ∀ ρ, (A.at' i).eval ρ ≠ .fin 0

/-- Conditions on one loop; `AT` are the assumptions reported for the loop itself. -/
structure LoopOk (E : Env) (C : Ctx) (AT : Assums) (L : LoopHdr) : Prop where
  /-- the initial value is defined and does not depend on the loop variable -/
  initDef : ∀ σ : St, σ.defd E L.init
  ownInit : L.i ∉ L.init.atoms
  /-- the body writes neither the loop variable nor a symbol of the header -/
  frozen : ∀ x ∈ L.i :: (L.init.atoms ++ L.cond.atoms ++ L.upd.atoms), ¬ writes L.body.users x
  /-- an update classified as monotonic does not decrease the loop variable -/
  grows : isMonotonic C.eng AT L.upd L.i = true → ∀ σ : St, AT.Hold (σ.val E) → σ.cond E L.cond = true →
    σ.ev E L.init ≤ σ L.i [] → σ L.i [] ≤ σ.ev E L.upd
  /-- upper bounds are taken from `i < N`, `i < 5`, `i <= 5`, `i == 5` only, not from disjunctions -/
  plain : PlainCond L.i L.cond
  /-- indices are one-dimensional with unit stride -/
  unit : UnitIndex C L.i
  /-- the bounds from the indices do not mention the loop variable or anything the body writes -/
  fixedIdx : ∀ b ∈ (C.indexBounds L.i).1 ++ (C.indexBounds L.i).2, ∀ x ∈ b.atoms, x ≠ L.i ∧ ¬ writes L.body.users x

/-! ### bounds from indices -/

theorem set_same_val (ρ : Val) (x : String) : ρ.set x (ρ.sym x) = ρ := by
  cases ρ; simp only [Val.set, Val.mk.injEq, and_true]; funext y; split <;> simp_all

theorem index_hold (C : Ctx) (E : Env) (i : String) (τ : St) (hU : UnitIndex C i) (hB : InBounds C E i τ) :
    (∀ b ∈ (C.indexBounds i).1, b.eval (τ.val E) ≤ .fin (τ i [])) ∧
    ∀ b ∈ (C.indexBounds i).2, .fin (τ i []) ≤ b.eval (τ.val E) := by
  have key : ∀ a ∈ C.accs, mentions i a = true →
      (∀ b ∈ (C.boundsOf i a.1 a.2.reverse (C.dims a.1)).1, b.eval (τ.val E) ≤ .fin (τ i [])) ∧
      ∀ b ∈ (C.boundsOf i a.1 a.2.reverse (C.dims a.1)).2, .fin (τ i []) ≤ b.eval (τ.val E) := by
    intro a ha hm
    obtain ⟨hic, hU⟩ := hU
    obtain ⟨e, he, hun, hS, hlen, hfree⟩ := hU a ha hm
    have hB := hB a ha hm
    rw [he] at hB ⊢
    simp only [List.reverse_cons, List.reverse_nil, List.nil_append]
    cases hd : C.dims a.1 with
    | nil => simp [Ctx.boundsOf]
    | cons l ls =>
      rw [hd] at hB
      obtain ⟨hdef, h0, hN⟩ := hB (e, l) (by simp)
      simp only [Ctx.boundsOf]
      split
      · simp
      · split
        · rename_i inv hinv
          obtain ⟨b, hb⟩ := hun (τ.val E)
          have hval : ∀ y : Int, inv.eval ((τ.val E).set i y) = .fin (y - b) := by
            intro y
            refine inverse_correct C.eng (τ.val E) e i hic inv hinv (y - b) y (hS _) ?_ hlen ?_
            · rw [hb]; congr 1; omega
            · intro D A hD hA
              obtain ⟨f1, f2, f3⟩ := hfree D A hD hA
              exact ⟨f1, f2, f3 _⟩
          have hi : τ.ev E e = τ i [] + b := by
            apply St.ev_of_eval
            have := hb ((τ.val E).sym i)
            rw [set_same_val] at this
            exact this
          constructor
          · intro c hc
            simp only [List.mem_singleton] at hc; subst hc
            rw [eval_subs_sym inv i (.int 0) (τ.val E) 0 rfl, hval]
            dsimp only at h0
            show 0 - b ≤ τ i []; omega
          · intro c hc
            cases hx : C.extent a.1 l with
            | none => rw [hx] at hc; simp at hc
            | some n =>
              rw [hx] at hc
              simp only [List.mem_singleton] at hc; subst hc
              obtain ⟨hnd, hlt⟩ := hN n hx
              have hne := St.eval_of_defd hnd
              rw [eval_ssub (x := τ.ev E n - b) (y := 1) ?_ rfl]
              · show τ i [] ≤ _
                dsimp only at hlt
                omega
              · rw [eval_subs_sym inv i n (τ.val E) _ hne, hval]
        · simp
  constructor
  · intro b hb
    simp only [Ctx.indexBounds, List.mem_flatMap, List.mem_map, List.mem_filter] at hb
    obtain ⟨_, ⟨a, ⟨h1, h2⟩, rfl⟩, hb⟩ := hb
    exact (key a h1 h2).1 b hb
  · intro b hb
    simp only [Ctx.indexBounds, List.mem_flatMap, List.mem_map, List.mem_filter] at hb
    obtain ⟨_, ⟨a, ⟨h1, h2⟩, rfl⟩, hb⟩ := hb
    exact (key a h1 h2).2 b hb

/-! ### a loop -/

/-- At every entry inside the body the assumptions derived from the loop hold. -/
theorem loop_hold (E : Env) (C : Ctx) (AT : Assums) (L : LoopHdr) (hL : LoopOk E C AT L) (σ : St)
    (hA : ∀ σ1, Rel.iterHeads (fun σ => σ.cond E L.cond) (fun σ => σ.setS L.i (σ.ev E L.upd)) (L.body.den E)
        (σ.setS L.i (σ.ev E L.init)) σ1 → σ1.cond E L.cond = true → AT.Hold (σ1.val E) ∧ InBounds C E L.i σ1)
    (p : List Nat) (σ1 τ : St)
    (h1 : Rel.iterHeads (fun σ => σ.cond E L.cond) (fun σ => σ.setS L.i (σ.ev E L.upd)) (L.body.den E)
        (σ.setS L.i (σ.ev E L.init)) σ1) (hc : σ1.cond E L.cond = true) (hv : L.body.vis E p σ1 τ) :
    (C.body AT L.i L.init L.cond L.upd L.body).Hold (τ.val E) := by
  have hfr : ∀ x, ¬ writes L.body.users x → Rel.inv (Holds x (σ x)) (L.body.den E) := fun x hx => Seq.frame_inv E x _ _ hx
  generalize hσ0 : σ.setS L.i (σ.ev E L.init) = σ0 at h1
  rw [hσ0] at hA
  have hi : ¬ writes L.body.users L.i := hL.frozen _ (by simp)
  -- untouched symbols
  have hsame : ∀ x, x ≠ L.i → ¬ writes L.body.users x → ∀ σ1, Rel.iterHeads (fun σ => σ.cond E L.cond)
      (fun σ => σ.setS L.i (σ.ev E L.upd)) (L.body.den E) σ0 σ1 → σ1 x = σ0 x := by
    intro x hx hw σ1 h1
    refine Rel.iterHeads_inv (P := Holds x (σ0 x)) (fun σ hp => ?_) (Seq.frame_inv E x _ _ hw) h1 rfl
    rw [Holds, St.setS_other _ _ hx]; exact hp
  have hinit : ∀ x ∈ L.init.atoms, x ≠ L.i ∧ ¬ writes L.body.users x := fun x hx =>
    ⟨fun h => hL.ownInit (h ▸ hx), hL.frozen x (by simp [hx])⟩
  have hinit0 : σ0.ev E L.init = σ0 L.i [] := by
    rw [← hσ0, St.setS_same]
    exact St.ev_congr E fun x hx => by rw [St.setS_other _ _ (hinit x hx).1]
  -- the loop variable is at least the initial value
  have hlo : isMonotonic C.eng AT L.upd L.i = true → ∀ σ1, Rel.iterHeads (fun σ => σ.cond E L.cond)
      (fun σ => σ.setS L.i (σ.ev E L.upd)) (L.body.den E) σ0 σ1 → σ1.ev E L.init ≤ σ1 L.i [] := by
    intro hm σ1 h1
    generalize hs : σ0 = s0 at h1
    induction h1 with
    | here => subst hs; exact Int.le_of_eq hinit0
    | next k h1 h2 h3 h4 ih =>
      rename_i s1 s2
      subst hs
      have hfr : ∀ x, ¬ writes L.body.users x → s2 x = s1 x := fun x hx => Seq.frame_inv E x (s1 x) _ hx _ _ _ rfl h3
      have hg := hL.grows hm s1 (hA s1 h1 h2).1 h2 ih
      have e1 : s2.ev E L.upd = s1.ev E L.upd := St.ev_congr E fun x hx => by rw [hfr x (hL.frozen x (by simp [hx]))]
      have e2 : (s2.setS L.i (s2.ev E L.upd)).ev E L.init = s1.ev E L.init := St.ev_congr E fun x hx => by
        rw [St.setS_other _ _ (hinit x hx).1, hfr x (hinit x hx).2]
      rw [St.setS_same, e2, e1]; omega
  -- the first iteration is executed
  have hc0 : σ0.cond E L.cond = true := by
    have : ∀ σ1, Rel.iterHeads (fun σ => σ.cond E L.cond) (fun σ => σ.setS L.i (σ.ev E L.upd)) (L.body.den E) σ0 σ1 →
        σ1 = σ0 ∨ σ0.cond E L.cond = true := by
      intro σ1 h1
      clear hA hsame hinit0 hσ0 hlo
      induction h1 with
      | here => exact Or.inl rfl
      | next k h1 h2 h3 h4 ih =>
        rcases ih with ih | ih
        · rw [ih] at h2; exact Or.inr h2
        · exact Or.inr ih
    rcases this σ1 h1 with rfl | h
    · exact hc
    · exact h
  -- from the start of the iteration to the entry
  have hτ : ∀ x, ¬ writes L.body.users x → τ x = σ1 x := fun x hx => Seq.vis_frame E _ x hx hv
  have hidx : ∀ b ∈ (C.indexBounds L.i).1 ++ (C.indexBounds L.i).2,
      b.eval (τ.val E) = b.eval (σ1.val E) ∧ b.eval (σ1.val E) = b.eval (σ0.val E) := by
    intro b hb
    constructor
    · exact eval_congr_atoms b _ _ rfl fun x hx => congrFun (hτ x (hL.fixedIdx b hb x hx).2) []
    · exact eval_congr_atoms b _ _ rfl fun x hx =>
        congrFun (hsame x (hL.fixedIdx b hb x hx).1 (hL.fixedIdx b hb x hx).2 σ1 h1) []
  have hti : τ L.i = σ1 L.i := hτ _ hi
  have htinit : τ.ev E L.init = σ1.ev E L.init := St.ev_congr E fun x hx => by rw [hτ x (hinit x hx).2]
  have htinit0 : σ1.ev E L.init = σ0.ev E L.init := St.ev_congr E fun x hx => by
    rw [hsame x (hinit x hx).1 (hinit x hx).2 σ1 h1]
  have hB1 := index_hold C E L.i σ1 hL.unit (hA σ1 h1 hc).2
  have hB0 := index_hold C E L.i σ0 hL.unit (hA σ0 .here hc0).2
  refine body_hold C AT E τ L.i L.init L.cond L.upd L.body (hL.initDef τ) hL.plain ?_ ?_ ?_ ?_ ?_
  · rw [St.cond_congr E (τ := σ1) fun x hx => by rw [hτ x (hL.frozen x (by simp [hx]))]]; exact hc
  · intro hm; rw [htinit, hti]; exact hlo hm σ1 h1
  · intro b hb; rw [(hidx b (by simp [hb])).1, hti]; exact hB1.1 b hb
  · intro b hb; rw [(hidx b (by simp [hb])).1, hti]; exact hB1.2 b hb
  · intro b hb; rw [(hidx b (by simp [hb])).1, (hidx b (by simp [hb])).2, htinit, htinit0, hinit0]; exact hB0.1 b hb

/-! ### the analysis -/

/-- the conclusion for one element -/
abbrev Sound (E : Env) (σ : St) (vis : List Nat → St → St → Prop) (assums : List Nat → Option (Assums × Assums)) : Prop :=
  ∀ p B τ, assums p = some B → vis p σ τ → B.1.Hold (τ.val E) ∧ B.2.Hold (τ.val E)

mutual
theorem Node.assums_hold (E : Env) (C : Ctx) : (n : Node) → (A : Assums × Assums) → (σ : St) →
    (∀ p τ, n.vis E p σ τ → A.1.Hold (τ.val E) ∧ A.2.Hold (τ.val E)) →
    (∀ p L B, n.loopAt p = some L → n.assums C A p = some B → LoopOk E C B.2 L) →
    (∀ p L τ, n.loopAt p = some L → n.vis E (p ++ [0]) σ τ → InBounds C E L.i τ) →
    Sound E σ (n.vis E) (n.assums C A)
  | .block l, A, σ, hA, _, _ => by
    intro p B τ hB hv
    cases p with
    | nil => simp only [Node.assums, Option.some.injEq] at hB; subst hB; exact hA _ _ hv
    | cons k p => simp [Node.vis] at hv
  | .brk, A, σ, hA, _, _ => by
    intro p B τ hB hv
    cases p with
    | nil => simp only [Node.assums, Option.some.injEq] at hB; subst hB; exact hA _ _ hv
    | cons k p => simp [Node.vis] at hv
  | .cont, A, σ, hA, _, _ => by
    intro p B τ hB hv
    cases p with
    | nil => simp only [Node.assums, Option.some.injEq] at hB; subst hB; exact hA _ _ hv
    | cons k p => simp [Node.vis] at hv
  | .ret d q, A, σ, hA, _, _ => by
    intro p B τ hB hv
    cases p with
    | nil => simp only [Node.assums, Option.some.injEq] at hB; subst hB; exact hA _ _ hv
    | cons k p => simp [Node.vis] at hv
  | .seq s, A, σ, hA, hl, hi => by
    simp only [Node.vis, Node.loopAt, Node.assums] at hA hl hi
    intro p B τ hB hv
    simp only [Node.vis, Node.assums] at hB hv
    cases p with
    | nil => simp only [Seq.assums, Option.some.injEq] at hB; subst hB; exact hA _ _ hv
    | cons k p => exact Seq.assums_hold E C s A σ (fun k p => hA (k :: p)) hl hi k p B τ hB hv
  | .ifElse b, A, σ, hA, hl, hi => by
    simp only [Node.vis, Node.loopAt, Node.assums] at hA hl hi
    intro p B τ hB hv
    simp only [Node.vis, Node.assums] at hB hv
    exact Brs.assums_hold E C b A σ hA hl hi p B τ hB hv
  | .whileL s, A, σ, hA, hl, hi => by
    intro p B τ hB hv
    cases p with
    | nil => simp only [Node.assums, Option.some.injEq] at hB; subst hB; exact hA _ _ hv
    | cons k p =>
      cases k with
      | succ k => simp [Node.vis] at hv
      | zero =>
        simp only [Node.vis] at hv
        simp only [Node.assums] at hB
        obtain ⟨σ1, h1, h2⟩ := hv
        have hA' : ∀ p τ, s.vis E p σ1 τ → A.1.Hold (τ.val E) ∧ A.2.Hold (τ.val E) := fun p τ hv =>
          hA (0 :: p) τ (by simp only [Node.vis]; exact ⟨σ1, h1, hv⟩)
        cases p with
        | nil => simp only [Seq.assums, Option.some.injEq] at hB; subst hB; exact hA' _ _ h2
        | cons k p =>
        refine Seq.assums_hold E C s A σ1 (fun k p => hA' (k :: p)) (fun p L B h3 h4 => hl (0 :: p) L B ?_ ?_)
          (fun p L τ h3 h4 => hi (0 :: p) L τ ?_ ?_) k p B τ hB h2
        · simpa only [Node.loopAt] using h3
        · simpa only [Node.assums] using h4
        · simpa only [Node.loopAt] using h3
        · simp only [List.cons_append, Node.vis]; exact ⟨σ1, h1, h4⟩
  | .loop m i a c u s, A, σ, hA, hl, hi => by
    intro p B τ hB hv
    cases p with
    | nil => simp only [Node.assums, Option.some.injEq] at hB; subst hB; exact hA _ _ hv
    | cons k p =>
      cases k with
      | succ k => simp [Node.vis] at hv
      | zero =>
        simp only [Node.vis] at hv
        simp only [Node.assums] at hB
        obtain ⟨σ1, h1, hc, h2⟩ := hv
        have hL : LoopOk E C A.2 ⟨i, a, c, u, s⟩ := hl [] _ A (by simp [Node.loopAt]) (by simp [Node.assums])
        have hbody : ∀ p τ, s.vis E p σ1 τ → (C.body A.2 i a c u s).Hold (τ.val E) := fun p τ hv =>
          loop_hold E C A.2 ⟨i, a, c, u, s⟩ hL σ (fun σ2 h3 h4 => ⟨(hA [0] σ2 (by
              simp only [Node.vis]; exact ⟨σ2, h3, h4, by simp [Seq.vis]⟩)).2,
            hi [] ⟨i, a, c, u, s⟩ σ2 (by simp [Node.loopAt]) (by
              simp only [List.nil_append, Node.vis]; exact ⟨σ2, h3, h4, by simp [Seq.vis]⟩)⟩) p σ1 τ h1 hc hv
        have hA' : ∀ p τ, s.vis E p σ1 τ → (propagate (C.body A.2 i a c u s) A.1).Hold (τ.val E) ∧
            (propagate (C.body A.2 i a c u s) A.2).Hold (τ.val E) := fun p τ hv => by
          have h3 := hA (0 :: p) τ (by simp only [Node.vis]; exact ⟨σ1, h1, hc, hv⟩)
          exact ⟨propagate_hold (hbody p τ hv) h3.1, propagate_hold (hbody p τ hv) h3.2⟩
        cases p with
        | nil => simp only [Seq.assums, Option.some.injEq] at hB; subst hB; exact hA' _ _ h2
        | cons k p =>
        refine Seq.assums_hold E C s _ σ1 (fun k p => hA' (k :: p)) (fun p L B h3 h4 => hl (0 :: p) L B ?_ ?_)
          (fun p L τ h3 h4 => hi (0 :: p) L τ ?_ ?_) k p B τ hB h2
        · simpa only [Node.loopAt] using h3
        · simpa only [Node.assums] using h4
        · simpa only [Node.loopAt] using h3
        · simp only [List.cons_append, Node.vis]; exact ⟨σ1, h1, hc, h4⟩
theorem Seq.assums_hold (E : Env) (C : Ctx) : (s : Seq) → (A : Assums × Assums) → (σ : St) →
    (∀ k p τ, s.vis E (k :: p) σ τ → A.1.Hold (τ.val E) ∧ A.2.Hold (τ.val E)) →
    (∀ p L B, s.loopAt p = some L → s.assums C A p = some B → LoopOk E C B.2 L) →
    (∀ p L τ, s.loopAt p = some L → s.vis E (p ++ [0]) σ τ → InBounds C E L.i τ) →
    ∀ k p B τ, s.assums C A (k :: p) = some B → s.vis E (k :: p) σ τ → B.1.Hold (τ.val E) ∧ B.2.Hold (τ.val E)
  | .nil, A, σ, hA, _, _ => by
    intro k p B τ hB hv
    simp [Seq.vis] at hv
  | .cons n t r, A, σ, hA, hl, hi => by
    intro k p B τ hB hv
    cases k with
    | zero =>
      simp only [Seq.vis] at hv
      simp only [Seq.assums] at hB
      refine Node.assums_hold E C n A σ (fun p τ hv => hA 0 p τ ?_) (fun p L B h3 h4 => hl (0 :: p) L B ?_ ?_)
        (fun p L τ h3 h4 => hi (0 :: p) L τ ?_ ?_) p B τ hB hv
      · simpa only [Seq.vis] using hv
      · simpa only [Seq.loopAt] using h3
      · simpa only [Seq.assums] using h4
      · simpa only [Seq.loopAt] using h3
      · simpa only [List.cons_append, Seq.vis] using h4
    | succ k =>
      simp only [Seq.vis] at hv
      simp only [Seq.assums] at hB
      obtain ⟨σ1, h1, h2⟩ := hv
      refine Seq.assums_hold E C r A (runTrans E t σ1) (fun j p τ hv => ?_) (fun p L B h3 h4 => ?_)
        (fun p L τ h3 h4 => ?_) k p B τ hB h2
      · exact hA (j + 1) p τ (by simp only [Seq.vis]; exact ⟨σ1, h1, hv⟩)
      · cases p with
        | nil => simp [Seq.loopAt] at h3
        | cons j p => exact hl ((j + 1) :: p) L B (by simpa only [Seq.loopAt] using h3) (by simpa only [Seq.assums] using h4)
      · cases p with
        | nil => simp [Seq.loopAt] at h3
        | cons j p =>
          exact hi ((j + 1) :: p) L τ (by simpa only [Seq.loopAt] using h3)
            (by simp only [List.cons_append, Seq.vis] at h4 ⊢; exact ⟨σ1, h1, h4⟩)
theorem Brs.assums_hold (E : Env) (C : Ctx) : (b : Brs) → (A : Assums × Assums) → (σ : St) →
    (∀ p τ, b.vis E p σ τ → A.1.Hold (τ.val E) ∧ A.2.Hold (τ.val E)) →
    (∀ p L B, b.loopAt p = some L → b.assums C A p = some B → LoopOk E C B.2 L) →
    (∀ p L τ, b.loopAt p = some L → b.vis E (p ++ [0]) σ τ → InBounds C E L.i τ) →
    Sound E σ (b.vis E) (b.assums C A)
  | .nil, A, σ, hA, _, _ => by
    intro p B τ hB hv
    cases p with
    | nil => simp only [Brs.assums, Option.some.injEq] at hB; subst hB; exact hA _ _ hv
    | cons k p => simp [Brs.vis] at hv
  | .cons c s r, A, σ, hA, hl, hi => by
    intro p B τ hB hv
    cases p with
    | nil => simp only [Brs.assums, Option.some.injEq] at hB; subst hB; exact hA _ _ hv
    | cons k p =>
      cases k with
      | zero =>
        simp only [Brs.vis] at hv
        simp only [Brs.assums] at hB
        have hA' : ∀ p τ, s.vis E p σ τ → A.1.Hold (τ.val E) ∧ A.2.Hold (τ.val E) := fun p τ h =>
          hA (0 :: p) τ (by simp only [Brs.vis]; exact ⟨hv.1, h⟩)
        obtain ⟨hv1, hv2⟩ := hv
        cases p with
        | nil => simp only [Seq.assums, Option.some.injEq] at hB; subst hB; exact hA' _ _ hv2
        | cons k p =>
        refine Seq.assums_hold E C s A σ (fun k p => hA' (k :: p)) (fun p L B h3 h4 => hl (0 :: p) L B ?_ ?_)
          (fun p L τ h3 h4 => hi (0 :: p) L τ ?_ ?_) k p B τ hB hv2
        · simpa only [Brs.loopAt] using h3
        · simpa only [Brs.assums] using h4
        · simpa only [Brs.loopAt] using h3
        · simp only [List.cons_append, Brs.vis]; exact ⟨hv1, h4⟩
      | succ k =>
        simp only [Brs.vis] at hv
        simp only [Brs.assums] at hB
        refine Brs.assums_hold E C r A σ (fun p τ h => ?_) (fun p L B h3 h4 => ?_)
          (fun p L τ h3 h4 => ?_) (k :: p) B τ hB hv.2
        · cases p with
          | nil => exact hA [] τ (by simpa [Brs.vis] using h)
          | cons j p => exact hA ((j + 1) :: p) τ (by simp only [Brs.vis]; exact ⟨hv.1, h⟩)
        · cases p with
          | nil => cases r <;> simp [Brs.loopAt] at h3
          | cons j p => exact hl ((j + 1) :: p) L B (by simpa only [Brs.loopAt] using h3) (by simpa only [Brs.assums] using h4)
        · cases p with
          | nil => cases r <;> simp [Brs.loopAt] at h3
          | cons j p =>
            exact hi ((j + 1) :: p) L τ (by simpa only [Brs.loopAt] using h3)
              (by simp only [List.cons_append, Brs.vis] at h4 ⊢; exact ⟨hv.1, h4⟩)
end

theorem root_hold {add sdfg : Assums} {ρ : Val} (h1 : add.Hold ρ) (h2 : sdfg.Hold ρ) :
    (rootAssums add sdfg).1.Hold ρ ∧ (rootAssums add sdfg).2.Hold ρ := by
  refine ⟨h1, ?_⟩
  rw [Assums.hold_iff] at *
  intro x a ha
  simp only [rootAssums] at ha
  split at ha
  · exact h1 x a ha
  · rename_i e he _; simp only [Option.some.injEq] at ha; subst ha; exact h2 x _ he
  · rename_i e b he hb; simp only [Option.some.injEq] at ha; subst ha
    obtain ⟨_, e2, e3, _⟩ := h2 x e he
    exact addUppers_holds _ (addLowers_holds _ (h1 x b hb) e2) e3

/-- **C69 (partial, bounds).** Whenever an execution of an SDFG enters an element, the bounds `AssumptionsAnalysis::get` reports
for the element hold in that state, with and without the trivial bounds: for all SDFGs, inputs, elements and visits
(also of executions that do not terminate), provided the declared assumptions always hold, array accesses are in bounds at
the start of every iteration, and every loop satisfies `LoopOk`.  Missing: the loops excluded by `LoopOk`, for which the
analysis is wrong (`AssumAnViol`). -/
theorem assumptions_sound_partial (E : Env) (C : Ctx) (add sdfg : Assums) (s : Seq) (σ : St)
    (hA : ∀ p τ, s.vis E p σ τ → add.Hold (τ.val E) ∧ sdfg.Hold (τ.val E))
    (hl : ∀ p L B, s.loopAt p = some L → s.assums C (rootAssums add sdfg) p = some B → LoopOk E C B.2 L)
    (hi : ∀ p L τ, s.loopAt p = some L → s.vis E (p ++ [0]) σ τ → InBounds C E L.i τ)
    (p : List Nat) (B : Assums × Assums) (τ : St) (hB : s.assums C (rootAssums add sdfg) p = some B) (hv : s.vis E p σ τ) :
    B.1.Hold (τ.val E) ∧ B.2.Hold (τ.val E) := by
  have hA' : ∀ p τ, s.vis E p σ τ → _ := fun p τ hv => root_hold (hA p τ hv).1 (hA p τ hv).2
  cases p with
  | nil => simp only [Seq.assums, Option.some.injEq] at hB; subst hB; exact hA' _ _ hv
  | cons k p => exact Seq.assums_hold E C s _ σ (fun k p => hA' (k :: p)) hl hi k p B τ hB hv

/-- An update that is affine with integer coefficients and classified as monotonic satisfies `LoopOk.grows` when the loop
starts at a non-negative value. -/
theorem grows_of_affine (E : Env) (C : Ctx) (AT : Assums) (L : LoopHdr) (hE : ∀ ρ, C.eng.Sound ρ) (hN : C.eng.NormSound)
    (hx : L.i ≠ constName) (hlen : ∀ D, C.eng.poly L.upd [L.i] = some D → ∀ t ∈ D, t.1.length = 1)
    (hint : ∀ D c, C.eng.poly L.upd [L.i] = some D → affineCoefficients D [L.i] = some c →
      (∃ n, (c.at' L.i).intSum = some n) ∧ ∃ n, (c.at' constName).intSum = some n)
    (h : isMonotonicAffine C.eng AT L.upd L.i = true) (hpos : ∀ σ : St, 0 ≤ σ.ev E L.init)
    (hdef : ∀ σ : St, σ.defd E L.upd) (σ : St) (hlo : σ.ev E L.init ≤ σ L.i []) : σ L.i [] ≤ σ.ev E L.upd := by
  have := is_monotonic_partial C.eng (σ.val E) (hE _) hN AT L.upd L.i hx hlen hint h
    (Int.le_trans (hpos σ) hlo) _ (St.eval_of_defd (hdef σ))
  exact Int.le_of_lt this

/-! ### constants -/

/-- the symbols marked constant have no writer -/
def ConstOk (A : Assums × Assums) (u : List User) : Prop :=
  ∀ x a, (A.1 x = some a ∨ A.2 x = some a) → a.constant = true → ¬ writes u x

theorem ConstOk.mono {A : Assums × Assums} {u v : List User} (h : ConstOk A u) (hs : ∀ x, writes v x → writes u x) : ConstOk A v :=
  fun x a ha hc hw => h x a ha hc (hs x hw)

/-- constants of the assumptions come from the list -/
def ConstIn (A : Assums) (l : List String) : Prop := ∀ x a, A x = some a → a.constant = true → x ∈ l

theorem upd_constIn {A : Assums} {l : List String} {x : String} {f : Assum → Assum} (h : ConstIn A l)
    (hf : x ∈ l ∨ ∀ a, (f a).constant = a.constant) : ConstIn (Sym.upd A x f) l := by
  intro y a ha hc
  unfold Sym.upd at ha
  split at ha
  · rename_i hy; subst hy
    rcases hf with hf | hf
    · exact hf
    · simp only [Option.some.injEq] at ha; subst ha
      rw [hf] at hc
      cases hA : A y with
      | none => rw [hA] at hc; simp at hc
      | some b => rw [hA] at hc; exact h y b hA hc
  · exact h y a ha hc

theorem updAll_constIn {l : List String} {f : Assum → Assum} : ∀ (xs : List String) {A : Assums}, ConstIn A l →
    ((∀ x ∈ xs, x ∈ l) ∨ ∀ a, (f a).constant = a.constant) → ConstIn (Sym.updAll A xs f) l
  | [], _, h, _ => h
  | x :: r, _, h, hf => updAll_constIn r (upd_constIn h (hf.imp (fun h => h x (by simp)) id))
      (hf.imp (fun h y hy => h y (by simp [hy])) id)

theorem addLower_const (a : Assum) (b : Expr) : (a.addLowerBound b).constant = a.constant := by
  unfold Assum.addLowerBound; split <;> rfl
theorem addUpper_const (a : Assum) (b : Expr) : (a.addUpperBound b).constant = a.constant := by
  unfold Assum.addUpperBound; split <;> rfl
theorem addLowers_const : ∀ (l : List Expr) (a : Assum), (l.foldl Assum.addLowerBound a).constant = a.constant
  | [], _ => rfl
  | b :: r, a => by rw [List.foldl_cons, addLowers_const r, addLower_const]
theorem addUppers_const : ∀ (l : List Expr) (a : Assum), (l.foldl Assum.addUpperBound a).constant = a.constant
  | [], _ => rfl
  | b :: r, a => by rw [List.foldl_cons, addUppers_const r, addUpper_const]

theorem body_constIn (C : Ctx) (AT : Assums) (i : String) (init : Expr) (cond : Cond) (upd : Expr) (s : Seq) :
    ConstIn (C.body AT i init cond upd s) (i :: (cond.atoms ++ C.readOnly s)) := by
  have h0 : ConstIn (C.bodyBase i cond upd s) (i :: (cond.atoms ++ C.readOnly s)) := by
    unfold Ctx.bodyBase
    refine upd_constIn (upd_constIn (upd_constIn (updAll_constIn _ (updAll_constIn _ (fun x a h => by simp at h) ?_) ?_) ?_) ?_) ?_
    · exact Or.inl fun x hx => by simp [hx]
    · exact Or.inl fun x hx => by simp [hx]
    · exact Or.inl (by simp)
    · exact Or.inl (by simp)
    · exact Or.inl (by simp)
  have h1 : ConstIn (C.bodyInit i init (C.bodyBase i cond upd s)) (i :: (cond.atoms ++ C.readOnly s)) := by
    unfold Ctx.bodyInit
    have h2 : ConstIn (Sym.upd (C.bodyBase i cond upd s) i fun a =>
        { a.addLowerBound init with tightLower := some init, lower := init }) (i :: (cond.atoms ++ C.readOnly s)) :=
      upd_constIn h0 (Or.inl (by simp))
    split
    · split
      · exact h2
      · exact upd_constIn h2 (Or.inr fun a => addLowers_const _ a)
    · exact h2
  unfold Ctx.body
  split
  · exact h0
  · split
    · exact h1
    · split
      · exact h1
      · rename_i ub _
        unfold Ctx.bodyUpper
        refine updAll_constIn _ ?_ (Or.inr fun a => addLower_const a _)
        have k1 : ConstIn (Sym.upd (C.bodyInit i init (C.bodyBase i cond upd s)) i fun a =>
              { a.addUpperBound ub with upper := ub }) (i :: (cond.atoms ++ C.readOnly s)) := upd_constIn h1 (Or.inl (by simp))
        have k2 : ConstIn (if isContiguous C.eng AT upd i = true then Sym.upd (Sym.upd (C.bodyInit i init (C.bodyBase i cond upd s)) i fun a =>
              { a.addUpperBound ub with upper := ub }) i (fun a => { a with tightUpper := some ub })
              else (Sym.upd (C.bodyInit i init (C.bodyBase i cond upd s)) i fun a =>
              { a.addUpperBound ub with upper := ub })) (i :: (cond.atoms ++ C.readOnly s)) := by
          split
          · exact upd_constIn k1 (Or.inl (by simp))
          · exact k1
        split
        · split
          · exact k2
          · exact upd_constIn k2 (Or.inr fun a => addUppers_const _ a)
        · exact k2

theorem merge_const (o a : Assum) : (mergeAssum o a).constant = (a.constant || o.constant) := by
  simp only [mergeAssum]; cases a.constant <;> simp

theorem propagate_const {inner outer : Assums} {x : String} {a : Assum} (h : propagate inner outer x = some a)
    (hc : a.constant = true) : (∃ b, inner x = some b ∧ b.constant = true) ∨ ∃ b, outer x = some b ∧ b.constant = true := by
  unfold propagate at h
  split at h
  · exact Or.inl ⟨a, h, hc⟩
  · rename_i o hO _; simp only [Option.some.injEq] at h; subst h; exact Or.inr ⟨_, hO, hc⟩
  · rename_i o a' hO hI; simp only [Option.some.injEq] at h; subst h
    rw [merge_const, Bool.or_eq_true] at hc
    rcases hc with hc | hc
    · exact Or.inl ⟨a', hI, hc⟩
    · exact Or.inr ⟨o, hO, hc⟩

theorem readOnly_unwritten {C : Ctx} {s : Seq} {x : String} (h : x ∈ C.readOnly s) : ¬ writes s.users x := by
  simp only [Ctx.readOnly, List.mem_filter, Bool.and_eq_true, Bool.not_eq_true', decide_eq_false_iff_not] at h
  exact h.2.2

theorem body_constOk {C : Ctx} {A : Assums × Assums} {i : String} {init : Expr} {cond : Cond} {upd : Expr} {s : Seq}
    (hA : ConstOk A s.users) (hf : ∀ x ∈ i :: cond.atoms, ¬ writes s.users x) :
    ConstOk (propagate (C.body A.2 i init cond upd s) A.1, propagate (C.body A.2 i init cond upd s) A.2) s.users := by
  intro x a ha hc
  have key : (∃ b, C.body A.2 i init cond upd s x = some b ∧ b.constant = true) ∨
      ∃ b, (A.1 x = some b ∨ A.2 x = some b) ∧ b.constant = true := by
    rcases ha with ha | ha
    · rcases propagate_const ha hc with h | ⟨b, h1, h2⟩
      · exact Or.inl h
      · exact Or.inr ⟨b, Or.inl h1, h2⟩
    · rcases propagate_const ha hc with h | ⟨b, h1, h2⟩
      · exact Or.inl h
      · exact Or.inr ⟨b, Or.inr h1, h2⟩
  rcases key with ⟨b, h1, h2⟩ | ⟨b, h1, h2⟩
  · have := body_constIn C A.2 i init cond upd s x b h1 h2
    simp only [List.mem_cons, List.mem_append] at this
    rcases this with h | h | h
    · exact hf x (by simp [h])
    · exact hf x (by simp [h])
    · exact readOnly_unwritten h
  · exact hA x b h1 h2

/-- a symbol marked constant at an element keeps its value while the element runs -/
abbrev ConstSound (E : Env) (σ : St) (vis : List Nat → St → St → Prop) (denAt : List Nat → Option Rel)
    (assums : List Nat → Option (Assums × Assums)) (p : List Nat) : Prop :=
  ∀ B τ R c τ' x a, assums p = some B → vis p σ τ → denAt p = some R → R τ c τ' → (B.1 x = some a ∨ B.2 x = some a) →
    a.constant = true → τ' x = τ x

theorem Node.const_here (E : Env) (C : Ctx) (n : Node) (A : Assums × Assums) (σ : St) (hA : ConstOk A n.users)
    (B : Assums × Assums) (R : Rel) (c : Ctl) (τ τ' : St) (x : String) (a : Assum)
    (hB : n.assums C A [] = some B) (hR : n.denAt E [] = some R) (hr : R τ c τ')
    (hx : B.1 x = some a ∨ B.2 x = some a) (hc : a.constant = true) : τ' x = τ x := by
  have hB' : B = A := by
    cases n with
    | seq s => cases s <;> simpa [Node.assums, Seq.assums] using hB.symm
    | ifElse b => cases b <;> simpa [Node.assums, Brs.assums] using hB.symm
    | _ => simpa [Node.assums] using hB.symm
  have hR' : R = n.den E := by
    cases n with
    | seq s => cases s <;> simpa [Node.denAt, Seq.denAt, Node.den] using hR.symm
    | ifElse b => cases b <;> simpa [Node.denAt, Brs.denAt, Node.den] using hR.symm
    | _ => simpa [Node.denAt] using hR.symm
  subst hB' hR'
  exact Node.frame_inv E x (τ x) n (hA x a hx hc) _ _ _ rfl hr

theorem Seq.const_here (E : Env) (C : Ctx) (s : Seq) (A : Assums × Assums) (hA : ConstOk A s.users)
    (B : Assums × Assums) (R : Rel) (c : Ctl) (τ τ' : St) (x : String) (a : Assum)
    (hB : s.assums C A [] = some B) (hR : s.denAt E [] = some R) (hr : R τ c τ')
    (hx : B.1 x = some a ∨ B.2 x = some a) (hc : a.constant = true) : τ' x = τ x := by
  have hB' : B = A := by cases s <;> simpa [Seq.assums] using hB.symm
  have hR' : R = s.den E := by cases s <;> simpa [Seq.denAt] using hR.symm
  subst hB' hR'
  exact Seq.frame_inv E x (τ x) s (hA x a hx hc) _ _ _ rfl hr

theorem Brs.const_here (E : Env) (C : Ctx) (s : Brs) (A : Assums × Assums) (hA : ConstOk A s.users)
    (B : Assums × Assums) (R : Rel) (c : Ctl) (τ τ' : St) (x : String) (a : Assum)
    (hB : s.assums C A [] = some B) (hR : s.denAt E [] = some R) (hr : R τ c τ')
    (hx : B.1 x = some a ∨ B.2 x = some a) (hc : a.constant = true) : τ' x = τ x := by
  have hB' : B = A := by cases s <;> simpa [Brs.assums] using hB.symm
  have hR' : R = s.den E := by cases s <;> simpa [Brs.denAt] using hR.symm
  subst hB' hR'
  exact Brs.frame_inv E x (τ x) s (hA x a hx hc) _ _ _ rfl hr

mutual
theorem Node.const_hold (E : Env) (C : Ctx) : (n : Node) → (A : Assums × Assums) → (σ : St) → ConstOk A n.users →
    (∀ p L, n.loopAt p = some L → ∀ x ∈ L.i :: L.cond.atoms, ¬ writes L.body.users x) → (p : List Nat) →
    ConstSound E σ (n.vis E) (n.denAt E) (n.assums C A) p
  | n, A, σ, hA, hl, [] => fun B τ R c τ' x a hB _ hR hr hx hc => Node.const_here E C n A σ hA B R c τ τ' x a hB hR hr hx hc
  | .block l, A, σ, hA, _, k :: p => fun B τ R c τ' x a hB hv => by simp [Node.vis] at hv
  | .brk, A, σ, hA, _, k :: p => fun B τ R c τ' x a hB hv => by simp [Node.vis] at hv
  | .cont, A, σ, hA, _, k :: p => fun B τ R c τ' x a hB hv => by simp [Node.vis] at hv
  | .ret d q, A, σ, hA, _, k :: p => fun B τ R c τ' x a hB hv => by simp [Node.vis] at hv
  | .seq s, A, σ, hA, hl, k :: p => fun B τ R c τ' x a hB hv hR hr hx hc => by
    simp only [Node.vis, Node.assums, Node.denAt] at hB hv hR
    simp only [Node.loopAt] at hl
    rw [Node.users] at hA
    exact Seq.const_hold E C s A σ hA hl (k :: p) B τ R c τ' x a hB hv hR hr hx hc
  | .ifElse b, A, σ, hA, hl, k :: p => fun B τ R c τ' x a hB hv hR hr hx hc => by
    simp only [Node.vis, Node.assums, Node.denAt] at hB hv hR
    simp only [Node.loopAt] at hl
    have hA' : ConstOk A b.users := hA.mono fun y hy => by rw [Node.users, writes_append]; exact Or.inr hy
    exact Brs.const_hold E C b A σ hA' hl (k :: p) B τ R c τ' x a hB hv hR hr hx hc
  | .whileL s, A, σ, hA, hl, (k + 1) :: p => fun B τ R c τ' x a hB hv => by simp [Node.vis] at hv
  | .whileL s, A, σ, hA, hl, 0 :: p => fun B τ R c τ' x a hB hv hR hr hx hc => by
    simp only [Node.vis, Node.assums, Node.denAt] at hB hv hR
    obtain ⟨σ1, _, hv⟩ := hv
    rw [Node.users] at hA
    exact Seq.const_hold E C s A σ1 hA (fun p L h => hl (0 :: p) L (by simpa only [Node.loopAt] using h)) p B τ R c τ' x a hB hv hR hr hx hc
  | .loop m i f g u s, A, σ, hA, hl, (k + 1) :: p => fun B τ R c τ' x a hB hv => by simp [Node.vis] at hv
  | .loop m i f g u s, A, σ, hA, hl, 0 :: p => fun B τ R c τ' x a hB hv hR hr hx hc => by
    simp only [Node.vis, Node.assums, Node.denAt] at hB hv hR
    obtain ⟨σ1, _, _, hv⟩ := hv
    have hA' : ConstOk A s.users := hA.mono fun y hy => by simp only [Node.users, writes_append]; exact Or.inl (Or.inl (Or.inr hy))
    have hf := hl [] ⟨i, f, g, u, s⟩ (by simp [Node.loopAt])
    exact Seq.const_hold E C s _ σ1 (body_constOk hA' hf) (fun p L h => hl (0 :: p) L (by simpa only [Node.loopAt] using h)) p B τ R c τ' x a
      hB hv hR hr hx hc
theorem Seq.const_hold (E : Env) (C : Ctx) : (s : Seq) → (A : Assums × Assums) → (σ : St) → ConstOk A s.users →
    (∀ p L, s.loopAt p = some L → ∀ x ∈ L.i :: L.cond.atoms, ¬ writes L.body.users x) → (p : List Nat) →
    ConstSound E σ (s.vis E) (s.denAt E) (s.assums C A) p
  | s, A, σ, hA, hl, [] => fun B τ R c τ' x a hB _ hR hr hx hc => Seq.const_here E C s A hA B R c τ τ' x a hB hR hr hx hc
  | .nil, A, σ, hA, _, k :: p => fun B τ R c τ' x a hB hv => by simp [Seq.vis] at hv
  | .cons n t r, A, σ, hA, hl, 0 :: p => fun B τ R c τ' x a hB hv hR hr hx hc => by
    simp only [Seq.vis, Seq.assums, Seq.denAt] at hB hv hR
    have hA' : ConstOk A n.users := hA.mono fun y hy => by
      rw [Seq.users]; split
      · exact hy
      · simp only [writes_append]; exact Or.inl (Or.inl hy)
    exact Node.const_hold E C n A σ hA' (fun p L h => hl (0 :: p) L (by simpa only [Seq.loopAt] using h)) p B τ R c τ' x a hB hv hR hr hx hc
  | .cons n t r, A, σ, hA, hl, (k + 1) :: p => fun B τ R c τ' x a hB hv hR hr hx hc => by
    simp only [Seq.vis, Seq.assums, Seq.denAt] at hB hv hR
    obtain ⟨σ1, h1, hv⟩ := hv
    have hA' : ConstOk A r.users := hA.mono fun y hy => by
      rw [Seq.users]; split
      · rename_i hret
        cases n <;> simp [Node.isRet] at hret
        simp [Node.den, Rel.exit] at h1
      · simp only [writes_append]; exact Or.inr hy
    refine Seq.const_hold E C r A _ hA' (fun p L h => ?_) (k :: p) B τ R c τ' x a hB hv hR hr hx hc
    cases p with
    | nil => simp [Seq.loopAt] at h
    | cons j p => exact hl ((j + 1) :: p) L (by simpa only [Seq.loopAt] using h)
theorem Brs.const_hold (E : Env) (C : Ctx) : (b : Brs) → (A : Assums × Assums) → (σ : St) → ConstOk A b.users →
    (∀ p L, b.loopAt p = some L → ∀ x ∈ L.i :: L.cond.atoms, ¬ writes L.body.users x) → (p : List Nat) →
    ConstSound E σ (b.vis E) (b.denAt E) (b.assums C A) p
  | b, A, σ, hA, hl, [] => fun B τ R c τ' x a hB _ hR hr hx hc => Brs.const_here E C b A hA B R c τ τ' x a hB hR hr hx hc
  | .nil, A, σ, hA, _, k :: p => fun B τ R c τ' x a hB hv => by simp [Brs.vis] at hv
  | .cons g s r, A, σ, hA, hl, 0 :: p => fun B τ R c τ' x a hB hv hR hr hx hc => by
    simp only [Brs.vis, Brs.assums, Brs.denAt] at hB hv hR
    have hA' : ConstOk A s.users := hA.mono fun y hy => by simp only [Brs.users, writes_append]; exact Or.inl hy
    exact Seq.const_hold E C s A σ hA' (fun p L h => hl (0 :: p) L (by simpa only [Brs.loopAt] using h)) p B τ R c τ' x a hB hv.2 hR hr hx hc
  | .cons g s r, A, σ, hA, hl, (k + 1) :: p => fun B τ R c τ' x a hB hv hR hr hx hc => by
    simp only [Brs.vis, Brs.assums, Brs.denAt] at hB hv hR
    have hA' : ConstOk A r.users := hA.mono fun y hy => by simp only [Brs.users, writes_append]; exact Or.inr hy
    refine Brs.const_hold E C r A σ hA' (fun p L h => ?_) (k :: p) B τ R c τ' x a hB hv.2 hR hr hx hc
    cases p with
    | nil => cases r <;> simp [Brs.loopAt] at h
    | cons j p => exact hl ((j + 1) :: p) L (by simpa only [Brs.loopAt] using h)
end

/-- **C69 (partial, constants).** A symbol reported as constant for an element keeps its value in every execution of the element,
provided the declared constants are not written and no loop body writes the loop variable or a symbol of the loop condition
(the analysis marks them without looking).  Missing: the other loops (`condition_symbol_constant_violated`). -/
theorem constants_sound_partial (E : Env) (C : Ctx) (add sdfg : Assums) (s : Seq) (σ : St)
    (hA : ∀ x a, (add x = some a ∨ sdfg x = some a) → a.constant = true → ¬ writes s.users x)
    (hl : ∀ p L, s.loopAt p = some L → ∀ x ∈ L.i :: L.cond.atoms, ¬ writes L.body.users x)
    (p : List Nat) (B : Assums × Assums) (τ : St) (R : Rel) (c : Ctl) (τ' : St) (x : String) (a : Assum)
    (hB : s.assums C (rootAssums add sdfg) p = some B) (hv : s.vis E p σ τ) (hR : s.denAt E p = some R) (hr : R τ c τ')
    (hx : B.1 x = some a ∨ B.2 x = some a) (hc : a.constant = true) : τ' x = τ x := by
  refine Seq.const_hold E C s _ σ ?_ hl p B τ R c τ' x a hB hv hR hr hx hc
  intro y b hb hbc
  rcases hb with hb | hb
  · exact hA y b (Or.inl hb) hbc
  · simp only [rootAssums] at hb
    split at hb
    · exact hA y b (Or.inl hb) hbc
    · rename_i e he _; simp only [Option.some.injEq] at hb; subst hb; exact hA y _ (Or.inr he) hbc
    · rename_i e d he hd; simp only [Option.some.injEq] at hb; subst hb
      rw [addUppers_const, addLowers_const] at hbc
      exact hA y d (Or.inl hd) hbc

/-- **C69 (parameters).** A scalar argument reported as a parameter has the same value at every entry and at the end of every
execution. -/
theorem parameters_sound (E : Env) (args : List (String × ArgKind)) (s : Seq) (x : String)
    (hx : x ∈ parameters args s) (hs : ∀ k, (x, k) ∈ args → k = .scalar) (σ : St) :
    (∀ p τ, s.vis E p σ τ → τ x = σ x) ∧ ∀ c τ, s.den E σ c τ → τ x = σ x := by
  have hw : ¬ writes s.users x := by
    simp only [parameters, List.mem_map, List.mem_filter] at hx
    obtain ⟨⟨y, k⟩, ⟨h1, h2⟩, rfl⟩ := hx
    have := hs k h1; subst this
    simpa using h2
  exact ⟨fun p τ hv => Seq.vis_frame E s x hw hv, fun c τ h => Seq.frame_inv E x (σ x) s hw _ _ _ rfl h⟩

end Docc.IR
