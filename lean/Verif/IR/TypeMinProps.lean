import Verif.IR.TypeMin

/-
C81: `TypeMinimization` does not change what a program computes.
-/
namespace Docc.IR
open Docc.Sym

theorem eval_congr_closed (e : Expr) (ρ ρ' : Val) (hf : e.fns = []) (h : ∀ x ∈ e.atoms, ρ.sym x = ρ'.sym x) :
    e.eval ρ = e.eval ρ' := by
  have hl : ∀ l : List Expr, (∀ e ∈ l, e.fns = [] → (∀ x ∈ e.atoms, ρ.sym x = ρ'.sym x) → e.eval ρ = e.eval ρ') →
      Expr.fnsL l = [] → (∀ x ∈ Expr.atomsL l, ρ.sym x = ρ'.sym x) → Expr.evalL ρ l = Expr.evalL ρ' l := by
    intro l ih hf h
    rw [Expr.evalL_eq_map, Expr.evalL_eq_map]
    apply List.map_congr_left
    intro e he
    refine ih e he ?_ (fun x hx => h x ((Expr.mem_atomsL x l).mpr ⟨e, he, hx⟩))
    refine List.eq_nil_iff_forall_not_mem.2 fun p hp => ?_
    have := Expr.fns_sub he p hp
    rw [hf] at this; simp at this
  induction e using Expr.induct with
  | hint n => rfl
  | hsym y => simp only [Expr.eval]; rw [h y (by simp [Expr.atoms])]
  | hinf b => rfl
  | hnan => rfl
  | hadd l ih | hmul l ih | hmax l ih | hmin l ih => simp only [Expr.eval, hl l ih (by simpa [Expr.fns] using hf) h]
  | hpow b e ihb ihe =>
    simp only [Expr.fns, List.append_eq_nil_iff] at hf
    simp only [Expr.eval]
    rw [ihb hf.1 (fun x hx => h x (by simp [Expr.atoms, hx])), ihe hf.2 (fun x hx => h x (by simp [Expr.atoms, hx]))]
  | hfn f l ih => simp [Expr.fns] at hf

theorem closedValue_eval {e : Expr} {v : Sym.V} (h : closedValue e = some v) (ρ : Val) : e.fns = [] ∧ e.eval ρ = v := by
  unfold closedValue at h
  split at h
  · rename_i hc
    simp only [Option.some.injEq] at h
    exact ⟨hc.1, by rw [← h]; exact eval_congr_closed e _ _ hc.1 (by rw [hc.2]; simp)⟩
  · cases h

/-- A truncation accepted by `is_safe_trunc` has the value of its argument wherever the assumptions hold. -/
theorem safe_trunc_value (A : Assums) (a : Expr) (ρ : Val) (hA : A.Hold ρ) (h : safeTrunc A a = true) :
    (truncOf a).eval ρ = a.eval ρ := by
  unfold safeTrunc at h
  split at h
  · rename_i lo hi h1 h2
    split at h
    · rename_i l u hl hu
      rw [Bool.and_eq_true] at h
      obtain ⟨fl, el⟩ := closedValue_eval hl ρ
      obtain ⟨fu, eu⟩ := closedValue_eval hu ρ
      by_cases ha : a.eval ρ = .nan
      · simp [truncOf, Expr.eval, Expr.evalL, ha, finArgs]
      · have hlo := (extreme_values_new_closed_partial true [] A ρ hA a lo hi ha).1 h1 fl (by rw [el]; intro hn; simp [hn, V.nonneg] at h)
        have hhi := (extreme_values_new_closed_partial false [] A ρ hA a lo hi ha).2 h2 fu (by rw [eu]; intro hn; simp [hn, V.below31] at h)
        rw [el] at hlo; rw [eu] at hhi
        cases hv : a.eval ρ with
        | nan => exact absurd hv ha
        | pinf => rw [hv] at hhi; cases u <;> simp [V.below31] at h <;> simp [V.le_def, V.le] at hhi
        | ninf => rw [hv] at hlo; cases l <;> simp [V.nonneg] at h <;> simp [V.le_def, V.le] at hlo
        | fin n =>
          rw [hv] at hlo hhi
          have h0 : 0 ≤ n := by
            cases l <;> simp [V.nonneg] at h <;> simp [V.le_def, V.le] at hlo
            omega
          have h3 : n ≤ 2 ^ 31 - 1 := by
            cases u <;> simp [V.below31] at h <;> simp [V.le_def, V.le] at hhi
            omega
          have : n.bmod (2 ^ 32) = n := by
            rw [Int.bmod_def]
            have : n % ((2 ^ 32 : Nat) : Int) = n := Int.emod_eq_of_lt h0 (by omega)
            rw [this, if_pos (by omega)]
          simp [truncOf, Expr.eval, Expr.evalL, hv, finArgs, applyFn]
          exact this
    · cases h
  · cases h

/-! ### one element -/

theorem mem_replacements {ord : List Expr → List Expr} (ho : ∀ l, (ord l).Perm l) {A : Assums}
    {fs : List (String × List Expr)} {a : Expr} (h : a ∈ replacements ord A fs) : safeTrunc A a = true := by
  have := (ho _).mem_iff.1 h
  exact (List.mem_filter.1 this).2

theorem untrunc_eval (as : List Expr) (ρ : Val) (h : ∀ a ∈ as, (truncOf a).eval ρ = a.eval ρ) (e : Expr) :
    (untrunc as e).eval ρ = e.eval ρ := by
  unfold untrunc
  induction as generalizing e with
  | nil => rfl
  | cons a r ih =>
    rw [List.foldl_cons, ih (fun b hb => h b (List.mem_cons_of_mem _ hb))]
    exact eval_subs_of_eq e _ _ ρ (h a (by simp))

theorem untrunc_ev (E : Env) (as : List Expr) (σ : St) (h : ∀ a ∈ as, (truncOf a).eval (σ.val E) = a.eval (σ.val E)) (e : Expr) :
    σ.ev E (untrunc as e) = σ.ev E e := by
  unfold St.ev; rw [untrunc_eval as _ h]

theorem untruncCond_eval (E : Env) (as : List Expr) (σ : St)
    (h : ∀ a ∈ as, (truncOf a).eval (σ.val E) = a.eval (σ.val E)) (c : Cond) :
    σ.cond E (untruncCond as c) = σ.cond E c := by
  unfold untruncCond
  induction as generalizing c with
  | nil => rfl
  | cons a r ih =>
    rw [List.foldl_cons, ih (fun b hb => h b (List.mem_cons_of_mem _ hb))]
    unfold St.cond
    refine Cond.eval_subs _ _ c _ _ (fun e => ?_) (fun x _ => ?_)
    · show σ.ev E _ = σ.ev E e
      unfold St.ev
      rw [eval_subs_of_eq e _ _ _ (h a (by simp))]
    · simp [Cond.subs, truncOf, Cond.eval]

theorem untrunc_run (E : Env) (as : List Expr) (s : Stmt) (σ : St)
    (h : ∀ a ∈ as, (truncOf a).eval (σ.val E) = a.eval (σ.val E)) : (s.untrunc as).run E σ = s.run E σ := by
  cases s with
  | lib op r w => rfl
  | tasklet op ins out sub =>
    simp only [Stmt.untrunc, Stmt.run, List.map_map]
    have hd : St.ev E σ ∘ IR.untrunc as = St.ev E σ := funext fun e => untrunc_ev E as σ h e
    rw [hd]
    congr 2
    refine List.map_congr_left fun r _ => ?_
    show σ r.1 ((r.2.map (untrunc as)).map (σ.ev E)) = σ r.1 (r.2.map (σ.ev E))
    rw [List.map_map, hd]

/-- a truncation whose argument is not written keeps having the value of its argument -/
theorem trunc_kept {E : Env} {a : Expr} {σ τ : St} (h : (truncOf a).eval (σ.val E) = a.eval (σ.val E))
    (hk : ∀ x ∈ a.atoms, τ x [] = σ x []) : (truncOf a).eval (τ.val E) = a.eval (τ.val E) := by
  have h1 : a.eval (τ.val E) = a.eval (σ.val E) := eval_congr_atoms a _ _ rfl fun x hx => hk x hx
  have h2 : (truncOf a).eval (τ.val E) = (truncOf a).eval (σ.val E) :=
    eval_congr_atoms _ _ _ rfl fun x hx => hk x (by simpa [truncOf, Expr.atoms, Expr.atomsL] using hx)
  rw [h1, h2, h]

/-- no argument of a removed truncation is written by the block, or the assumptions hold throughout the block -/
def BlockStable (E : Env) (A : Assums) (as : List Expr) (l : List Stmt) (τ : St) : Prop :=
  ∀ a ∈ as, (∀ x ∈ a.atoms, ¬ writes (l.flatMap Stmt.users) x) ∨
    ∀ k, A.Hold ((runBlock E (l.take k) τ).val E)

theorem untrunc_block (E : Env) (A : Assums) (as : List Expr) (l : List Stmt) (τ : St) (hA : A.Hold (τ.val E))
    (hs : ∀ a ∈ as, safeTrunc A a = true) (h : BlockStable E A as l τ) :
    runBlock E (l.map (Stmt.untrunc as)) τ = runBlock E l τ := by
  have key : ∀ k, ∀ a ∈ as, (truncOf a).eval ((runBlock E (l.take k) τ).val E) = a.eval ((runBlock E (l.take k) τ).val E) := by
    intro k a ha
    rcases h a ha with hw | hh
    · refine trunc_kept (safe_trunc_value A a _ hA (hs a ha)) fun x hx => ?_
      rw [runBlock_frame]
      intro hc
      refine hw x hx ?_
      obtain ⟨s, h1, h2⟩ := List.mem_flatMap.1 hc
      exact List.mem_flatMap.2 ⟨s, List.mem_of_mem_take h1, h2⟩
    · exact safe_trunc_value A a _ (hh k) (hs a ha)
  have step : ∀ k ≤ l.length, runBlock E ((l.take k).map (Stmt.untrunc as)) τ = runBlock E (l.take k) τ := by
    intro k
    induction k with
    | zero => intro _; rfl
    | succ k ih =>
      intro hk
      have hlt : k < l.length := hk
      rw [List.take_succ_eq_append_getElem hlt, List.map_append]
      unfold runBlock at ih key ⊢
      rw [List.foldl_append, List.foldl_append, ih (Nat.le_of_lt hlt)]
      exact untrunc_run E as _ _ (key k)
  have := step l.length (Nat.le_refl _)
  rwa [List.take_length] at this

/-- no argument of a truncation removed from the condition is written by the loop (not even by its header), or the
assumptions reported for the loop hold whenever the condition is tested -/
def LoopStable (E : Env) (A : Assums) (as : List Expr) (i : String) (a : Expr) (c : Cond) (u : Expr) (s : Seq) (τ : St) : Prop :=
  ∀ e ∈ as, (∀ x ∈ e.atoms, x ≠ i ∧ ¬ writes s.users x) ∨
    ∀ σ1, Rel.iterHeads (fun σ => σ.cond E c) (fun σ => σ.setS i (σ.ev E u)) (s.den E) (τ.setS i (τ.ev E a)) σ1 →
      A.Hold (σ1.val E)

theorem untrunc_cond (E : Env) (A : Assums) (as : List Expr) (i : String) (a : Expr) (c : Cond) (u : Expr) (s : Seq) (τ σ1 : St)
    (hA : A.Hold (τ.val E)) (hs : ∀ a ∈ as, safeTrunc A a = true) (h : LoopStable E A as i a c u s τ)
    (h1 : Rel.iterHeads (fun σ => σ.cond E c) (fun σ => σ.setS i (σ.ev E u)) (s.den E) (τ.setS i (τ.ev E a)) σ1) :
    σ1.cond E (untruncCond as c) = σ1.cond E c := by
  refine untruncCond_eval E as σ1 (fun e he => ?_) c
  rcases h e he with hw | hh
  · refine trunc_kept (safe_trunc_value A e _ hA (hs e he)) fun x hx => ?_
    have : Holds x (τ x) σ1 := by
      refine Rel.iterHeads_inv (P := Holds x (τ x)) (fun σ hp => ?_) (s.frame_inv E x (τ x) (hw x hx).2) h1 ?_
      · rw [Holds, St.setS_other _ _ (hw x hx).1]; exact hp
      · rw [Holds, St.setS_other _ _ (hw x hx).1]
    rw [this]
  · exact safe_trunc_value A e _ (hh σ1 h1) (hs e he)

/-! ### whole programs -/

/-- what an element must satisfy when it is entered in state `τ` -/
def Node.Steady (E : Env) (ord : List Expr → List Expr) (A : Assums) : Node → St → Prop
  | .block l, τ => BlockStable E A (blockRepl ord A l) l τ
  | .loop false i a c u s, τ => LoopStable E A (loopRepl ord A c) i a c u s τ
  | _, _ => True

/-- wherever the execution gets to, the assumptions reported for the element hold, and the element is steady -/
def Reported (E : Env) (ord : List Expr → List Expr) (σ : St) (vis : List Nat → St → St → Prop)
    (assums : List Nat → Option (Assums × Assums)) (elem : List Nat → Option Node) : Prop :=
  ∀ p B τ n, assums p = some B → vis p σ τ → elem p = some n → B.2.Hold (τ.val E) ∧ n.Steady E ord B.2 τ

mutual
theorem Node.typeMin_eqAt (E : Env) (C : Ctx) (ord : List Expr → List Expr) (ho : ∀ l, (ord l).Perm l) : (n : Node) →
    (A : Assums × Assums) → (σ : St) → Reported E ord σ (n.vis E) (n.assums C A) n.elem → n.EqAt E (n.typeMin C ord A) σ
  | .block l, A, σ, h => by
    rw [Node.EqAt, Node.typeMin]
    obtain ⟨g1, g2⟩ := h [] A σ _ (by simp [Node.assums]) (by simp [Node.vis]) rfl
    exact ⟨_, rfl, untrunc_block E A.2 _ l σ g1 (fun a ha => mem_replacements ho ha) g2⟩
  | .seq s, A, σ, h => by
    rw [Node.EqAt, Node.typeMin]
    refine ⟨_, rfl, Seq.typeMin_eqAt E C ord ho s A σ fun p B τ k h1 h2 h3 => ?_⟩
    exact h p B τ k (by rw [Node.assums]; exact h1) (by rw [Node.vis]; exact h2) (by simpa only [Node.elem] using h3)
  | .ifElse b, A, σ, h => by
    rw [Node.EqAt, Node.typeMin]
    refine ⟨_, rfl, Brs.typeMin_eqAt E C ord ho b A σ fun p B τ k h1 h2 h3 => ?_⟩
    exact h p B τ k (by rw [Node.assums]; exact h1) (by rw [Node.vis]; exact h2) (by simpa only [Node.elem] using h3)
  | .whileL s, A, σ, h => by
    rw [Node.EqAt, Node.typeMin]
    refine ⟨_, rfl, fun σ1 hh => Seq.typeMin_eqAt E C ord ho s A σ1 fun p B τ k h1 h2 h3 => ?_⟩
    exact h (0 :: p) B τ k (by simp only [Node.assums]; exact h1) (by simp only [Node.vis]; exact ⟨σ1, hh, h2⟩) (by simpa only [Node.elem] using h3)
  | .loop m i a c u s, A, σ, h => by
    rw [Node.EqAt, Node.typeMin]
    obtain ⟨g1, g2⟩ := h [] A σ _ (by simp [Node.assums]) (by simp [Node.vis]) rfl
    refine ⟨_, _, rfl, fun σ1 hh => ⟨?_, fun hc => Seq.typeMin_eqAt E C ord ho s _ σ1 fun p B τ k h1 h2 h3 => ?_⟩⟩
    · cases m with
      | true => rfl
      | false =>
        exact untrunc_cond E A.2 _ i a c u s σ σ1 g1 (fun a ha => mem_replacements ho ha) g2 hh
    · exact h (0 :: p) B τ k (by simp only [Node.assums]; exact h1) (by simp only [Node.vis]; exact ⟨σ1, hh, hc, h2⟩) (by simpa only [Node.elem] using h3)
  | .brk, A, σ, _ => by rw [Node.EqAt, Node.typeMin]
  | .cont, A, σ, _ => by rw [Node.EqAt, Node.typeMin]
  | .ret d q, A, σ, _ => by rw [Node.EqAt, Node.typeMin]
theorem Seq.typeMin_eqAt (E : Env) (C : Ctx) (ord : List Expr → List Expr) (ho : ∀ l, (ord l).Perm l) : (s : Seq) →
    (A : Assums × Assums) → (σ : St) → Reported E ord σ (s.vis E) (s.assums C A) s.elem → s.EqAt E (s.typeMin C ord A) σ
  | .nil, A, σ, _ => by rw [Seq.EqAt, Seq.typeMin]
  | .cons n t r, A, σ, h => by
    rw [Seq.EqAt, Seq.typeMin]
    refine ⟨_, _, rfl, Node.typeMin_eqAt E C ord ho n A σ fun p B τ k h1 h2 h3 => ?_,
      fun σ1 hn => Seq.typeMin_eqAt E C ord ho r A _ fun p B τ k h1 h2 h3 => ?_⟩
    · exact h (0 :: p) B τ k (by simp only [Seq.assums]; exact h1) (by simp only [Seq.vis]; exact h2) (by simpa only [Seq.elem] using h3)
    · cases p with
      | nil => cases r <;> simp [Seq.elem] at h3
      | cons j p =>
        exact h ((j + 1) :: p) B τ k (by simp only [Seq.assums]; exact h1) (by simp only [Seq.vis]; exact ⟨σ1, hn, h2⟩) (by simpa only [Seq.elem] using h3)
theorem Brs.typeMin_eqAt (E : Env) (C : Ctx) (ord : List Expr → List Expr) (ho : ∀ l, (ord l).Perm l) : (b : Brs) →
    (A : Assums × Assums) → (σ : St) → Reported E ord σ (b.vis E) (b.assums C A) b.elem → b.EqAt E (b.typeMin C ord A) σ
  | .nil, A, σ, _ => by rw [Brs.EqAt, Brs.typeMin]
  | .cons c s r, A, σ, h => by
    rw [Brs.EqAt, Brs.typeMin]
    refine ⟨_, _, rfl, fun hc => Seq.typeMin_eqAt E C ord ho s A σ fun p B τ k h1 h2 h3 => ?_,
      fun hc => Brs.typeMin_eqAt E C ord ho r A _ fun p B τ k h1 h2 h3 => ?_⟩
    · exact h (0 :: p) B τ k (by simp only [Brs.assums]; exact h1) (by simp only [Brs.vis]; exact ⟨hc, h2⟩) (by simpa only [Brs.elem] using h3)
    · cases p with
      | nil => cases r <;> simp [Brs.elem] at h3
      | cons j p =>
        exact h ((j + 1) :: p) B τ k (by simp only [Brs.assums]; exact h1) (by simp only [Brs.vis]; exact ⟨hc, h2⟩) (by simpa only [Brs.elem] using h3)
end

/-- **C81 (partial).** `TypeMinimization` does not change what an SDFG computes: for all SDFGs, inputs, declared assumptions and
iteration orders of the replacement map, the transformed SDFG has exactly the terminating executions of the original one from
the initial state (same outcome, same final memory), provided the assumptions reported for each block and loop hold whenever
it is entered (C69), and a symbol in the argument of a removed truncation is not written by the block, respectively by the
loop, or the assumptions keep holding there.  Missing: loops that change such a symbol; `type_minimization_violated`. -/
theorem type_minimization_partial (E : Env) (C : Ctx) (ord : List Expr → List Expr) (ho : ∀ l, (ord l).Perm l)
    (add sdfg : Assums) (s : Seq) (σ : St)
    (hA : ∀ p B τ n, s.assums C (rootAssums add sdfg) p = some B → s.vis E p σ τ → s.elem p = some n → B.2.Hold (τ.val E))
    (hb : ∀ p B τ l, s.assums C (rootAssums add sdfg) p = some B → s.vis E p σ τ → s.elem p = some (.block l) →
      BlockStable E B.2 (blockRepl ord B.2 l) l τ)
    (hl : ∀ p B τ i a c u b, s.assums C (rootAssums add sdfg) p = some B → s.vis E p σ τ →
      s.elem p = some (.loop false i a c u b) → LoopStable E B.2 (loopRepl ord B.2 c) i a c u b τ) (k : Ctl) (τ : St) :
    s.den E σ k τ ↔ (s.typeMin C ord (rootAssums add sdfg)).den E σ k τ := by
  refine Seq.eqAt_den E s _ σ (Seq.typeMin_eqAt E C ord ho s _ σ fun p B τ n h1 h2 h3 => ⟨hA p B τ n h1 h2 h3, ?_⟩) k τ
  cases n with
  | block l => exact hb p B τ l h1 h2 h3
  | loop m i a c u b =>
    cases m with
    | false => exact hl p B τ i a c u b h1 h2 h3
    | true => trivial
  | _ => trivial

end Docc.IR
