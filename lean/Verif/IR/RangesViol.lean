import Verif.IR.RangesUse
import Verif.IR.AssumAnViol

/-
C84: where the reported ranges miss accesses, and cases that meet the hypotheses of the soundness theorems.
-/
namespace Docc.IR
open Docc.Sym

/-- The range of `A` reported for the region is complete, the assumptions it is computed from hold wherever the execution comes, and the
region accesses an element outside. -/
def RangeWrong (n : Node) (A : Assums × Assums) : Prop := ∃ (E : Env) (σ : St) (r : Range) (idx : List Int),
  n.range (exCtx .nil fun _ => []) A "A" = .ok r ∧ r.undefined = false ∧
  (∀ p B τ, n.assums (exCtx .nil fun _ => []) A p = some B → n.vis E p σ τ → B.1.Hold (τ.val E)) ∧
  n.Accesses E σ "A" idx ∧ ¬ r.Contains E σ idx

/-- the assumption that `i` lies in `[lo, hi]` -/
def exIn (lo hi : Int) : Assums := fun x => if x = "i" then
  some { lower := .int lo, upper := .int hi, tightLower := some (.int lo), tightUpper := some (.int hi), lowers := [.int lo], uppers := [.int hi] } else none

theorem exIn_hold {lo hi : Int} {ρ : Val} (h : lo ≤ ρ.sym "i" ∧ ρ.sym "i" ≤ hi) : (exIn lo hi).Hold ρ := by
  intro x a ha
  unfold exIn at ha
  split at ha
  · rename_i e
    subst e
    simp only [Option.some.injEq] at ha
    subst ha
    refine ⟨⟨h.1, h.2⟩, fun b hb => ?_, fun b hb => ?_, fun b hb => ?_, fun b hb => ?_⟩
    · rw [List.mem_singleton.1 hb]; exact h.1
    · rw [List.mem_singleton.1 hb]; exact h.2
    · rw [← Option.some.inj hb]; exact h.1
    · rw [← Option.some.inj hb]; exact h.2
  · cases ha

theorem rangeWrong_block {l : List Stmt} {lo hi : Int} {r : Range} {σ : St} {idx : List Int} (E : Env)
    (h1 : (Node.block l).range (exCtx .nil fun _ => []) (exIn lo hi, exIn lo hi) "A" = .ok r) (h2 : r.undefined = false)
    (h3 : lo ≤ σ "i" [] ∧ σ "i" [] ≤ hi) (h4 : ∃ l1 s l2, l = l1 ++ s :: l2 ∧ s.Touches E (runBlock E l1 σ) "A" idx)
    (h5 : ¬ r.Contains E σ idx) : RangeWrong (.block l) (exIn lo hi, exIn lo hi) := by
  refine ⟨E, σ, r, idx, h1, h2, ?_, ?_, h5⟩
  · intro p B τ hB hv
    cases p with
    | cons k p => simp [Node.assums] at hB
    | nil =>
      simp only [Node.assums, Option.some.injEq] at hB
      have : τ = σ := by simpa [Node.vis] using hv
      subst this hB
      exact exIn_hold h3
  · obtain ⟨l1, s, l2, e, h⟩ := h4
    exact ⟨[], l, σ, l1, s, l2, by simp [Node.blocksAt], by simp [Node.vis], e, h⟩

/-- **C84 fails** for library nodes: `fill(A); A[0] = ...` is reported to access `A[0 : 0]` only. -/
theorem library_range_violated : RangeWrong (.block [.lib "fill" [] ["A"], .tasklet "f" [] "A" [.int 0]]) (exIn 0 0, exIn 0 0) := by
  refine rangeWrong_block (σ := fun _ _ => 0) (idx := [5]) exEnv rfl rfl (by decide) ⟨[], _, _, rfl, Or.inr (by simp)⟩ ?_
  rintro ⟨_, h⟩
  obtain ⟨lo, hi, h1, h2, h3⟩ := h 0 5 rfl
  cases h1
  exact absurd h3 (by decide)

/-- **C84 fails** for a computation that changes its own index: with `i` in `[0, 3]`, `i = 9; A[i] = ...` is reported to access `A[0 : 3]`. -/
theorem changed_index_range_violated : RangeWrong (.block [.tasklet "nine" [] "i" [], .tasklet "f" [] "A" [.sym "i"]]) (exIn 0 3, exIn 0 3) := by
  refine rangeWrong_block (σ := fun _ _ => 0) (idx := [9]) ⟨fun _ _ => 0, fun _ _ => 9, fun _ _ _ _ => 0, 0⟩ rfl rfl (by decide)
    ⟨[_], _, [], rfl, Or.inr ⟨rfl, rfl⟩⟩ ?_
  rintro ⟨_, h⟩
  obtain ⟨lo, hi, h1, h2, h3⟩ := h 0 9 rfl
  cases h1
  exact absurd h3 (by decide)

/-- **C84 fails** for divisions: with `i` in `[4, 9]`, `A[i / 2]` is reported to access `A[zext(i) : zext(i)]`. -/
theorem division_range_violated : RangeWrong (.block [.tasklet "f" [] "A" [.fn "idiv" [.sym "i", .int 2]]]) (exIn 4 9, exIn 4 9) := by
  refine rangeWrong_block (σ := fun _ _ => 4) (idx := [2]) exEnv rfl rfl (by decide) ⟨[], _, _, rfl, Or.inr ⟨rfl, rfl⟩⟩ ?_
  rintro ⟨_, h⟩
  obtain ⟨lo, hi, h1, h2, h3⟩ := h 0 2 rfl
  cases h1
  exact absurd h2 (by decide)

/-! ### the hypotheses of the soundness theorems are met -/

/-- what is known in the body of the loop of `exFillN` -/
def exFillBody : Assums := propagate (exFillCtx.bodyUpper (fun _ => none) "i" (.int 0) exInc1 (ssub (.sym "N") (.int 1))
  (exFillCtx.bodyInit "i" (.int 0) (exFillCtx.bodyBase "i" (.lt (.sym "i") (.sym "N")) exInc1 (exPut [.sym "i"])))) (fun _ => none)

theorem exFill_assums : (Node.seq exFillN).assums exFillCtx (rootAssums (fun _ => none) (fun _ => none)) [0, 0, 0] = some (exFillBody, exFillBody) := by
  have e : (Node.seq exFillN).assums exFillCtx (rootAssums (fun _ => none) (fun _ => none)) [0, 0, 0] =
    some (propagate (exFillCtx.body (fun _ => none) "i" (.int 0) (.lt (.sym "i") (.sym "N")) exInc1 (exPut [.sym "i"])) (fun _ => none),
      propagate (exFillCtx.body (fun _ => none) "i" (.int 0) (.lt (.sym "i") (.sym "N")) exInc1 (exPut [.sym "i"])) (fun _ => none)) := rfl
  rw [e, body_some (f := [[.lt (.sym "i") (.sym "N")]]) (ub := ssub (.sym "N") (.int 1)) (by decide) (cnf_lt _ _) rfl]
  rfl

/-- the upper bound that is computed for `i` (SymEngine would fold it to `N - 1`) -/
def exFillHi : Expr :=
  let m : Expr := .mul [.mul [.int 1, .int (-1)], .int 1]
  .add [.sym "N", .max [.max [.max [m, m], m], m]]

/-- the bounds that are reported -/
theorem exFill_range : (Node.seq exFillN).range exFillCtx (rootAssums (fun _ => none) (fun _ => none)) "A" =
    .ok ⟨false, true, false, [(some (.min [.int 0]), some (.max [exFillHi]))]⟩ := by
  have hb : (Node.seq exFillN).blocksAt = [([0, 0, 0], [.tasklet "f" [] "A" [.sym "i"]])] := rfl
  unfold Node.range Node.subsetsOf
  rw [hb]
  simp only [List.flatMap_cons, List.flatMap_nil, exFill_assums, List.append_nil]
  simp only [exFillBody, propagate_none]
  rfl

/-- the upper bound is `N - 1` -/
theorem exFill_hi (E : Env) (σ : St) : σ.ev E (.max [exFillHi]) = σ "N" [] - 1 := St.ev_of_eval rfl

theorem exFill_hold (E : Env) (σ : St) (p : List Nat) (B : Assums × Assums) (τ : St)
    (hB : (Node.seq exFillN).assums exFillCtx (rootAssums (fun _ => none) (fun _ => none)) p = some B) (hv : (Node.seq exFillN).vis E p σ τ) :
    B.1.Hold (τ.val E) := by
  refine (assumptions_sound_partial E exFillCtx (fun _ => none) (fun _ => none) exFillN σ
    (fun p τ _ => ⟨fun x a h => by simp at h, fun x a h => by simp at h⟩)
    (fun p L B h _ => ?_) (fun p L τ h hv => ?_) p B τ (by simpa only [Node.assums] using hB) (by simpa only [Node.vis] using hv)).1
  · obtain ⟨rfl, rfl⟩ := exFill_loops p L h
    exact exFill_ok E _
  · obtain ⟨rfl, rfl⟩ := exFill_loops p L h
    simp only [exFillN, Seq.one, List.cons_append, List.nil_append, Seq.vis, exLoop, Node.vis, exPut] at hv
    obtain ⟨σ1, h1, h2, rfl⟩ := hv
    have h0 : 0 ≤ τ "i" [] := by
      refine Rel.iterHeads_inv (P := fun σ => 0 ≤ σ "i" []) (fun σ h => ?_) (fun σ c σ' h hr => ?_) h1 (by
        rw [St.setS_same]; exact Int.le_of_eq rfl)
      · have h : 0 ≤ σ "i" [] := h
        show 0 ≤ (σ.setS "i" (σ.ev E exInc1)) "i" []
        rw [St.setS_same, St.ev_of_eval (n := σ "i" [] + 1) (by
          exact Docc.Sym.eval_add2 (show (Expr.sym "i").eval (σ.val E) = .fin (σ "i" []) from rfl) rfl)]
        omega
      · have := Seq.frame_inv E "i" (σ "i") _ (by decide) σ c σ' rfl hr
        show 0 ≤ σ' "i" []
        rw [show σ' "i" = σ "i" from this]; exact h
    have hlt : τ "i" [] < τ "N" [] := of_decide_eq_true h2
    intro a ha _ q hq
    simp [exFillCtx, exCtx, exFillN, exLoop, exPut, Seq.one, Seq.accs, Node.accs, Stmt.accs] at ha
    subst ha
    have hq : q = (.sym "i", some (.sym "N")) := by simpa [exFillCtx, exCtx] using hq
    subst hq
    refine ⟨⟨τ "i" [], rfl⟩, h0, fun n hn => ?_⟩
    have : n = .sym "N" := by simpa [Ctx.extent] using hn.symm
    subst this
    exact ⟨⟨τ "N" [], rfl⟩, hlt⟩

theorem exFill_blocks (p : List Nat) (l : List Stmt) (h : (p, l) ∈ (Node.seq exFillN).blocksAt) : l = [.tasklet "f" [] "A" [.sym "i"]] := by
  have hb : (Node.seq exFillN).blocksAt = [([0, 0, 0], [.tasklet "f" [] "A" [.sym "i"]])] := rfl
  rw [hb, List.mem_singleton] at h
  exact congrArg Prod.snd h

theorem exFill_noLib : (Node.seq exFillN).NoLib "A" := fun p l h op rs ws hl => by
  rw [exFill_blocks p l h] at hl
  simp at hl

theorem exFill_stable : (Node.seq exFillN).SubsetsStable "A" := fun p l h s hs sub hsub y hy => by
  rw [exFill_blocks p l h] at hs ⊢
  rw [List.mem_singleton.1 hs] at hsub
  have : sub = [.sym "i"] := by simpa [Stmt.subsOf, Stmt.readSubs, Stmt.writeSubs] using hsub
  subst this
  have : y = "i" := by simpa [Expr.atomsL, Expr.atoms] using hy
  subst this
  decide

theorem exFill_fns : ∀ d ∈ [(some (Expr.min [.int 0]), some (Expr.max [exFillHi]))], ∀ e, d.1 = some e ∨ d.2 = some e → e.fns = [] := by
  intro d hd e he
  rw [List.mem_singleton.1 hd] at he
  rcases he with he | he <;> cases he <;> rfl

/-- the theorems apply: `for (i = 0; i < N; i++) A[i] = ...` accesses only `A[0 : N - 1]` ... -/
example (E : Env) (σ : St) (k : Int) (h : (Node.seq exFillN).Accesses E σ "A" [k]) : 0 ≤ k ∧ k ≤ σ "N" [] - 1 := by
  obtain ⟨_, h2⟩ := mem_access_ranges_partial E exFillCtx _ _ "A" _ σ exFill_range rfl (exFill_hold E σ) exFill_fns exFill_noLib exFill_stable _ h
  obtain ⟨lo, hi, h3, h4, h5⟩ := h2 0 k rfl
  cases h3
  rw [exFill_hi] at h5
  exact ⟨h4, h5⟩

/-- ... which it does ... -/
example : (Node.seq exFillN).Accesses exEnv (fun _ _ => 3) "A" [0] :=
  ⟨[0, 0, 0], _, _, [], _, [], List.mem_singleton.2 rfl, ⟨_, .here, by decide, rfl⟩, rfl, Or.inr ⟨rfl, rfl⟩⟩

/-- ... and copying the elements before `N` is enough -/
example (E : Env) (σ τ σ' : St) (c : Ctl) (h : ∀ x idx, x ≠ "A" ∨ idx = [] ∨ (∀ k, idx = [k] → 0 ≤ k ∧ k ≤ σ "N" [] - 1) → τ x idx = σ x idx)
    (hd : (Node.seq exFillN).den E σ c σ') : ∃ τ', (Node.seq exFillN).den E τ c τ' ∧ ∀ k, 0 ≤ k → k < σ "N" [] → τ' "A" [k] = σ' "A" [k] := by
  obtain ⟨_, h2⟩ := ranges_suffice_partial E exFillCtx _ _ σ (fun x => if x = "A" then some ⟨false, true, false,
    [(some (.min [.int 0]), some (.max [exFillHi]))]⟩ else none) (exFill_hold E σ) (fun x r hr => by
      simp only [Option.ite_none_right_eq_some, Option.some.injEq] at hr
      obtain ⟨rfl, rfl⟩ := hr
      exact ⟨exFill_range, rfl, exFill_fns, exFill_noLib, exFill_stable⟩) c σ' hd
  obtain ⟨τ', h3, h4⟩ := h2 τ fun x idx hx => h x idx (by
    by_cases e : x = "A"
    · subst e
      rcases hx _ (if_pos rfl) with hx | ⟨_, hx⟩
      · exact Or.inr (Or.inl hx)
      · refine Or.inr (Or.inr fun k hk => ?_)
        subst hk
        obtain ⟨lo, hi, h3, h4, h5⟩ := hx 0 k rfl
        cases h3
        rw [exFill_hi] at h5
        exact ⟨h4, h5⟩
    · exact Or.inl e)
  refine ⟨τ', h3, fun k k0 k1 => h4 "A" [k] fun r hr => Or.inr ?_⟩
  simp only [if_true, Option.some.injEq] at hr
  subst hr
  refine ⟨Nat.le_refl _, fun j v hv => ?_⟩
  match j with
  | 0 =>
    simp only [List.getElem?_cons_zero, Option.some.injEq] at hv
    subst hv
    exact ⟨_, _, rfl, k0, by rw [exFill_hi]; omega⟩
  | j + 1 => simp at hv

end Docc.IR
