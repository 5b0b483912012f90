import Verif.IR.DeadCFG
import Verif.IR.ReplaceProps
import Verif.IR.SeqFusionProps
import Verif.Sym.SeriesProps
import Verif.IR.LoopInfoProps
import Verif.IR.Jump

/-
C14: DeadCFGElimination.
-/
namespace Docc.IR
open Docc.Sym

theorem St.setS_self (σ : St) (x : String) : σ.setS x (σ x []) = σ := by
  funext y j
  simp only [St.setS, St.set]
  split
  · rename_i h; rw [h.1, h.2]
  · rfl

theorem dropSelf_run (E : Env) (t : Trans) (σ : St) : runTrans E (dropSelf t) σ = runTrans E t σ := by
  induction t generalizing σ with
  | nil => rfl
  | cons a t ih =>
    unfold dropSelf at ih ⊢
    rw [List.filter_cons]
    split
    · show runTrans E _ (σ.setS a.1 (σ.ev E a.2)) = runTrans E _ (σ.setS a.1 (σ.ev E a.2)); exact ih _
    · rename_i h
      simp only [ne_eq, decide_not, Bool.not_eq_true', decide_eq_false_iff_not, Decidable.not_not] at h
      show _ = runTrans E t (σ.setS a.1 (σ.ev E a.2))
      rw [h]
      have : σ.ev E (.sym a.1) = σ a.1 [] := by simp [St.ev, Expr.eval, St.val]
      rw [this, St.setS_self]; exact ih _

theorem Rel.forever_skip (σ σ' : St) (c : Ctl) : ¬ Rel.forever (Rel.upd id) σ c σ' := by
  intro h
  induction h with
  | step k h1 h2 _ ih => exact ih
  | stop h1 => exact absurd h1.1 (by simp)
  | ret d q h1 => exact absurd h1.1 (by simp)

/-- the hypotheses carried through the traversal -/
def okN (D : DCE) (b : Bool) (n : Node) : Prop := n.noTrivial D ∧ (b = true → n.noEmptyWhile)
/-- the hypotheses carried through the traversal -/
def okS (D : DCE) (b : Bool) (s : Seq) : Prop := s.noTrivial D ∧ (b = true → s.noEmptyWhile)
/-- the hypotheses carried through the traversal -/
def okB (D : DCE) (b : Bool) (s : Brs) : Prop := s.noTrivial D ∧ (b = true → s.noEmptyWhile)

theorem okS_cons {D : DCE} {b : Bool} {n : Node} {t : Trans} {r : Seq} : okS D b (.cons n t r) ↔ okN D b n ∧ okS D b r := by
  simp only [okS, okN, Seq.noTrivial, Seq.noEmptyWhile]
  constructor
  · rintro ⟨⟨h1, h2⟩, h3⟩; exact ⟨⟨h1, fun hb => (h3 hb).1⟩, h2, fun hb => (h3 hb).2⟩
  · rintro ⟨⟨h1, h2⟩, h3, h4⟩; exact ⟨⟨h1, h3⟩, fun hb => ⟨h2 hb, h4 hb⟩⟩

theorem okB_cons {D : DCE} {b : Bool} {c : Cond} {s : Seq} {r : Brs} : okB D b (.cons c s r) ↔ okS D b s ∧ okB D b r := by
  simp only [okS, okB, Brs.noTrivial, Brs.noEmptyWhile]
  constructor
  · rintro ⟨⟨h1, h2⟩, h3⟩; exact ⟨⟨h1, fun hb => (h3 hb).1⟩, h2, fun hb => (h3 hb).2⟩
  · rintro ⟨⟨h1, h2⟩, h3, h4⟩; exact ⟨⟨h1, h3⟩, fun hb => ⟨h2 hb, h4 hb⟩⟩

theorem okS_nil {D : DCE} {b : Bool} : okS D b .nil := ⟨trivial, fun _ => trivial⟩
theorem okB_nil {D : DCE} {b : Bool} : okB D b .nil := ⟨trivial, fun _ => trivial⟩

theorem okS_append {D : DCE} {b : Bool} (s r : Seq) : okS D b (s ++ r) ↔ okS D b s ∧ okS D b r := by
  match s with
  | .nil => simp [okS_nil]
  | .cons n t s => simp only [Seq.cons_append, okS_cons, okS_append s r]; exact and_assoc.symm

theorem okN_ifElse {D : DCE} {b : Bool} {r : Brs} : okN D b (.ifElse r) ↔ okB D b r := by
  simp only [okN, okB, Node.noTrivial, Node.noEmptyWhile]

/-- an empty or skipped child may be removed -/
theorem isDead_ref (E : Env) (D : DCE) (hp : D.permissive = false) (b : Bool) (n : Node) (hok : okN D b n)
    (hd : D.isDead n = true) : Rel.ref b (n.den E) (Rel.upd id) := by
  cases n with
  | block l =>
    simp only [DCE.isDead, List.isEmpty_iff] at hd
    subst hd; exact Rel.ref_of_eq b (by rw [Node.den]; rfl)
  | seq s =>
    cases s with
    | nil => exact Rel.ref_of_eq b (by rw [Node.den, Seq.den])
    | cons n t r => simp [DCE.isDead, Seq.isNil] at hd
  | ifElse s =>
    cases s with
    | nil => exact Rel.ref_of_eq b (by rw [Node.den, Brs.den])
    | cons c s r => simp [DCE.isDead, Brs.isNil] at hd
  | whileL s =>
    cases s with
    | nil =>
      constructor
      · intro σ c σ' h
        rw [Node.den, Seq.den] at h
        exact absurd h (Rel.forever_skip _ _ _)
      · intro hb
        have := (hok.2 hb)
        simp [Node.noEmptyWhile, Seq.isNil] at this
    | cons n t r => simp [DCE.isDead, Seq.isNil] at hd
  | loop m i a c u s => simp [DCE.isDead, hp] at hd
  | brk => simp [DCE.isDead] at hd
  | cont => simp [DCE.isDead] at hd
  | ret d q => simp [DCE.isDead] at hd

theorem Cond.isTT_eval {c : Cond} (h : c.isTT = true) (E : Env) (σ : St) : σ.cond E c = true := by
  rw [isTT_eq h]; rfl
theorem Cond.isFF_eval {c : Cond} (h : c.isFF = true) (E : Env) (σ : St) : σ.cond E c = false := by
  rw [isFF_eq h]; rfl

theorem seq1_ref (E : Env) (D : DCE) (hp : D.permissive = false) (b : Bool) (s : Seq) (hok : okS D b s) :
    Rel.ref b (s.den E) ((D.seq1 s).den E) ∧ okS D b (D.seq1 s) := by
  induction hn : s.w using Nat.strongRecOn generalizing s with
  | ind k ih =>
  subst hn
  rw [DCE.seq1.eq_def]
  split
  · exact ⟨Rel.ref_refl _ _, hok⟩
  · rename_i d q t r
    constructor
    · refine Rel.ref_of_eq b ?_
      rw [Seq.den, Seq.den, Node.den, Rel.exit_seq _ (by simp), Rel.exit_seq _ (by simp)]
    · rw [okS_cons] at hok ⊢; exact ⟨hok.1, okS_nil⟩
  · rename_i n t r _
    rw [okS_cons] at hok
    obtain ⟨hr, hrk⟩ := ih r.w (by simp only [Seq.w]; omega) r hok.2 rfl
    have keep : Rel.ref b ((Seq.cons n t r).den E) ((Seq.cons n (dropSelf t) (D.seq1 r)).den E) := by
      rw [Seq.den, Seq.den]
      refine Rel.seq_ref (Rel.ref_refl _ _) (Rel.seq_ref (Rel.ref_of_eq b ?_) hr)
      congr 1; funext σ; exact (dropSelf_run E t σ).symm
    split
    · exact ⟨keep, okS_cons.2 ⟨hok.1, hrk⟩⟩
    · rename_i ht
      have ht : dropSelf t = [] := by simpa using ht
      rw [ht] at keep
      have htr : Rel.upd (runTrans E t) = Rel.upd id := by
        congr 1; funext σ; rw [← dropSelf_run, ht]; rfl
      split
      · rename_i hd
        refine ⟨?_, hrk⟩
        rw [Seq.den, htr, Rel.skip_seq]
        have := Rel.seq_ref (isDead_ref E D hp b n hok.1 hd) hr
        rwa [Rel.skip_seq] at this
      · split
        · rename_i c s b' _ _
          split
          · rename_i hc
            have hok1 := hok.1
            rw [okN_ifElse, okB_cons] at hok1
            obtain ⟨h1, h2⟩ := ih (s ++ r).w (by simp only [Seq.w, Node.w, Brs.w, Seq.w_append]; omega) (s ++ r)
              ((okS_append _ _).2 ⟨hok1.1, hok.2⟩) rfl
            refine ⟨Rel.ref_trans (Rel.ref_of_eq b ?_) h1, h2⟩
            rw [Seq.den, htr, Rel.skip_seq, Seq.den_append, Node.den, Brs.den]
            congr 1
            funext σ k σ'
            simp only [Rel.ite, Cond.isTT_eval hc, if_true]
          · exact ⟨keep, okS_cons.2 ⟨hok.1, hrk⟩⟩
        · rename_i i a c u s _ _
          split
          · rename_i htriv
            have := hok.1.1.1 rfl
            rw [this] at htriv
            simp at htriv
          · exact ⟨keep, okS_cons.2 ⟨hok.1, hrk⟩⟩
        · exact ⟨keep, okS_cons.2 ⟨hok.1, hrk⟩⟩

theorem Seq.isNil_eq {s : Seq} (h : s.isNil = true) : s = .nil := by
  cases s with
  | nil => rfl
  | cons n t r => simp [Seq.isNil] at h

theorem dropFalse_den (E : Env) (D : DCE) (b : Bool) (r : Brs) (hok : okB D b r) :
    r.dropFalse.den E = r.den E ∧ okB D b r.dropFalse := by
  match r with
  | .nil => exact ⟨rfl, hok⟩
  | .cons c s r =>
    rw [okB_cons] at hok
    obtain ⟨h1, h2⟩ := dropFalse_den E D b r hok.2
    rw [Brs.dropFalse]
    split
    · rename_i hc
      refine ⟨?_, h2⟩
      rw [h1, Brs.den]
      funext σ k σ'
      simp [Rel.ite, Cond.isFF_eval hc]
    · exact ⟨by rw [Brs.den, Brs.den, h1], okB_cons.2 ⟨hok.1, h2⟩⟩

theorem dropLast_den (E : Env) (D : DCE) (b : Bool) (r : Brs) (hok : okB D b r) :
    r.dropLast.den E = r.den E ∧ okB D b r.dropLast := by
  match r with
  | .nil => exact ⟨rfl, hok⟩
  | .cons c s .nil =>
    rw [Brs.dropLast]
    split
    · rename_i hs
      rw [Seq.isNil_eq hs]
      refine ⟨?_, okB_nil⟩
      simp only [Brs.den, Seq.den]
      funext σ k σ'
      simp [Rel.ite]
    · exact ⟨rfl, hok⟩
  | .cons c s (.cons c' s' r) =>
    rw [okB_cons] at hok
    obtain ⟨h1, h2⟩ := dropLast_den E D b (.cons c' s' r) hok.2
    rw [Brs.dropLast, Brs.den, h1, Brs.den]
    · exact ⟨rfl, okB_cons.2 ⟨hok.1, h2⟩⟩
    · intro h; cases h

theorem simple_den (E : Env) (D : DCE) (b : Bool) (r : Brs) (hok : okB D b r) :
    r.simple.den E = r.den E ∧ okB D b r.simple := by
  unfold Brs.simple
  split
  · rename_i c0 s0 c1 s1
    simp only [okB_cons] at hok
    split
    · rename_i hc
      split
      · rename_i h1
        refine ⟨?_, okB_cons.2 ⟨hok.1, okB_nil⟩⟩
        rw [Seq.isNil_eq h1]
        simp only [Brs.den, Seq.den]
        funext σ k σ'
        simp [Rel.ite]
      · split
        · rename_i h0
          refine ⟨?_, okB_cons.2 ⟨hok.2.1, okB_nil⟩⟩
          rw [Seq.isNil_eq h0]
          simp only [Brs.den, Seq.den]
          funext σ k σ'
          have hn : σ.cond E c1 = !σ.cond E c0 := by subst hc; exact neg_eval _ c0
          simp only [Rel.ite, hn]
          by_cases hc0 : σ.cond E c0 = true <;> simp [hc0]
        · exact ⟨rfl, by simp only [okB_cons]; exact hok⟩
    · exact ⟨rfl, by simp only [okB_cons]; exact hok⟩
  · exact ⟨rfl, hok⟩

theorem dce_den (E : Env) (D : DCE) (b : Bool) (r : Brs) (hok : okB D b r) : r.dce.den E = r.den E ∧ okB D b r.dce := by
  obtain ⟨h1, k1⟩ := dropFalse_den E D b r hok
  obtain ⟨h2, k2⟩ := dropLast_den E D b _ k1
  obtain ⟨h3, k3⟩ := simple_den E D b _ k2
  exact ⟨by rw [Brs.dce, h3, h2, h1], k3⟩

theorem node_ref (E : Env) (D : DCE) (hp : D.permissive = false) (b : Bool) (k : Nat) :
    (∀ n, n.w < k → okN D b n → Rel.ref b (n.den E) ((D.node n).den E)) ∧
    (∀ s, s.w < k → okS D b s → Rel.ref b (s.den E) ((D.kids s).den E)) ∧
    (∀ r, r.w < k → okB D b r → Rel.ref b (r.den E) ((D.cases r).den E)) := by
  induction k with
  | zero => exact ⟨by intro n h; omega, by intro n h; omega, by intro n h; omega⟩
  | succ k ih =>
    obtain ⟨ihn, ihs, ihb⟩ := ih
    have hseq : ∀ s, s.w < k → okS D b s → Rel.ref b (s.den E) ((D.kids (D.seq1 s)).den E) := by
      intro s hs hok
      obtain ⟨h1, h2⟩ := seq1_ref E D hp b s hok
      exact Rel.ref_trans h1 (ihs _ (Nat.lt_of_le_of_lt (D.w_seq1 s) hs) h2)
    refine ⟨?_, ?_, ?_⟩
    · intro n hn hok
      cases n with
      | block l => rw [DCE.node]; exact Rel.ref_refl _ _; all_goals (intros; rename_i hh; cases hh)
      | seq s =>
        rw [DCE.node, Node.den, Node.den]
        exact hseq s (by simp only [Node.w] at hn; omega) hok
      | ifElse r =>
        rw [DCE.node, Node.den, Node.den]
        obtain ⟨h1, h2⟩ := dce_den E D b r (okN_ifElse.1 hok)
        rw [← h1]
        refine ihb _ ?_ h2
        have := Brs.w_dce r
        simp only [Node.w] at hn; omega
      | whileL s =>
        rw [DCE.node, Node.den, Node.den]
        refine Rel.forever_ref (hseq s (by simp only [Node.w] at hn; omega) ⟨hok.1, fun hb => (hok.2 hb).2⟩)
      | loop m i a c u s =>
        rw [DCE.node, Node.den, Node.den]
        exact Rel.seq_ref (Rel.ref_refl _ _) (Rel.iter_ref
          (hseq s (by simp only [Node.w] at hn; omega) ⟨hok.1.2, fun hb => hok.2 hb⟩))
      | brk => rw [DCE.node]; exact Rel.ref_refl _ _; all_goals (intros; rename_i hh; cases hh)
      | cont => rw [DCE.node]; exact Rel.ref_refl _ _; all_goals (intros; rename_i hh; cases hh)
      | ret d q => rw [DCE.node]; exact Rel.ref_refl _ _; all_goals (intros; rename_i hh; cases hh)
    · intro s hs hok
      cases s with
      | nil => rw [DCE.kids]; exact Rel.ref_refl _ _
      | cons n t r =>
        rw [okS_cons] at hok
        simp only [Seq.w] at hs
        rw [DCE.kids, Seq.den, Seq.den]
        exact Rel.seq_ref (ihn n (by omega) hok.1) (Rel.seq_ref (Rel.ref_refl _ _) (ihs r (by omega) hok.2))
    · intro r hr hok
      cases r with
      | nil => rw [DCE.cases]; exact Rel.ref_refl _ _
      | cons c s r =>
        rw [okB_cons] at hok
        simp only [Brs.w] at hr
        rw [DCE.cases, Brs.den, Brs.den]
        exact Rel.ite_ref (hseq s (by omega) hok.1) (ihb r (by omega) hok.2)

/-- **C14 (partial).** Without `permissive` and when no Map is trivial, DeadCFGElimination keeps every terminating
execution: same outcome, same final memory.  Missing: trivial Maps (`trivialMap_partial`, `trivialMap_violated`) and
the permissive mode (`dce_permissive_violated`). -/
theorem dce_preserves_partial (E : Env) (D : DCE) (hp : D.permissive = false) (root : Seq) (hT : root.noTrivial D)
    (σ : St) (c : Ctl) (σ' : St) (h : root.den E σ c σ') : (D.run root).den E σ c σ' := by
  obtain ⟨h1, h2⟩ := seq1_ref E D hp false root ⟨hT, by simp⟩
  exact ((node_ref E D hp false _).2.1 _ (Nat.lt_succ_self _) h2).1 _ _ _ (h1.1 _ _ _ h)

/-- **C14 (converse, partial).** If in addition the program contains no `while (1) {}`, the pass adds no execution either. -/
theorem dce_exact_partial (E : Env) (D : DCE) (hp : D.permissive = false) (root : Seq) (hT : root.noTrivial D)
    (hW : root.noEmptyWhile) : (D.run root).den E = root.den E := by
  obtain ⟨h1, h2⟩ := seq1_ref E D hp true root ⟨hT, fun _ => hW⟩
  exact (Rel.eq_of_ref (Rel.ref_trans h1 ((node_ref E D hp true _).2.1 _ (Nat.lt_succ_self _) h2))).symm

/-- an engine for the examples: nothing is affine and no difference is one -/
def exDCE : DCE := ⟨false, ⟨fun _ _ => none, id, id⟩, fun _ => false⟩

/-- Non-vacuity: a program on which the pass does something (code after a return, an empty block, `if (true)`, a false
case). -/
example : let p : Seq := .cons (.block []) [("x", .sym "x")] (.cons (.ifElse (.cons .tt (.cons (.block
      [.tasklet "one" [] "A" [.int 0]]) [] .nil) .nil)) [] (.cons (.ifElse (.cons .ff (.cons .brk [] .nil)
      (.cons (.lt (.sym "x") (.int 3)) (.cons (.ret "A" false) [("y", .int 2)] (.cons .brk [] .nil)) .nil))) [] .nil))
    p.noTrivial exDCE ∧ p.noEmptyWhile ∧
    exDCE.run p = .cons (.block [.tasklet "one" [] "A" [.int 0]]) [] (.cons (.ifElse
      (.cons (.lt (.sym "x") (.int 3)) (.cons (.ret "A" false) [] .nil) .nil)) [] .nil) := by
  simp [Seq.noTrivial, Node.noTrivial, Brs.noTrivial, Seq.noEmptyWhile, Node.noEmptyWhile, Brs.noEmptyWhile, DCE.run,
    DCE.seq1, DCE.kids, DCE.node, DCE.cases, dropSelf, DCE.isDead, Brs.isNil, Cond.isTT, Cond.isFF, Brs.dce, Brs.dropFalse,
    Brs.dropLast, Brs.simple, Seq.isNil]

/-! ### trivial Maps -/

/-- contract of SymEngine's difference: if it is the integer one, the value is one -/
def DCE.OneSound (D : DCE) : Prop := ∀ e ρ n, D.isOne e = true → e.eval ρ = .fin n → n = 1

theorem defd_of_eval {E : Env} {σ : St} {e : Expr} {n : Int} (h : e.eval (σ.val E) = .fin n) : σ.defd E e := ⟨n, h⟩

theorem isTrivial_bound {E : Env} {D : DCE} (hO : D.OneSound) {i : String} {a : Expr} {c : Cond} {u : Expr}
    (h : D.isTrivial i a c u = true) (σ : St) (hd : ∀ e ∈ c.ops, σ.defd E e) (ha : σ.defd E a) :
    σ.cond E c = true ↔ σ i [] < σ.ev E a + 1 := by
  simp only [DCE.isTrivial, Bool.and_eq_true] at h
  obtain ⟨_, h⟩ := h
  split at h
  · simp at h
  · rename_i b hb
    obtain ⟨h1, h2⟩ := canonical_bound_correct E σ _ i c b hb hd
    rw [h2]
    have e1 := St.eval_of_defd h1
    have e2 := St.eval_of_defd ha
    have := hO _ (σ.val E) (σ.ev E b + -1 * σ.ev E a) h (by
      simp [Expr.eval, Expr.evalL, V.add, V.mul, e1, e2])
    omega

/-- **C14 (trivial Maps, partial).** If `is_trivial` accepts a Map, replacing the loop variable by the initial value and
inlining the body keeps every execution up to the loop variable, in both directions, provided that the body does not
assign the loop variable or a symbol of the initial value, does not access the loop variable as data, does not leave
the Map by `break`/`continue`, and the update adds one (C03).  The last-but-one are what the pass does not check
(`trivialMap_violated`, `trivialMap_write_violated`). -/
theorem trivialMap_partial (E : Env) (D : DCE) (hO : D.OneSound) (i : String) (a : Expr) (c : Cond) (u : Expr) (s : Seq)
    (h : D.isTrivial i a c u = true) (hu : ∀ σ : St, σ.ev E u = σ i [] + 1) (hd : ∀ (σ : St), ∀ e ∈ c.ops, σ.defd E e)
    (hia : i ∉ a.atoms) (hacc : i ∉ s.accessed) (hw : i ∉ s.written) (hb : i ∉ s.boolSyms) (hr : ∀ o ∈ s.written, o ∉ a.atoms)
    (hj : s.noJump = true) (σ : St) (ha : σ.defd E a) (k : Ctl) :
    (∀ σ', (Node.loop true i a c u s).den E σ k σ' → ∃ τ', (s.replace i a).den E σ k τ' ∧ ∀ z, z ≠ i → σ' z = τ' z) ∧
    (∀ τ', (s.replace i a).den E σ k τ' → ∃ σ', (Node.loop true i a c u s).den E σ k σ' ∧ ∀ z, z ≠ i → σ' z = τ' z) := by
  have hva := St.eval_of_defd ha
  generalize hv : σ.ev E a = v at hva
  have hS : Subst E i a (σ.setS i v) σ := ⟨fun z hz => St.setS_other _ _ hz, by rw [St.setS_same]; exact hva⟩
  -- in every state reached by the body the initial value is still `v`
  have hav : ∀ τ : St, (∀ z ∈ a.atoms, τ z = σ z) → τ.defd E a ∧ τ.ev E a = v := by
    intro τ ht
    have : a.eval (τ.val E) = .fin v := by
      rw [← hva]; exact eval_congr_atoms a _ _ rfl fun z hz => by simp only [St.val, ht z hz]
    exact ⟨⟨v, this⟩, St.ev_of_eval this⟩
  have h0 : (σ.setS i v).cond E c = true := by
    obtain ⟨d1, d2⟩ := hav (σ.setS i v) fun z hz => St.setS_other _ _ fun he => hia (he ▸ hz)
    rw [isTrivial_bound hO h _ (hd _) d1, d2, St.setS_same]; omega
  have h1 : ∀ (σ1 : St) (k : Ctl), s.den E (σ.setS i v) k σ1 → (σ1.setS i (σ1.ev E u)).cond E c = false := by
    intro σ1 k hs
    have hk : ∀ z ∈ a.atoms, (σ1.setS i (σ1.ev E u)) z = σ z := by
      intro z hz
      have hzi : z ≠ i := fun he => hia (he ▸ hz)
      rw [St.setS_other _ _ hzi, s.keeps E z (fun hm => hr z hm hz) hs, St.setS_other _ _ hzi]
    obtain ⟨d1, d2⟩ := hav _ hk
    have hi : σ1 i [] = v := by rw [s.keeps E i hw hs, St.setS_same]
    have := isTrivial_bound hO h (σ1.setS i (σ1.ev E u)) (hd _) d1
    rw [d2, St.setS_same] at this
    have hu1 := hu σ1
    cases hc : (σ1.setS i (σ1.ev E u)).cond E c
    · rfl
    · have := this.1 hc; omega
  have hbis := s.replace_bis E i a hacc hw hb hr
  constructor
  · intro σ' hl
    rw [Node.den, Rel.upd_seq, hv] at hl
    cases hl with
    | done hf => rw [h0] at hf; simp at hf
    | step k' hc hs hk hrest =>
      rename_i σ1
      have hp := s.noJump_proper E hj _ _ _ hs
      rcases hk with rfl | rfl
      · cases hrest with
        | done _ =>
          obtain ⟨τ', t1, t2⟩ := hbis.1 _ _ _ _ hS hs
          exact ⟨τ', t1, fun z hz => by rw [St.setS_other _ _ hz]; exact t2.1 z hz⟩
        | step _ hc' _ _ _ => rw [h1 _ _ hs] at hc'; simp at hc'
        | stop hc' _ => rw [h1 _ _ hs] at hc'; simp at hc'
        | ret _ _ hc' _ => rw [h1 _ _ hs] at hc'; simp at hc'
      · simp [Ctl.proper] at hp
    | stop hc hs =>
      have hp := s.noJump_proper E hj _ _ _ hs
      simp [Ctl.proper] at hp
    | ret d q hc hs =>
      obtain ⟨τ', t1, t2⟩ := hbis.1 _ _ _ _ hS hs
      exact ⟨τ', t1, t2.1⟩
  · intro τ' ht
    obtain ⟨σ1, s1, s2⟩ := hbis.2 _ _ _ _ hS ht
    have hp := s.noJump_proper E hj _ _ _ s1
    rw [Node.den, Rel.upd_seq]
    show ∃ σ', Rel.iter _ _ _ (σ.setS i (σ.ev E a)) k σ' ∧ _
    rw [hv]
    cases k with
    | normal =>
      refine ⟨σ1.setS i (σ1.ev E u), .step .normal h0 s1 (Or.inl rfl) (.done (h1 _ _ s1)), fun z hz => ?_⟩
      rw [St.setS_other _ _ hz]; exact s2.1 z hz
    | brk => simp [Ctl.proper] at hp
    | cont => simp [Ctl.proper] at hp
    | ret d q => exact ⟨σ1, .ret d q h0 s1, s2.1⟩

/-- differences without symbols are evaluated; the engine of `SeriesProps` recognises `i + 1` -/
def exTriv : DCE := ⟨false, exSeries, fun e => decide (e.atoms = [] ∧ e.eval ⟨fun _ => 0, fun _ _ => 0⟩ = .fin 1) &&
  decide (e = .add [.int 6, .mul [.int (-1), .int 5]])⟩

theorem exTriv_one : exTriv.OneSound := by
  intro e ρ n h hv
  simp only [exTriv, Bool.and_eq_true, decide_eq_true_eq] at h
  rw [h.2] at hv
  simp [Expr.eval, Expr.evalL, V.add, V.mul] at hv
  exact hv.symm

/-- `Map i = 5; i < 6; i = i + 1` -/
def exMap (s : Seq) : Node := .loop true "i" (.int 5) (.lt (.sym "i") (.int 6)) (.add [.sym "i", .int 1]) s

/-- Non-vacuity of `trivialMap_partial`: the Map above with body `A[i] = B[i + 1]`. -/
example : let s : Seq := .cons (.block [.tasklet "assign" [("B", [.add [.sym "i", .int 1]])] "A" [.sym "i"]]) [] .nil
    exTriv.isTrivial "i" (.int 5) (.lt (.sym "i") (.int 6)) (.add [.sym "i", .int 1]) = true ∧ "i" ∉ s.accessed ∧ "i" ∉ s.written ∧
    "i" ∉ s.boolSyms ∧ s.noJump = true ∧ (∀ σ : St, σ.ev exEnv (.add [.sym "i", .int 1]) = σ "i" [] + 1) := by
  refine ⟨?_, by decide, by decide, by decide, by decide, ?_⟩
  · have h1 : isContiguous exSeries (fun _ => none) (.add [.sym "i", .int 1]) "i" = true := by decide
    have h2 : isMonotonic exSeries (fun _ => none) (.add [.sym "i", .int 1]) "i" = true := by decide
    simp only [DCE.isTrivial, exTriv, h1, h2, Bool.true_and]
    simp [canonicalBound, cnf, foldBound, literalBound]
    decide
  · intro σ; simp [St.ev, Expr.eval, Expr.evalL, V.add, St.val]

theorem exTriv_trivial : exTriv.isTrivial "i" (.int 5) (.lt (.sym "i") (.int 6)) (.add [.sym "i", .int 1]) = true := by
  have h1 : isContiguous exSeries (fun _ => none) (.add [.sym "i", .int 1]) "i" = true := by decide
  have h2 : isMonotonic exSeries (fun _ => none) (.add [.sym "i", .int 1]) "i" = true := by decide
  simp only [DCE.isTrivial, exTriv, h1, h2, Bool.true_and]
  simp [canonicalBound, cnf, foldBound, literalBound]
  decide

/-- the engine of `SeriesProps`, and the difference `(k + 1) - k` -/
def exTrivK : DCE := ⟨false, exSeries, fun e => decide (e = .add [.add [.sym "k", .int 1], .mul [.int (-1), .sym "k"]])⟩

theorem exTrivK_one : exTrivK.OneSound := by
  intro e ρ n h hv
  simp only [exTrivK, decide_eq_true_eq] at h
  rw [h] at hv
  simp [Expr.eval, Expr.evalL, V.add, V.mul] at hv
  omega

theorem exTrivK_trivial : exTrivK.isTrivial "i" (.sym "k") (.lt (.sym "i") (.add [.sym "k", .int 1])) (.add [.sym "i", .int 1]) =
    true := by
  have h1 : isContiguous exSeries (fun _ => none) (.add [.sym "i", .int 1]) "i" = true := by decide
  have h2 : isMonotonic exSeries (fun _ => none) (.add [.sym "i", .int 1]) "i" = true := by decide
  simp only [DCE.isTrivial, exTrivK, h1, h2, Bool.true_and]
  simp [canonicalBound, cnf, foldBound, literalBound]

/-- `Map i = k; i < k + 1; i = i + 1 { ; k = 0; A[i] = B[0] }` -/
def exMapK : Node := .loop true "i" (.sym "k") (.lt (.sym "i") (.add [.sym "k", .int 1])) (.add [.sym "i", .int 1])
  (.cons (.block []) [("k", .int 0)] (.cons (.block [.tasklet "assign" [("B", [.int 0])] "A" [.sym "i"]]) [] .nil))

/-- **C14 fails for Maps whose body reads the loop variable as data**: `Map i = 5..6 { A[0] = i }` becomes `A[0] = i`
without any definition of `i`, because `replace` does not touch access nodes when the new value is not a symbol. -/
theorem trivialMap_violated : ∃ (E : Env) (D : DCE) (root : Seq) (σ σ' : St), D.permissive = false ∧ D.OneSound ∧
    root.den E σ .normal σ' ∧ ∀ c τ', (D.run root).den E σ c τ' → τ' "A" [0] ≠ σ' "A" [0] := by
  obtain ⟨σ', h1, h2⟩ := Seq.run_obs (E := exEnv) (σ := fun _ _ => 0) 20 (x := "A") (j := [0])
    (s := .one (exMap (.one (.block [.tasklet "assign" [("i", [])] "A" [.int 0]])))) (c := .normal) (v := 5) (by decide)
  refine ⟨exEnv, exTriv, _, fun _ _ => 0, σ', rfl, exTriv_one, h1, ?_⟩
  have hrun : exTriv.run (.one (exMap (.one (.block [.tasklet "assign" [("i", [])] "A" [.int 0]])))) =
      .one (.block [.tasklet "assign" [("i", [])] "A" [.int 0]]) := by
    simp [DCE.run, Seq.one, exMap, DCE.seq1, dropSelf, DCE.isDead, Seq.isNil, exTriv_trivial, Seq.replace, Node.replace,
      Stmt.replace, transReplace, transOverwrite, renameTo, Expr.subs, DCE.kids, DCE.node]
  rw [hrun]
  intro c τ' h
  have := (Seq.run_obs_all 20 (x := "A") (j := [0]) (c := .normal) (v := 0) (by decide) h).2
  rw [this, h2]; decide

/-- **C14 fails for Maps whose body assigns a symbol of the initial value**: `Map i = k; i < k + 1 { k = 0; A[i] = 1 }`
(here with `k = 5`) writes `A[5]`, after the pass `A[0]`. -/
theorem trivialMap_write_violated : ∃ (E : Env) (D : DCE) (root : Seq) (σ σ' : St), D.permissive = false ∧ D.OneSound ∧
    root.den E σ .normal σ' ∧ ∀ c τ', (D.run root).den E σ c τ' → τ' "A" [5] ≠ σ' "A" [5] := by
  obtain ⟨σ', h1, h2⟩ := Seq.run_obs (E := exEnv) (σ := fun x _ => if x = "k" then 5 else if x = "B" then 1 else 0) 20
    (x := "A") (j := [5]) (s := .one exMapK) (c := .normal) (v := 1) (by decide)
  refine ⟨exEnv, exTrivK, _, _, σ', rfl, exTrivK_one, h1, ?_⟩
  have hrun : exTrivK.run (.one exMapK) = .cons (.block []) [("k", .int 0)] (.cons (.block [.tasklet "assign" [("B", [.int 0])]
      "A" [.sym "k"]]) [] .nil) := by
    simp [DCE.run, Seq.one, exMapK, DCE.seq1, dropSelf, DCE.isDead, Seq.isNil, exTrivK_trivial, Seq.replace, Node.replace,
      Stmt.replace, transReplace, transOverwrite, renameTo, Expr.subs, DCE.kids, DCE.node]
  rw [hrun]
  intro c τ' h
  have := (Seq.run_obs_all 20 (x := "A") (j := [5]) (c := .normal) (v := 0) (by decide) h).2
  rw [this, h2]; decide

/-- **C14 fails in permissive mode**: `for i = 0; i < 3; i++ {}` is removed although the loop variable is observable. -/
theorem dce_permissive_violated : ∃ (E : Env) (D : DCE) (root : Seq) (σ σ' : St), D.permissive = true ∧ root.noTrivial D ∧
    root.den E σ .normal σ' ∧ ∀ c τ', (D.run root).den E σ c τ' → τ' "i" [] ≠ σ' "i" [] := by
  obtain ⟨σ', h1, h2⟩ := Seq.run_obs (E := exEnv) (σ := fun _ _ => 0) 20 (x := "i") (j := []) (c := .normal) (v := 3)
    (s := .one (.loop false "i" (.int 0) (.lt (.sym "i") (.int 3)) (.add [.sym "i", .int 1]) .nil)) (by decide)
  refine ⟨exEnv, { exDCE with permissive := true }, _, _, σ', rfl, by simp [Seq.one, Seq.noTrivial, Node.noTrivial], h1, ?_⟩
  intro c τ' h
  have hrun : DCE.run { exDCE with permissive := true } (.one (.loop false "i" (.int 0) (.lt (.sym "i") (.int 3))
      (.add [.sym "i", .int 1]) .nil)) = .nil := by
    simp [DCE.run, Seq.one, DCE.seq1, dropSelf, DCE.isDead, Seq.isNil, DCE.kids]
  rw [hrun, Seq.den] at h
  obtain ⟨_, rfl⟩ := h
  rw [h2]; decide

/-- `while (1) {}` is removed: the pass can turn a non-terminating program into a terminating one. -/
theorem dce_empty_while : ∃ (E : Env) (D : DCE) (root : Seq) (σ σ' : St), D.permissive = false ∧ root.noTrivial D ∧
    (∀ c τ, ¬ root.den E σ c τ) ∧ (D.run root).den E σ .normal σ' := by
  refine ⟨exEnv, exDCE, .one (.whileL .nil), fun _ _ => 0, fun _ _ => 0, rfl, by simp [Seq.one, Seq.noTrivial, Node.noTrivial],
    ?_, ?_⟩
  · intro c τ h
    rw [Seq.one, Seq.den, Node.den, Seq.den] at h
    rcases h with ⟨σ1, h, _⟩ | ⟨_, h⟩ <;> exact Rel.forever_skip _ _ _ h
  · have hrun : exDCE.run (.one (.whileL .nil)) = .nil := by
      simp [DCE.run, Seq.one, DCE.seq1, dropSelf, DCE.isDead, Seq.isNil, DCE.kids]
    rw [hrun, Seq.den]; exact ⟨rfl, rfl⟩

end Docc.IR
