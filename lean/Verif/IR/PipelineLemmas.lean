import Verif.IR.Pipeline
import Verif.IR.DeadCFGProps
import Verif.IR.SeqFusionProps

/-
Lemmas for pipelines: the passes of DeadCodeElimination report exactly the changes they make, and every reported change makes the
program smaller.
-/
namespace Docc.IR
open Docc.Sym

mutual
/-- size of a program: nodes and assignments on transitions -/
def Node.amount : Node → Nat
  | .block _ => 1
  | .seq s => s.amount + 1
  | .ifElse b => b.amount + 1
  | .whileL s => s.amount + 1
  | .loop _ _ _ _ _ s => s.amount + 1
  | .brk => 1
  | .cont => 1
  | .ret _ _ => 1
/-- size of a sequence -/
def Seq.amount : Seq → Nat
  | .nil => 0
  | .cons n t r => n.amount + t.length + r.amount + 1
/-- size of the cases of an if-else -/
def Brs.amount : Brs → Nat
  | .nil => 0
  | .cons _ s r => s.amount + r.amount + 1
end

theorem Seq.amount_append (a b : Seq) : (a ++ b).amount = a.amount + b.amount := by
  match a with
  | .nil => simp [Seq.amount]
  | .cons n t r => simp [Seq.amount, Seq.amount_append r b]; omega

theorem transReplace_length (x : String) (r : Expr) (t : Trans) : (transReplace x r t).length ≤ t.length := by
  unfold transReplace transOverwrite
  rw [List.length_map]
  split
  · split
    · exact List.length_filter_le ..
    · exact Nat.le_refl _
  · exact Nat.le_refl _

mutual
theorem Node.amount_replace (x : String) (r : Expr) : (n : Node) → (n.replace x r).amount ≤ n.amount
  | .block _ => Nat.le_refl _
  | .seq s => by have := s.amount_replace x r; simp only [Node.replace, Node.amount]; omega
  | .ifElse b => by have := b.amount_replace x r; simp only [Node.replace, Node.amount]; omega
  | .whileL s => by have := s.amount_replace x r; simp only [Node.replace, Node.amount]; omega
  | .loop _ _ _ _ _ s => by have := s.amount_replace x r; simp only [Node.replace, Node.amount]; omega
  | .brk => Nat.le_refl _
  | .cont => Nat.le_refl _
  | .ret d q => by simp only [Node.replace]; split <;> exact Nat.le_refl _
theorem Seq.amount_replace (x : String) (r : Expr) : (s : Seq) → (s.replace x r).amount ≤ s.amount
  | .nil => Nat.le_refl _
  | .cons n t s => by
    have := n.amount_replace x r; have := s.amount_replace x r; have := transReplace_length x r t
    simp only [Seq.replace, Seq.amount]; omega
theorem Brs.amount_replace (x : String) (r : Expr) : (b : Brs) → (b.replace x r).amount ≤ b.amount
  | .nil => Nat.le_refl _
  | .cons _ s b => by
    have := s.amount_replace x r; have := b.amount_replace x r
    simp only [Brs.replace, Brs.amount]; omega
end

theorem Node.amount_pos (n : Node) : 0 < n.amount := by cases n <;> simp [Node.amount]

/-- What a pass step has to do: it changes nothing if it reports nothing, and makes the program smaller otherwise. -/
def Reports (a b : Nat) (same : Prop) (f : Bool) : Prop := (f = false → same) ∧ (f = true → b < a) ∧ b ≤ a

theorem dropSelf_same {t : Trans} (h : ¬ (dropSelf t).length < t.length) : dropSelf t = t := by
  unfold dropSelf at *
  have : t.filter (fun a => a.2 ≠ .sym a.1) = t := by
    rw [List.filter_eq_self]
    intro a ha
    refine Classical.byContradiction fun hc => h ?_
    exact List.length_filter_lt_length_iff_exists.2 ⟨a, ha, by simpa using hc⟩
  exact this

theorem dropSelf_length (t : Trans) : (dropSelf t).length ≤ t.length := List.length_filter_le ..

theorem DCE.seq1A_cons (D : DCE) (n : Node) (t : Trans) (r : Seq) (h : ∀ d q, n = .ret d q → False) : D.seq1A (.cons n t r) =
    if (dropSelf t).length < t.length then true
    else if !t.isEmpty then D.seq1A r
    else if D.isDead n then true
    else D.opened n || D.seq1A r := by
  cases n <;> first
    | exact (h _ _ rfl).elim
    | rw [DCE.seq1A]
  all_goals exact fun _ _ h => nomatch h

theorem DCE.seq1_reports (D : DCE) (s : Seq) : Reports s.amount (D.seq1 s).amount (D.seq1 s = s) (D.seq1A s) := by
  induction hn : s.w using Nat.strongRecOn generalizing s with
  | ind k ih =>
  subst hn
  have small : ∀ q : Seq, q.w < s.w → (D.seq1 q).amount ≤ q.amount := fun q h => (ih q.w h q rfl).2.2
  rw [DCE.seq1.eq_def]
  split
  · exact ⟨fun _ => rfl, by simp [DCE.seq1A], Nat.le_refl _⟩
  · rename_i d q t r
    rw [DCE.seq1A]
    refine ⟨?_, ?_, ?_⟩
    · intro h
      cases t <;> cases r <;> simp_all [Seq.isNil]
    · intro h
      cases t <;> cases r <;> simp_all [Seq.isNil, Seq.amount, Node.amount] <;> omega
    · simp only [Seq.amount, Node.amount, List.length_nil]; omega
  · rename_i n t r hnr
    rw [DCE.seq1A_cons D n t r hnr]
    have hr := ih r.w (by simp only [Seq.w]; omega) r rfl
    have hl := dropSelf_length t
    have hpos := n.amount_pos
    obtain ⟨r1, r2, r3⟩ := hr
    by_cases hd : (dropSelf t).length < t.length
    · -- a self assignment
      have goal : ∀ q : Seq, q.amount < (Seq.cons n t r).amount → Reports (Seq.cons n t r).amount q.amount (q = Seq.cons n t r) true :=
        fun q h => ⟨by simp, fun _ => h, Nat.le_of_lt h⟩
      rw [if_pos hd]
      apply goal
      split
      · simp only [Seq.amount]; omega
      · split
        · simp only [Seq.amount]; omega
        · split
          · rename_i c s b _
            split
            · have := small (s ++ r) (by simp only [Seq.w, Node.w, Brs.w, Seq.w_append]; omega)
              simp only [Seq.amount, Node.amount, Brs.amount, Seq.amount_append] at this ⊢; omega
            · simp only [Seq.amount, List.length_nil]; omega
          · rename_i i a c u s _
            split
            · have := small (s.replace i a ++ r) (by simp only [Seq.w, Node.w, Seq.w_append, Seq.w_replace]; omega)
              have := s.amount_replace i a
              simp only [Seq.amount, Node.amount, Seq.amount_append] at *; omega
            · simp only [Seq.amount, List.length_nil]; omega
          · simp only [Seq.amount, List.length_nil]; omega
    · rw [if_neg hd, dropSelf_same hd]
      have keep : Reports (Seq.cons n t r).amount (Seq.cons n t (D.seq1 r)).amount (Seq.cons n t (D.seq1 r) = Seq.cons n t r) (D.seq1A r) :=
        ⟨fun h => by rw [r1 h], fun h => by have := r2 h; simp only [Seq.amount]; omega, by simp only [Seq.amount]; omega⟩
      by_cases ht : (!t.isEmpty) = true
      · simp only [ht, if_true]; exact keep
      · have ht' : t = [] := by simpa using ht
        subst ht'
        simp only [List.isEmpty_nil, Bool.not_true, Bool.false_eq_true, if_false]
        have goal : ∀ q : Seq, q.amount < (Seq.cons n [] r).amount → Reports (Seq.cons n [] r).amount q.amount (q = Seq.cons n [] r) true :=
          fun q h => ⟨by simp, fun _ => h, Nat.le_of_lt h⟩
        by_cases hdead : D.isDead n = true
        · simp only [hdead, if_true]
          apply goal
          simp only [Seq.amount]; omega
        · simp only [hdead, if_false, Bool.false_eq_true]
          split
          · rename_i c s b
            by_cases hc : c.isTT = true
            · simp only [DCE.opened, hc, if_true, Bool.true_or]
              apply goal
              have := small (s ++ r) (by simp only [Seq.w, Node.w, Brs.w, Seq.w_append]; omega)
              simp only [Seq.amount, Node.amount, Brs.amount, Seq.amount_append] at this ⊢; omega
            · simp only [DCE.opened, hc, if_false, Bool.false_eq_true, Bool.false_or]; exact keep
          · rename_i i a c u s
            by_cases hc : D.isTrivial i a c u = true
            · simp only [DCE.opened, hc, if_true, Bool.true_or]
              apply goal
              have := small (s.replace i a ++ r) (by simp only [Seq.w, Node.w, Seq.w_append, Seq.w_replace]; omega)
              have := s.amount_replace i a
              simp only [Seq.amount, Node.amount, Seq.amount_append] at *; omega
            · simp only [DCE.opened, hc, if_false, Bool.false_eq_true, Bool.false_or]; exact keep
          · rename_i h1 h2
            have ho : D.opened n = false := by
              unfold DCE.opened
              split
              · exact (h1 _ _ _ rfl).elim
              · exact (h2 _ _ _ _ _ rfl).elim
              · rfl
            rw [ho, Bool.false_or]; exact keep

/-! ### if-else -/

theorem Brs.dropFalse_reports (b : Brs) : Reports b.amount b.dropFalse.amount (b.dropFalse = b) b.hasFalse := by
  match b with
  | .nil => exact ⟨fun _ => rfl, by simp [Brs.hasFalse], Nat.le_refl _⟩
  | .cons c s r =>
    obtain ⟨h1, h2, h3⟩ := Brs.dropFalse_reports r
    rw [Brs.dropFalse, Brs.hasFalse]
    by_cases hc : c.isFF = true
    · simp only [hc, if_true, Bool.true_or]
      exact ⟨by simp, fun _ => by simp only [Brs.amount]; omega, by simp only [Brs.amount]; omega⟩
    · simp only [hc, if_false, Bool.false_eq_true, Bool.false_or]
      exact ⟨fun h => by rw [h1 h], fun h => by have := h2 h; simp only [Brs.amount]; omega, by simp only [Brs.amount]; omega⟩

theorem Brs.dropLast_reports (b : Brs) : Reports b.amount b.dropLast.amount (b.dropLast = b) b.lastDead := by
  match b with
  | .nil => exact ⟨fun _ => rfl, by simp [Brs.lastDead], Nat.le_refl _⟩
  | .cons c s .nil =>
    rw [Brs.dropLast, Brs.lastDead]
    by_cases hc : s.isNil = true
    · simp only [hc, if_true]
      exact ⟨by simp, fun _ => by simp only [Brs.amount]; omega, by simp only [Brs.amount]; omega⟩
    · simp only [hc, if_false, Bool.false_eq_true]
      exact ⟨fun _ => trivial, fun h => absurd h (by simp), Nat.le_refl _⟩
  | .cons c s (.cons c' s' r) =>
    obtain ⟨h1, h2, h3⟩ := Brs.dropLast_reports (.cons c' s' r)
    rw [Brs.dropLast, Brs.lastDead]
    · exact ⟨fun h => by rw [h1 h], fun h => by have := h2 h; simp only [Brs.amount] at this ⊢; omega,
        by simp only [Brs.amount] at h3 ⊢; omega⟩
    · simp
    · simp

theorem Brs.simple_reports (b : Brs) : Reports b.amount b.simple.amount (b.simple = b) b.simpleA := by
  unfold Brs.simple Brs.simpleA
  split
  · rename_i c0 s0 c1 s1
    by_cases hc : c0.neg = c1
    · simp only [hc, if_true, decide_true, Bool.true_and]
      by_cases h1 : s1.isNil = true
      · simp only [h1, if_true, Bool.true_or]
        exact ⟨by simp, fun _ => by simp only [Brs.amount]; omega, by simp only [Brs.amount]; omega⟩
      · simp only [h1, if_false, Bool.false_eq_true, Bool.false_or]
        by_cases h0 : s0.isNil = true
        · simp only [h0, if_true]
          exact ⟨by simp, fun _ => by simp only [Brs.amount]; omega, by simp only [Brs.amount]; omega⟩
        · simp only [h0, if_false, Bool.false_eq_true]
          exact ⟨fun _ => trivial, fun h => absurd h (by simp), Nat.le_refl _⟩
    · simp only [hc, if_false, decide_false, Bool.false_and]
      exact ⟨fun _ => trivial, fun h => absurd h (by simp), Nat.le_refl _⟩
  · exact ⟨fun _ => rfl, fun h => absurd h (by simp), Nat.le_refl _⟩

theorem Brs.dce_reports (b : Brs) : Reports b.amount b.dce.amount (b.dce = b) b.dceA := by
  obtain ⟨a1, a2, a3⟩ := b.dropFalse_reports
  obtain ⟨b1, b2, b3⟩ := b.dropFalse.dropLast_reports
  obtain ⟨c1, c2, c3⟩ := b.dropFalse.dropLast.simple_reports
  unfold Brs.dceA Brs.dce
  refine ⟨fun h => ?_, fun h => ?_, by omega⟩
  · simp only [Bool.or_eq_false_iff] at h
    rw [c1 h.2, b1 h.1.2, a1 h.1.1]
  · simp only [Bool.or_eq_true] at h
    rcases h with (h | h) | h
    · have := a2 h; omega
    · have := b2 h; omega
    · have := c2 h; omega

/-! ### the whole pass -/

theorem DCE.reports_all (D : DCE) (k : Nat) :
    (∀ n : Node, n.w < k → Reports n.amount (D.node n).amount (D.node n = n) (D.nodeA n)) ∧
    (∀ s : Seq, s.w < k → Reports s.amount (D.kids s).amount (D.kids s = s) (D.kidsA s)) ∧
    (∀ b : Brs, b.w < k → Reports b.amount (D.cases b).amount (D.cases b = b) (D.casesA b)) := by
  induction k with
  | zero => exact ⟨fun _ h => absurd h (by omega), fun _ h => absurd h (by omega), fun _ h => absurd h (by omega)⟩
  | succ k ih =>
    obtain ⟨hN, hS, hB⟩ := ih
    have both : ∀ s : Seq, s.w < k → Reports s.amount (D.kids (D.seq1 s)).amount (D.kids (D.seq1 s) = s) (D.seq1A s || D.kidsA (D.seq1 s)) := by
      intro s hs
      obtain ⟨a1, a2, a3⟩ := D.seq1_reports s
      obtain ⟨b1, b2, b3⟩ := hS (D.seq1 s) (Nat.lt_of_le_of_lt (D.w_seq1 s) hs)
      refine ⟨fun h => ?_, fun h => ?_, by omega⟩
      · simp only [Bool.or_eq_false_iff] at h
        rw [b1 h.2, a1 h.1]
      · simp only [Bool.or_eq_true] at h
        rcases h with h | h
        · have := a2 h; omega
        · have := b2 h; omega
    have wrap : ∀ (s : Seq) (f : Seq → Node), s.w < k → (∀ q : Seq, (f q).amount = q.amount + 1) →
        Reports (f s).amount (f (D.kids (D.seq1 s))).amount (f (D.kids (D.seq1 s)) = f s) (D.seq1A s || D.kidsA (D.seq1 s)) := by
      intro s f hs hf
      obtain ⟨h1, h2, h3⟩ := both s hs
      rw [hf, hf]
      exact ⟨fun h => by rw [h1 h], fun h => by have := h2 h; omega, by omega⟩
    refine ⟨fun n hn => ?_, fun s hs => ?_, fun b hb => ?_⟩
    · have same : ∀ m : Node, Reports m.amount m.amount (m = m) false := fun m => ⟨fun _ => rfl, fun h => absurd h (by simp), Nat.le_refl _⟩
      match n with
      | .block l => rw [DCE.node, DCE.nodeA] <;> first | exact same _ | simp
      | .brk => rw [DCE.node, DCE.nodeA] <;> first | exact same _ | simp
      | .cont => rw [DCE.node, DCE.nodeA] <;> first | exact same _ | simp
      | .ret d q => rw [DCE.node, DCE.nodeA] <;> first | exact same _ | simp
      | .seq s =>
        rw [DCE.node, DCE.nodeA]
        exact wrap s Node.seq (by simp only [Node.w] at hn; omega) fun _ => rfl
      | .whileL s =>
        rw [DCE.node, DCE.nodeA]
        exact wrap s Node.whileL (by simp only [Node.w] at hn; omega) fun _ => rfl
      | .loop m i a c u s =>
        rw [DCE.node, DCE.nodeA]
        exact wrap s (Node.loop m i a c u) (by simp only [Node.w] at hn; omega) fun _ => rfl
      | .ifElse b =>
        rw [DCE.node, DCE.nodeA]
        have hw : b.dce.w < k := by have := Brs.w_dce b; simp only [Node.w] at hn; omega
        obtain ⟨a1, a2, a3⟩ := b.dce_reports
        obtain ⟨b1, b2, b3⟩ := hB _ hw
        refine ⟨fun h => ?_, fun h => ?_, by simp only [Node.amount]; omega⟩
        · simp only [Bool.or_eq_false_iff] at h
          rw [b1 h.2, a1 h.1]
        · simp only [Bool.or_eq_true] at h
          simp only [Node.amount]
          rcases h with h | h
          · have := a2 h; omega
          · have := b2 h; omega
    · match s with
      | .nil => rw [DCE.kids, DCE.kidsA]; exact ⟨fun _ => rfl, fun h => absurd h (by simp), Nat.le_refl _⟩
      | .cons n t r =>
        rw [DCE.kids, DCE.kidsA]
        simp only [Seq.w] at hs
        obtain ⟨a1, a2, a3⟩ := hN n (by omega)
        obtain ⟨b1, b2, b3⟩ := hS r (by omega)
        refine ⟨fun h => ?_, fun h => ?_, by simp only [Seq.amount]; omega⟩
        · simp only [Bool.or_eq_false_iff] at h
          rw [b1 h.2, a1 h.1]
        · simp only [Bool.or_eq_true] at h
          simp only [Seq.amount]
          rcases h with h | h
          · have := a2 h; omega
          · have := b2 h; omega
    · match b with
      | .nil => rw [DCE.cases, DCE.casesA]; exact ⟨fun _ => rfl, fun h => absurd h (by simp), Nat.le_refl _⟩
      | .cons c s r =>
        rw [DCE.cases, DCE.casesA]
        simp only [Brs.w] at hb
        obtain ⟨a1, a2, a3⟩ := both s (by omega)
        obtain ⟨b1, b2, b3⟩ := hB r (by omega)
        refine ⟨fun h => ?_, fun h => ?_, by simp only [Brs.amount]; omega⟩
        · rw [Bool.or_eq_false_iff] at h
          rw [b1 h.2, a1 h.1]
        · rw [Bool.or_eq_true] at h
          simp only [Brs.amount]
          rcases h with h | h
          · have := a2 h; omega
          · have := b2 h; omega

theorem DCE.run_reports (D : DCE) (s : Seq) : Reports s.amount (D.run s).amount (D.run s = s) (D.applied s) := by
  obtain ⟨a1, a2, a3⟩ := D.seq1_reports s
  obtain ⟨b1, b2, b3⟩ := (D.reports_all ((D.seq1 s).w + 1)).2.1 (D.seq1 s) (Nat.lt_succ_self _)
  unfold DCE.run DCE.applied
  refine ⟨fun h => ?_, fun h => ?_, by omega⟩
  · simp only [Bool.or_eq_false_iff] at h
    rw [b1 h.2, a1 h.1]
  · simp only [Bool.or_eq_true] at h
    rcases h with h | h
    · have := a2 h; omega
    · have := b2 h; omega

mutual
theorem Node.fuse_reports : (n : Node) → Reports n.amount n.fuse.amount (n.fuse = n) n.fuseA
  | .block _ => ⟨fun _ => rfl, fun h => absurd h (by simp [Node.fuseA]), Nat.le_refl _⟩
  | .brk => ⟨fun _ => rfl, fun h => absurd h (by simp [Node.fuseA]), Nat.le_refl _⟩
  | .cont => ⟨fun _ => rfl, fun h => absurd h (by simp [Node.fuseA]), Nat.le_refl _⟩
  | .ret _ _ => ⟨fun _ => rfl, fun h => absurd h (by simp [Node.fuseA]), Nat.le_refl _⟩
  | .seq s => by
    obtain ⟨h1, h2, h3⟩ := s.fuse_reports
    simp only [Node.fuse, Node.fuseA]
    exact ⟨fun h => by rw [h1 h], fun h => by have := h2 h; simp only [Node.amount]; omega, by simp only [Node.amount]; omega⟩
  | .whileL s => by
    obtain ⟨h1, h2, h3⟩ := s.fuse_reports
    simp only [Node.fuse, Node.fuseA]
    exact ⟨fun h => by rw [h1 h], fun h => by have := h2 h; simp only [Node.amount]; omega, by simp only [Node.amount]; omega⟩
  | .loop _ _ _ _ _ s => by
    obtain ⟨h1, h2, h3⟩ := s.fuse_reports
    simp only [Node.fuse, Node.fuseA]
    exact ⟨fun h => by rw [h1 h], fun h => by have := h2 h; simp only [Node.amount]; omega, by simp only [Node.amount]; omega⟩
  | .ifElse s => by
    obtain ⟨h1, h2, h3⟩ := s.fuse_reports
    simp only [Node.fuse, Node.fuseA]
    exact ⟨fun h => by rw [h1 h], fun h => by have := h2 h; simp only [Node.amount]; omega, by simp only [Node.amount]; omega⟩
theorem Seq.fuse_reports : (s : Seq) → Reports s.amount s.fuse.amount (s.fuse = s) s.fuseA
  | .nil => ⟨fun _ => rfl, fun h => absurd h (by simp [Seq.fuseA]), Nat.le_refl _⟩
  | .cons n t r => by
    obtain ⟨h1, h2, h3⟩ := r.fuse_reports
    by_cases hs : ∃ q, n = .seq q
    · obtain ⟨q, rfl⟩ := hs
      have a := (Node.seq q).fuse_reports
      simp only [Node.fuse, Node.fuseA] at a
      obtain ⟨a1, a2, a3⟩ := a
      simp only [Node.amount] at a3
      have : (q.fuse ++ r.fuse).amount < (Seq.cons (.seq q) t r).amount := by
        simp only [Seq.amount_append, Seq.amount, Node.amount]; omega
      rw [Seq.fuse]
      exact ⟨by simp [Seq.fuseA, Node.seq?], fun _ => this, Nat.le_of_lt this⟩
    · obtain ⟨a1, a2, a3⟩ := n.fuse_reports
      have e : (Seq.cons n t r).fuse = .cons n.fuse t r.fuse := by
        rw [Seq.fuse]; intro q hq; exact hs ⟨q, hq⟩
      have f : (Seq.cons n t r).fuseA = (n.fuseA || r.fuseA) := by
        have : n.seq? = none := by cases n <;> first | rfl | exact (hs ⟨_, rfl⟩).elim
        simp [Seq.fuseA, this]
      rw [e, f]
      refine ⟨fun h => ?_, fun h => ?_, by simp only [Seq.amount]; omega⟩
      · simp only [Bool.or_eq_false_iff] at h
        rw [a1 h.1, h1 h.2]
      · simp only [Bool.or_eq_true] at h
        simp only [Seq.amount]
        rcases h with h | h
        · have := a2 h; omega
        · have := h2 h; omega
theorem Brs.fuse_reports : (b : Brs) → Reports b.amount b.fuse.amount (b.fuse = b) b.fuseA
  | .nil => ⟨fun _ => rfl, fun h => absurd h (by simp [Brs.fuseA]), Nat.le_refl _⟩
  | .cons c s r => by
    obtain ⟨a1, a2, a3⟩ := s.fuse_reports
    obtain ⟨h1, h2, h3⟩ := r.fuse_reports
    rw [Brs.fuse, Brs.fuseA]
    refine ⟨fun h => ?_, fun h => ?_, by simp only [Brs.amount]; omega⟩
    · simp only [Bool.or_eq_false_iff] at h
      rw [a1 h.1, h1 h.2]
    · simp only [Bool.or_eq_true] at h
      simp only [Brs.amount]
      rcases h with h | h
      · have := a2 h; omega
      · have := h2 h; omega
end

end Docc.IR
