import Verif.IR.Replace
import Verif.IR.LoopInfo

/-
DeadCFGElimination (sdfg/src/passes/structured_control_flow/dead_cfg_elimination.cpp).
-/
namespace Docc.IR
open Docc.Sym

mutual
/-- number of nodes (only used as a termination measure) -/
def Node.w : Node → Nat
  | .block _ => 1
  | .seq s => s.w + 1
  | .ifElse b => b.w + 1
  | .whileL s => s.w + 1
  | .loop _ _ _ _ _ s => s.w + 1
  | .brk => 1
  | .cont => 1
  | .ret _ _ => 1
/-- number of nodes of a sequence -/
def Seq.w : Seq → Nat
  | .nil => 0
  | .cons n _ r => n.w + r.w + 1
/-- number of nodes of the cases -/
def Brs.w : Brs → Nat
  | .nil => 0
  | .cons _ s r => s.w + r.w + 1
end

theorem Seq.w_append (a b : Seq) : (a ++ b).w = a.w + b.w := by
  match a with
  | .nil => simp [Seq.w]
  | .cons n t r => simp [Seq.w, Seq.w_append r b]; omega

mutual
theorem Node.w_replace (x : String) (r : Expr) : (n : Node) → (n.replace x r).w = n.w
  | .block _ => rfl
  | .seq s => by simp [Node.replace, Node.w, s.w_replace x r]
  | .ifElse b => by simp [Node.replace, Node.w, b.w_replace x r]
  | .whileL s => by simp [Node.replace, Node.w, s.w_replace x r]
  | .loop _ _ _ _ _ s => by simp [Node.replace, Node.w, s.w_replace x r]
  | .brk => rfl
  | .cont => rfl
  | .ret d q => by simp only [Node.replace]; split <;> rfl
theorem Seq.w_replace (x : String) (r : Expr) : (s : Seq) → (s.replace x r).w = s.w
  | .nil => rfl
  | .cons n _ s => by simp [Seq.replace, Seq.w, n.w_replace x r, s.w_replace x r]
theorem Brs.w_replace (x : String) (r : Expr) : (b : Brs) → (b.replace x r).w = b.w
  | .nil => rfl
  | .cons _ s b => by simp [Brs.replace, Brs.w, s.w_replace x r, b.w_replace x r]
end

/-- The pass's parameters: `permissive_`, the polynomial engine behind `is_contiguous`/`is_monotonic`, and
SymEngine's decision that a difference of expressions is the integer one. -/
structure DCE where
  permissive : Bool
  poly : PolyEngine
  isOne : Expr → Bool

/-- the sequence has no children -/
def Seq.isNil : Seq → Bool
  | .nil => true
  | _ => false

/-- the if-else has no cases -/
def Brs.isNil : Brs → Bool
  | .nil => true
  | _ => false

/-- dead_cfg_elimination.cpp:12-31 `is_dead`. -/
def DCE.isDead (D : DCE) : Node → Bool
  | .block l => l.isEmpty
  | .seq s => s.isNil
  | .ifElse b => b.isNil
  | .whileL s => s.isNil
  | .loop _ _ _ _ _ s => s.isNil && D.permissive
  | _ => false

/-- dead_cfg_elimination.cpp:33-48 `is_trivial` (assumptions are empty). -/
def DCE.isTrivial (D : DCE) (i : String) (init : Expr) (c : Cond) (u : Expr) : Bool :=
  isContiguous D.poly (fun _ => none) u i &&
    match canonicalBound (isMonotonic D.poly (fun _ => none) u i) i c with
    | none => false
    | some b => D.isOne (.add [b, .mul [.int (-1), init]])

/-- dead_cfg_elimination.cpp:78-87: assignments `x = x` are erased. -/
def dropSelf (t : Trans) : Trans := t.filter fun a => a.2 ≠ .sym a.1

/-- dead_cfg_elimination.cpp:76-143: the loop over the children of one sequence.  Children moved up (`move_children`) are
inspected next. -/
def DCE.seq1 (D : DCE) (s : Seq) : Seq :=
  match s with
  | .nil => .nil
  | .cons (.ret d q) _ _ => .cons (.ret d q) [] .nil
  | .cons n t r =>
    if !(dropSelf t).isEmpty then .cons n (dropSelf t) (D.seq1 r)
    else if D.isDead n then D.seq1 r
    else match n with
      | .ifElse (.cons c s b) => if c.isTT then D.seq1 (s ++ r) else .cons (.ifElse (.cons c s b)) [] (D.seq1 r)
      | .loop true i a c u s =>
        if D.isTrivial i a c u then D.seq1 (s.replace i a ++ r) else .cons (.loop true i a c u s) [] (D.seq1 r)
      | n => .cons n [] (D.seq1 r)
termination_by s.w
decreasing_by
  all_goals simp only [Seq.w, Node.w, Brs.w, Seq.w_append, Seq.w_replace]
  all_goals omega

/-- dead_cfg_elimination.cpp:152-161: cases whose condition is the constant false are removed. -/
def Brs.dropFalse : Brs → Brs
  | .nil => .nil
  | .cons c s r => if c.isFF then r.dropFalse else .cons c s r.dropFalse

/-- dead_cfg_elimination.cpp:164-169: the last case is removed when it is empty (the branch is a sequence, so it is dead
exactly when it has no children). -/
def Brs.dropLast : Brs → Brs
  | .nil => .nil
  | .cons c s .nil => if s.isNil then .nil else .cons c s .nil
  | .cons c s r => .cons c s r.dropLast

/-- dead_cfg_elimination.cpp:172-184: two complementary cases, one of them dead. -/
def Brs.simple (b : Brs) : Brs :=
  match b with
  | .cons c0 s0 (.cons c1 s1 .nil) =>
    if c0.neg = c1 then
      if s1.isNil then .cons c0 s0 .nil
      else if s0.isNil then .cons c1 s1 .nil
      else b
    else b
  | _ => b

theorem Brs.w_dropFalse (b : Brs) : b.dropFalse.w ≤ b.w := by
  match b with
  | .nil => simp [Brs.dropFalse]
  | .cons c s r =>
    have := Brs.w_dropFalse r
    simp only [Brs.dropFalse]; split <;> simp only [Brs.w] <;> omega

theorem Brs.w_dropLast (b : Brs) : b.dropLast.w ≤ b.w := by
  match b with
  | .nil => simp [Brs.dropLast]
  | .cons c s .nil => simp only [Brs.dropLast]; split <;> simp only [Brs.w] <;> omega
  | .cons c s (.cons c' s' r) =>
    have := Brs.w_dropLast (.cons c' s' r)
    simp only [Brs.dropLast, Brs.w] at this ⊢; omega

theorem Brs.w_simple (b : Brs) : b.simple.w ≤ b.w := by
  unfold Brs.simple
  split
  · repeat' split
    all_goals simp only [Brs.w]
    all_goals omega
  · exact Nat.le_refl _

/-- the three steps on an if-else -/
def Brs.dce (b : Brs) : Brs := b.dropFalse.dropLast.simple

theorem Brs.w_dce (b : Brs) : b.dce.w ≤ b.w :=
  Nat.le_trans (Brs.w_simple _) (Nat.le_trans (Brs.w_dropLast _) (Brs.w_dropFalse _))

theorem DCE.w_seq1 (D : DCE) (s : Seq) : (D.seq1 s).w ≤ s.w := by
  induction hn : s.w using Nat.strongRecOn generalizing s with
  | ind k ih =>
  subst hn
  rw [DCE.seq1.eq_def]
  split
  · simp
  · simp only [Seq.w, Node.w]; omega
  · rename_i n t r _
    have hr := ih r.w (by simp only [Seq.w]; omega) r rfl
    split
    · simp only [Seq.w]; omega
    · split
      · simp only [Seq.w]; omega
      · split
        · rename_i c s b _ _
          split
          · have := ih (s ++ r).w (by simp only [Seq.w, Node.w, Brs.w, Seq.w_append]; omega) _ rfl
            simp only [Seq.w, Node.w, Brs.w, Seq.w_append] at this ⊢; omega
          · simp only [Seq.w]; omega
        · rename_i i a c u s _ _
          split
          · have := ih (s.replace i a ++ r).w (by simp only [Seq.w, Node.w, Seq.w_append, Seq.w_replace]; omega) _ rfl
            simp only [Seq.w, Node.w, Seq.w_append, Seq.w_replace] at this ⊢; omega
          · simp only [Seq.w]; omega
        · simp only [Seq.w]; omega

mutual
/-- dead_cfg_elimination.cpp:69-205: one visit of a node of the queue, then of its children. -/
def DCE.node (D : DCE) (n : Node) : Node :=
  match n with
  | .seq s => .seq (D.kids (D.seq1 s))
  | .ifElse b => .ifElse (D.cases b.dce)
  | .whileL s => .whileL (D.kids (D.seq1 s))
  | .loop m i a c u s => .loop m i a c u (D.kids (D.seq1 s))
  | n => n
termination_by n.w
decreasing_by
  · have := D.w_seq1 s; simp only [Node.w]; omega
  · have := Brs.w_dce b; simp only [Node.w]; omega
  · have := D.w_seq1 s; simp only [Node.w]; omega
  · have := D.w_seq1 s; simp only [Node.w]; omega
/-- visit the children of a sequence -/
def DCE.kids (D : DCE) (s : Seq) : Seq :=
  match s with
  | .nil => .nil
  | .cons n t r => .cons (D.node n) t (D.kids r)
termination_by s.w
decreasing_by
  all_goals simp only [Seq.w]
  all_goals omega
/-- visit the branches of an if-else -/
def DCE.cases (D : DCE) (b : Brs) : Brs :=
  match b with
  | .nil => .nil
  | .cons c s r => .cons c (D.kids (D.seq1 s)) (D.cases r)
termination_by b.w
decreasing_by
  · simp only [Brs.w]; have := D.w_seq1 s; omega
  · simp only [Brs.w]; omega
end

/-- dead_cfg_elimination.cpp:63-207 `run_pass` on the root sequence. -/
def DCE.run (D : DCE) (root : Seq) : Seq := D.kids (D.seq1 root)

mutual
/-- no Map of the program is trivial in the sense of `is_trivial` -/
def Node.noTrivial (D : DCE) : Node → Prop
  | .block _ => True
  | .seq s => s.noTrivial D
  | .ifElse b => b.noTrivial D
  | .whileL s => s.noTrivial D
  | .loop m i a c u s => (m = true → D.isTrivial i a c u = false) ∧ s.noTrivial D
  | .brk => True
  | .cont => True
  | .ret _ _ => True
/-- the same for a sequence -/
def Seq.noTrivial (D : DCE) : Seq → Prop
  | .nil => True
  | .cons n _ r => n.noTrivial D ∧ r.noTrivial D
/-- the same for cases -/
def Brs.noTrivial (D : DCE) : Brs → Prop
  | .nil => True
  | .cons _ s r => s.noTrivial D ∧ r.noTrivial D
end

mutual
/-- no `while (1) {}` -/
def Node.noEmptyWhile : Node → Prop
  | .block _ => True
  | .seq s => s.noEmptyWhile
  | .ifElse b => b.noEmptyWhile
  | .whileL s => s.isNil = false ∧ s.noEmptyWhile
  | .loop _ _ _ _ _ s => s.noEmptyWhile
  | .brk => True
  | .cont => True
  | .ret _ _ => True
/-- the same for a sequence -/
def Seq.noEmptyWhile : Seq → Prop
  | .nil => True
  | .cons n _ r => n.noEmptyWhile ∧ r.noEmptyWhile
/-- the same for cases -/
def Brs.noEmptyWhile : Brs → Prop
  | .nil => True
  | .cons _ s r => s.noEmptyWhile ∧ r.noEmptyWhile
end

end Docc.IR
