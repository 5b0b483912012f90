import Verif.IR.Syntax
import Verif.Sym.ExprProps

/-
Meaning of structured SDFGs: the code the dispatchers emit
(sdfg/src/codegen/dispatchers/{sequence,if_else,while,for,map,block}_dispatcher.cpp), as relations between
initial states, control outcomes and final states.
-/
namespace Docc.IR
open Docc.Sym

/-- Memory: the content of each container at each index; a scalar or symbol `x` is `σ x []`.  Containers do not overlap. -/
abbrev St := String → List Int → Int

/-- Interpretation of everything opaque: functions in symbolic expressions, tasklet operations, library nodes (content
of the k-th written container from the contents of the read containers), and the value of an undefined expression
(division by zero is not tracked as undefined behaviour but yields this arbitrary value). -/
structure Env where
  fn : String → List Int → Int
  op : String → List Int → Int
  lib : String → Nat → List (List Int → Int) → List Int → Int
  undef : Int

/-- the symbol valuation of a state -/
def St.val (E : Env) (σ : St) : Val := ⟨fun x => σ x [], E.fn⟩

/-- value of an expression in a state -/
def St.ev (E : Env) (σ : St) (e : Expr) : Int :=
  match e.eval (σ.val E) with
  | .fin n => n
  | _ => E.undef

/-- truth value of a condition in a state; a boolean symbol is true when non-zero -/
def St.cond (E : Env) (σ : St) (c : Cond) : Bool := c.eval ⟨fun e => σ.ev E e, fun x => σ x [] != 0⟩

/-- store a value -/
def St.set (σ : St) (x : String) (i : List Int) (v : Int) : St :=
  fun y j => if y = x ∧ j = i then v else σ y j

/-- assign a symbol -/
def St.setS (σ : St) (x : String) (v : Int) : St := σ.set x [] v

/-- overwrite whole containers, k-th with content `f k` -/
def St.setMany (σ : St) (ws : List String) (f : Nat → List Int → Int) : St :=
  (ws.zipIdx).foldl (fun s wk => fun y => if y = wk.1 then f wk.2 else s y) σ

/-- one computation -/
def Stmt.run (E : Env) : Stmt → St → St
  | .tasklet op ins out sub, σ =>
    σ.set out (sub.map (σ.ev E)) (E.op op (ins.map fun r => σ r.1 (r.2.map (σ.ev E))))
  | .lib op reads writes, σ => σ.setMany writes fun k => E.lib op k (reads.map σ)

/-- a block runs its computations in order -/
def runBlock (E : Env) (l : List Stmt) (σ : St) : St := l.foldl (fun s x => x.run E s) σ

/-- sequence_dispatcher.cpp:32-42: the assignments of a transition run one after another. -/
def runTrans (E : Env) (t : Trans) (σ : St) : St := t.foldl (fun s a => s.setS a.1 (s.ev E a.2)) σ

/-- how a node finishes -/
inductive Ctl where
  | normal
  | brk
  | cont
  | ret (data : String) (isConst : Bool)
  deriving Repr, DecidableEq, Inhabited

/-- behaviours: initial state, outcome, final state (terminating executions only) -/
abbrev Rel := St → Ctl → St → Prop

namespace Rel
/-- change the state and finish normally -/
def upd (f : St → St) : Rel := fun σ c σ' => c = .normal ∧ σ' = f σ
/-- leave the state and finish with `k` -/
def exit (k : Ctl) : Rel := fun σ c σ' => c = k ∧ σ' = σ
/-- run `R`; if it finishes normally run `S` -/
def seq (R S : Rel) : Rel := fun σ c σ' =>
  (∃ σ1, R σ .normal σ1 ∧ S σ1 c σ') ∨ (c ≠ .normal ∧ R σ c σ')
/-- branch on a test of the initial state -/
def ite (b : St → Bool) (R S : Rel) : Rel := fun σ c σ' => if b σ then R σ c σ' else S σ c σ'
/-- `while (1) R` (while_dispatcher.cpp:30-41) -/
inductive forever (R : Rel) : Rel
  | step {σ σ1 c σ2} (k : Ctl) : R σ k σ1 → (k = .normal ∨ k = .cont) → forever R σ1 c σ2 → forever R σ c σ2
  | stop {σ σ1} : R σ .brk σ1 → forever R σ .normal σ1
  | ret {σ σ1} (d : String) (q : Bool) : R σ (.ret d q) σ1 → forever R σ (.ret d q) σ1
/-- `for (; b; u) R` (for_dispatcher.cpp:26-46) -/
inductive iter (b : St → Bool) (u : St → St) (R : Rel) : Rel
  | done {σ} : b σ = false → iter b u R σ .normal σ
  | step {σ σ1 c σ2} (k : Ctl) : b σ = true → R σ k σ1 → (k = .normal ∨ k = .cont) → iter b u R (u σ1) c σ2 →
    iter b u R σ c σ2
  | stop {σ σ1} : b σ = true → R σ .brk σ1 → iter b u R σ .normal σ1
  | ret {σ σ1} (d : String) (q : Bool) : b σ = true → R σ (.ret d q) σ1 → iter b u R σ (.ret d q) σ1
end Rel

mutual
/-- Meaning of a node.  A Map has the meaning of the sequential loop; `IR/Par` relates it to other orders. -/
def Node.den (E : Env) : Node → Rel
  | .block l => Rel.upd (runBlock E l)
  | .seq s => s.den E
  | .ifElse b => b.den E
  | .whileL s => Rel.forever (s.den E)
  | .loop _ i init cond upd s => Rel.seq (Rel.upd fun σ => σ.setS i (σ.ev E init))
      (Rel.iter (fun σ => σ.cond E cond) (fun σ => σ.setS i (σ.ev E upd)) (s.den E))
  | .brk => Rel.exit .brk
  | .cont => Rel.exit .cont
  | .ret d q => Rel.exit (.ret d q)
/-- Meaning of a sequence: each child followed by its transition. -/
def Seq.den (E : Env) : Seq → Rel
  | .nil => Rel.upd id
  | .cons n t r => Rel.seq (n.den E) (Rel.seq (Rel.upd (runTrans E t)) (r.den E))
/-- Meaning of the cases of an if-else: the first true condition decides; none true: nothing happens
(if_else_dispatcher.cpp:24-47). -/
def Brs.den (E : Env) : Brs → Rel
  | .nil => Rel.upd id
  | .cons c s r => Rel.ite (fun σ => σ.cond E c) (s.den E) (r.den E)
end

/-! ### algebra of behaviours -/

namespace Rel

theorem upd_seq (f : St → St) (S : Rel) : Rel.seq (upd f) S = fun σ => S (f σ) := by
  funext σ c σ'
  apply propext
  simp only [seq, upd]
  constructor
  · rintro (⟨σ1, ⟨_, rfl⟩, h⟩ | ⟨hc, h, _⟩)
    · exact h
    · exact absurd h hc
  · intro h; exact Or.inl ⟨_, ⟨trivial, rfl⟩, h⟩

theorem skip_seq (S : Rel) : Rel.seq (upd id) S = S := by rw [upd_seq]; rfl

theorem seq_skip (R : Rel) : Rel.seq R (upd id) = R := by
  funext σ c σ'
  apply propext
  simp only [seq, upd, id]
  constructor
  · rintro (⟨σ1, h, rfl, rfl⟩ | ⟨hc, h⟩) <;> exact h
  · intro h
    by_cases hc : c = .normal
    · subst hc; exact Or.inl ⟨_, h, rfl, rfl⟩
    · exact Or.inr ⟨hc, h⟩

theorem seq_assoc (R S T : Rel) : Rel.seq (Rel.seq R S) T = Rel.seq R (Rel.seq S T) := by
  funext σ c σ'
  apply propext
  simp only [seq]
  constructor
  · rintro (⟨σ1, ⟨σ2, h1, h2⟩ | ⟨h, _⟩, h3⟩ | ⟨hc, ⟨σ2, h1, h2⟩ | ⟨_, h⟩⟩)
    · exact Or.inl ⟨σ2, h1, Or.inl ⟨σ1, h2, h3⟩⟩
    · exact absurd rfl h
    · exact Or.inl ⟨σ2, h1, Or.inr ⟨hc, h2⟩⟩
    · exact Or.inr ⟨hc, h⟩
  · rintro (⟨σ1, h1, ⟨σ2, h2, h3⟩ | ⟨hc, h2⟩⟩ | ⟨hc, h⟩)
    · exact Or.inl ⟨σ2, Or.inl ⟨σ1, h1, h2⟩, h3⟩
    · exact Or.inr ⟨hc, Or.inl ⟨σ1, h1, h2⟩⟩
    · exact Or.inr ⟨hc, Or.inr ⟨hc, h⟩⟩

theorem exit_seq (k : Ctl) (hk : k ≠ .normal) (S : Rel) : Rel.seq (exit k) S = exit k := by
  funext σ c σ'
  apply propext
  simp only [seq, exit]
  constructor
  · rintro (⟨σ1, ⟨h, _⟩, _⟩ | ⟨_, h⟩)
    · exact absurd h.symm hk
    · exact h
  · rintro ⟨rfl, rfl⟩; exact Or.inr ⟨hk, rfl, rfl⟩

theorem upd_upd (f g : St → St) : Rel.seq (upd f) (upd g) = upd (g ∘ f) := by rw [upd_seq]; rfl

/-- inclusion of behaviours: every terminating execution of `R` is one of `S` -/
def sub (R S : Rel) : Prop := ∀ σ c σ', R σ c σ' → S σ c σ'

theorem sub_refl (R : Rel) : sub R R := fun _ _ _ h => h
theorem sub_trans {R S T : Rel} (h1 : sub R S) (h2 : sub S T) : sub R T := fun _ _ _ h => h2 _ _ _ (h1 _ _ _ h)
theorem sub_of_eq {R S : Rel} (h : R = S) : sub R S := h ▸ sub_refl R
theorem sub_antisymm {R S : Rel} (h1 : sub R S) (h2 : sub S R) : R = S := by
  funext σ c σ'; exact propext ⟨h1 _ _ _, h2 _ _ _⟩

theorem seq_sub {R R' S S' : Rel} (h1 : sub R R') (h2 : sub S S') : sub (seq R S) (seq R' S') := by
  rintro σ c σ' (⟨σ1, a, b⟩ | ⟨hc, a⟩)
  · exact Or.inl ⟨σ1, h1 _ _ _ a, h2 _ _ _ b⟩
  · exact Or.inr ⟨hc, h1 _ _ _ a⟩

theorem ite_sub {b : St → Bool} {R R' S S' : Rel} (h1 : sub R R') (h2 : sub S S') : sub (ite b R S) (ite b R' S') := by
  intro σ c σ' h
  simp only [ite] at h ⊢
  split <;> simp_all
  · exact h1 _ _ _ h
  · exact h2 _ _ _ h

theorem forever_sub {R R' : Rel} (h : sub R R') : sub (forever R) (forever R') := by
  intro σ c σ' hr
  induction hr with
  | step k h1 h2 _ ih => exact .step k (h _ _ _ h1) h2 ih
  | stop h1 => exact .stop (h _ _ _ h1)
  | ret d q h1 => exact .ret d q (h _ _ _ h1)

theorem iter_sub {b : St → Bool} {u : St → St} {R R' : Rel} (h : sub R R') : sub (iter b u R) (iter b u R') := by
  intro σ c σ' hr
  induction hr with
  | done h1 => exact .done h1
  | step k h0 h1 h2 _ ih => exact .step k h0 (h _ _ _ h1) h2 ih
  | stop h0 h1 => exact .stop h0 (h _ _ _ h1)
  | ret d q h0 h1 => exact .ret d q h0 (h _ _ _ h1)

/-- at most one result -/
def Det (R : Rel) : Prop := ∀ σ c1 s1 c2 s2, R σ c1 s1 → R σ c2 s2 → c1 = c2 ∧ s1 = s2

theorem upd_det (f : St → St) : Det (upd f) := by
  rintro σ c1 s1 c2 s2 ⟨rfl, rfl⟩ ⟨rfl, rfl⟩; exact ⟨rfl, rfl⟩

theorem exit_det (k : Ctl) : Det (exit k) := by
  rintro σ c1 s1 c2 s2 ⟨rfl, rfl⟩ ⟨rfl, rfl⟩; exact ⟨rfl, rfl⟩

theorem seq_det {R S : Rel} (hR : Det R) (hS : Det S) : Det (seq R S) := by
  rintro σ c1 s1 c2 s2 (⟨a, h1, h2⟩ | ⟨n1, h1⟩) (⟨b, h3, h4⟩ | ⟨n2, h3⟩)
  · obtain ⟨_, rfl⟩ := hR _ _ _ _ _ h1 h3
    exact hS _ _ _ _ _ h2 h4
  · obtain ⟨e, _⟩ := hR _ _ _ _ _ h1 h3
    exact absurd e.symm n2
  · obtain ⟨e, _⟩ := hR _ _ _ _ _ h1 h3
    exact absurd e n1
  · exact hR _ _ _ _ _ h1 h3

theorem ite_det {b : St → Bool} {R S : Rel} (hR : Det R) (hS : Det S) : Det (ite b R S) := by
  intro σ c1 s1 c2 s2 h1 h2
  simp only [ite] at h1 h2
  split at h1 <;> simp_all
  · exact hR _ _ _ _ _ h1 h2
  · exact hS _ _ _ _ _ h1 h2

theorem forever_det {R : Rel} (hR : Det R) : Det (forever R) := by
  intro σ c1 s1 c2 s2 h1
  induction h1 generalizing c2 s2 with
  | step k a b _ ih =>
    intro h2
    cases h2 with
    | step k' a' b' c' => obtain ⟨_, rfl⟩ := hR _ _ _ _ _ a a'; exact ih _ _ c'
    | stop a' => obtain ⟨rfl, _⟩ := hR _ _ _ _ _ a a'; simp at b
    | ret d q a' => obtain ⟨rfl, _⟩ := hR _ _ _ _ _ a a'; simp at b
  | stop a =>
    intro h2
    cases h2 with
    | step k' a' b' c' => obtain ⟨rfl, _⟩ := hR _ _ _ _ _ a a'; simp at b'
    | stop a' => obtain ⟨_, rfl⟩ := hR _ _ _ _ _ a a'; exact ⟨rfl, rfl⟩
    | ret d q a' => obtain ⟨h, _⟩ := hR _ _ _ _ _ a a'; simp at h
  | ret d q a =>
    intro h2
    cases h2 with
    | step k' a' b' c' => obtain ⟨rfl, _⟩ := hR _ _ _ _ _ a a'; simp at b'
    | stop a' => obtain ⟨h, _⟩ := hR _ _ _ _ _ a a'; simp at h
    | ret d q a' => exact hR _ _ _ _ _ a a'

theorem iter_det {b : St → Bool} {u : St → St} {R : Rel} (hR : Det R) : Det (iter b u R) := by
  intro σ c1 s1 c2 s2 h1
  induction h1 generalizing c2 s2 with
  | done h => intro h2; cases h2 <;> simp_all
  | step k h a e _ ih =>
    intro h2
    cases h2 with
    | done h' => simp_all
    | step k' h' a' b' c' => obtain ⟨_, rfl⟩ := hR _ _ _ _ _ a a'; exact ih _ _ c'
    | stop h' a' => obtain ⟨rfl, _⟩ := hR _ _ _ _ _ a a'; simp at e
    | ret d q h' a' => obtain ⟨rfl, _⟩ := hR _ _ _ _ _ a a'; simp at e
  | stop h a =>
    intro h2
    cases h2 with
    | done h' => simp_all
    | step k' h' a' b' c' => obtain ⟨rfl, _⟩ := hR _ _ _ _ _ a a'; simp at b'
    | stop h' a' => obtain ⟨_, rfl⟩ := hR _ _ _ _ _ a a'; exact ⟨rfl, rfl⟩
    | ret d q h' a' => obtain ⟨h, _⟩ := hR _ _ _ _ _ a a'; simp at h
  | ret d q h a =>
    intro h2
    cases h2 with
    | done h' => simp_all
    | step k' h' a' b' c' => obtain ⟨rfl, _⟩ := hR _ _ _ _ _ a a'; simp at b'
    | stop h' a' => obtain ⟨h, _⟩ := hR _ _ _ _ _ a a'; simp at h
    | ret d q h' a' => exact hR _ _ _ _ _ a a'

end Rel

mutual
/-- The semantics is deterministic. -/
theorem Node.den_det (E : Env) : (n : Node) → Rel.Det (n.den E)
  | .block l => by rw [Node.den]; exact Rel.upd_det _
  | .seq s => by rw [Node.den]; exact s.den_det E
  | .ifElse b => by rw [Node.den]; exact b.den_det E
  | .whileL s => by rw [Node.den]; exact Rel.forever_det (s.den_det E)
  | .loop m i a c u s => by rw [Node.den]; exact Rel.seq_det (Rel.upd_det _) (Rel.iter_det (s.den_det E))
  | .brk => by rw [Node.den]; exact Rel.exit_det _
  | .cont => by rw [Node.den]; exact Rel.exit_det _
  | .ret d q => by rw [Node.den]; exact Rel.exit_det _
theorem Seq.den_det (E : Env) : (s : Seq) → Rel.Det (s.den E)
  | .nil => by rw [Seq.den]; exact Rel.upd_det _
  | .cons n t r => by rw [Seq.den]; exact Rel.seq_det (n.den_det E) (Rel.seq_det (Rel.upd_det _) (r.den_det E))
theorem Brs.den_det (E : Env) : (b : Brs) → Rel.Det (b.den E)
  | .nil => by rw [Brs.den]; exact Rel.upd_det _
  | .cons c s r => by rw [Brs.den]; exact Rel.ite_det (s.den_det E) (r.den_det E)
end

/-- concatenation is sequential composition -/
theorem Seq.den_append (E : Env) (a b : Seq) : (a ++ b).den E = Rel.seq (a.den E) (b.den E) := by
  match a with
  | .nil => rw [Seq.nil_append, Seq.den, Rel.skip_seq]
  | .cons n t r => rw [Seq.cons_append, Seq.den, Seq.den, Seq.den_append E r b, Rel.seq_assoc, Rel.seq_assoc]

/-! ### an interpreter, used to compute with examples -/

mutual
/-- fuel-bounded execution of a node -/
def Node.run (E : Env) : Nat → Node → St → Option (Ctl × St)
  | 0, _, _ => none
  | _ + 1, .block l, σ => some (.normal, runBlock E l σ)
  | f + 1, .seq s, σ => Seq.run E f s σ
  | f + 1, .ifElse b, σ => Brs.run E f b σ
  | f + 1, .whileL s, σ =>
    match Seq.run E f s σ with
    | some (.normal, σ1) => Node.run E f (.whileL s) σ1
    | some (.cont, σ1) => Node.run E f (.whileL s) σ1
    | some (.brk, σ1) => some (.normal, σ1)
    | some (.ret d q, σ1) => some (.ret d q, σ1)
    | none => none
  | f + 1, .loop _ i a c u s, σ => runIter E f i c u s (σ.setS i (σ.ev E a))
  | _ + 1, .brk, σ => some (.brk, σ)
  | _ + 1, .cont, σ => some (.cont, σ)
  | _ + 1, .ret d q, σ => some (.ret d q, σ)
/-- fuel-bounded execution of a sequence -/
def Seq.run (E : Env) : Nat → Seq → St → Option (Ctl × St)
  | 0, _, _ => none
  | _ + 1, .nil, σ => some (.normal, σ)
  | f + 1, .cons n t r, σ =>
    match Node.run E f n σ with
    | some (.normal, σ1) => Seq.run E f r (runTrans E t σ1)
    | x => x
/-- fuel-bounded execution of the cases of an if-else -/
def Brs.run (E : Env) : Nat → Brs → St → Option (Ctl × St)
  | 0, _, _ => none
  | _ + 1, .nil, σ => some (.normal, σ)
  | f + 1, .cons c s r, σ => if σ.cond E c then Seq.run E f s σ else Brs.run E f r σ
/-- fuel-bounded execution of a loop after its initialisation -/
def runIter (E : Env) : Nat → String → Cond → Expr → Seq → St → Option (Ctl × St)
  | 0, _, _, _, _, _ => none
  | f + 1, i, c, u, s, σ =>
    if σ.cond E c then
      match Seq.run E f s σ with
      | some (.normal, σ1) => runIter E f i c u s (σ1.setS i (σ1.ev E u))
      | some (.cont, σ1) => runIter E f i c u s (σ1.setS i (σ1.ev E u))
      | some (.brk, σ1) => some (.normal, σ1)
      | some (.ret d q, σ1) => some (.ret d q, σ1)
      | none => none
    else some (.normal, σ)
end

/-- the interpreter computes behaviours of the semantics -/
theorem run_sound (E : Env) (f : Nat) :
    (∀ n σ c σ', Node.run E f n σ = some (c, σ') → n.den E σ c σ') ∧
    (∀ s σ c σ', Seq.run E f s σ = some (c, σ') → s.den E σ c σ') ∧
    (∀ b σ c σ', Brs.run E f b σ = some (c, σ') → b.den E σ c σ') ∧
    (∀ i k u s σ c σ', runIter E f i k u s σ = some (c, σ') →
      Rel.iter (fun σ => σ.cond E k) (fun σ => σ.setS i (σ.ev E u)) (s.den E) σ c σ') := by
  induction f with
  | zero => simp [Node.run, Seq.run, Brs.run, runIter]
  | succ f ih =>
    obtain ⟨ihn, ihs, ihb, ihi⟩ := ih
    refine ⟨?_, ?_, ?_, ?_⟩
    · intro n σ c σ' h
      cases n with
      | block l =>
        simp only [Node.run, Option.some.injEq, Prod.mk.injEq] at h
        simp only [Node.den, Rel.upd]; exact ⟨h.1.symm, h.2.symm⟩
      | seq s => simp only [Node.run] at h; rw [Node.den]; exact ihs _ _ _ _ h
      | ifElse b => simp only [Node.run] at h; rw [Node.den]; exact ihb _ _ _ _ h
      | whileL s =>
        simp only [Node.run] at h
        rw [Node.den]
        split at h
        · rename_i σ1 h1
          have := ihn _ _ _ _ h
          rw [Node.den] at this
          exact .step .normal (ihs _ _ _ _ h1) (Or.inl rfl) this
        · rename_i σ1 h1
          have := ihn _ _ _ _ h
          rw [Node.den] at this
          exact .step .cont (ihs _ _ _ _ h1) (Or.inr rfl) this
        · rename_i σ1 h1
          simp only [Option.some.injEq, Prod.mk.injEq] at h
          obtain ⟨rfl, rfl⟩ := h
          exact .stop (ihs _ _ _ _ h1)
        · rename_i d q σ1 h1
          simp only [Option.some.injEq, Prod.mk.injEq] at h
          obtain ⟨rfl, rfl⟩ := h
          exact .ret _ _ (ihs _ _ _ _ h1)
        · simp at h
      | loop m i a k u s =>
        simp only [Node.run] at h
        rw [Node.den, Rel.upd_seq]
        exact ihi _ _ _ _ _ _ _ h
      | brk =>
        simp only [Node.run, Option.some.injEq, Prod.mk.injEq] at h
        simp only [Node.den, Rel.exit]; exact ⟨h.1.symm, h.2.symm⟩
      | cont =>
        simp only [Node.run, Option.some.injEq, Prod.mk.injEq] at h
        simp only [Node.den, Rel.exit]; exact ⟨h.1.symm, h.2.symm⟩
      | ret d q =>
        simp only [Node.run, Option.some.injEq, Prod.mk.injEq] at h
        simp only [Node.den, Rel.exit]; exact ⟨h.1.symm, h.2.symm⟩
    · intro s σ c σ' h
      cases s with
      | nil =>
        simp only [Seq.run, Option.some.injEq, Prod.mk.injEq] at h
        simp only [Seq.den, Rel.upd]; exact ⟨h.1.symm, h.2.symm⟩
      | cons n t r =>
        simp only [Seq.run] at h
        rw [Seq.den, Rel.upd_seq]
        split at h
        · rename_i σ1 h1
          exact Or.inl ⟨σ1, ihn _ _ _ _ h1, ihs _ _ _ _ h⟩
        · rename_i hn
          refine Or.inr ⟨?_, ihn _ _ _ _ h⟩
          rintro rfl
          exact hn σ' h
    · intro b σ c σ' h
      cases b with
      | nil =>
        simp only [Brs.run, Option.some.injEq, Prod.mk.injEq] at h
        simp only [Brs.den, Rel.upd]; exact ⟨h.1.symm, h.2.symm⟩
      | cons k s r =>
        simp only [Brs.run] at h
        rw [Brs.den]
        simp only [Rel.ite]
        split at h
        · rename_i hc; rw [if_pos hc]; exact ihs _ _ _ _ h
        · rename_i hc; rw [if_neg hc]; exact ihb _ _ _ _ h
    · intro i k u s σ c σ' h
      simp only [runIter] at h
      split at h
      · rename_i hc
        split at h
        · rename_i σ1 h1
          exact .step .normal hc (ihs _ _ _ _ h1) (Or.inl rfl) (ihi _ _ _ _ _ _ _ h)
        · rename_i σ1 h1
          exact .step .cont hc (ihs _ _ _ _ h1) (Or.inr rfl) (ihi _ _ _ _ _ _ _ h)
        · rename_i σ1 h1
          simp only [Option.some.injEq, Prod.mk.injEq] at h
          obtain ⟨rfl, rfl⟩ := h
          exact .stop hc (ihs _ _ _ _ h1)
        · rename_i d q σ1 h1
          simp only [Option.some.injEq, Prod.mk.injEq] at h
          obtain ⟨rfl, rfl⟩ := h
          exact .ret _ _ hc (ihs _ _ _ _ h1)
        · simp at h
      · rename_i hc
        simp only [Option.some.injEq, Prod.mk.injEq] at h
        obtain ⟨rfl, rfl⟩ := h
        exact .done (by simpa using hc)

theorem Seq.run_sound {E : Env} {f : Nat} {s : Seq} {σ : St} {c : Ctl} {σ' : St} (h : s.run E f σ = some (c, σ')) :
    s.den E σ c σ' := (Docc.IR.run_sound E f).2.1 s σ c σ' h

/-- read off one cell of the result of an execution -/
theorem Seq.run_obs {E : Env} (f : Nat) {s : Seq} {σ : St} {c : Ctl} {x : String} {j : List Int} {v : Int}
    (h : (s.run E f σ).map (fun r => (r.1, r.2 x j)) = some (c, v)) : ∃ σ', s.den E σ c σ' ∧ σ' x j = v := by
  cases hr : s.run E f σ with
  | none => rw [hr] at h; simp at h
  | some r =>
    rw [hr] at h
    simp only [Option.map_some, Option.some.injEq, Prod.mk.injEq] at h
    exact ⟨r.2, Seq.run_sound (by rw [hr, ← h.1]), h.2⟩

/-- every execution has the result the interpreter computes -/
theorem Seq.run_obs_all {E : Env} (f : Nat) {s : Seq} {σ : St} {c : Ctl} {x : String} {j : List Int} {v : Int}
    (h : (s.run E f σ).map (fun r => (r.1, r.2 x j)) = some (c, v)) {c' : Ctl} {σ' : St} (hd : s.den E σ c' σ') :
    c' = c ∧ σ' x j = v := by
  obtain ⟨σ1, h1, h2⟩ := Seq.run_obs f h
  obtain ⟨rfl, rfl⟩ := Seq.den_det E s _ _ _ _ _ hd h1
  exact ⟨rfl, h2⟩

/-- observe an execution of a node -/
theorem Node.run_obs {E : Env} (f : Nat) {s : Node} {σ : St} {c : Ctl} {x : String} {j : List Int} {v : Int}
    (h : (s.run E f σ).map (fun r => (r.1, r.2 x j)) = some (c, v)) : ∃ σ', s.den E σ c σ' ∧ σ' x j = v := by
  cases hr : s.run E f σ with
  | none => rw [hr] at h; simp at h
  | some r =>
    rw [hr] at h
    simp only [Option.map_some, Option.some.injEq, Prod.mk.injEq] at h
    exact ⟨r.2, (run_sound E f).1 _ _ _ _ (by rw [hr, ← h.1]), h.2⟩

/-- every execution of a node gives the observed value -/
theorem Node.run_obs_all {E : Env} (f : Nat) {s : Node} {σ : St} {c : Ctl} {x : String} {j : List Int} {v : Int}
    (h : (s.run E f σ).map (fun r => (r.1, r.2 x j)) = some (c, v)) {c' : Ctl} {σ' : St} (hd : s.den E σ c' σ') :
    c' = c ∧ σ' x j = v := by
  obtain ⟨σ1, h1, h2⟩ := Node.run_obs f h
  obtain ⟨rfl, rfl⟩ := Node.den_det E s _ _ _ _ _ hd h1
  exact ⟨rfl, h2⟩

end Docc.IR
