import Verif.IR.Flop

/-
Specification for the FLOP analysis: the executions of a structured SDFG with the number of floating point operations they perform.  The
same rules as `IR/Sem` with a counter; `cost_erase` below shows that dropping the counter gives the meaning of `IR/Sem`.
-/
namespace Docc.IR
open Docc.Sym

/-- behaviours with a counter: initial state, outcome, operations performed, final state -/
abbrev CR := St → Ctl → Int → St → Prop

namespace CR
/-- change the state at a cost and finish normally -/
def upd (f : St → St) (k : St → Int) : CR := fun σ c n σ' => c = .normal ∧ n = k σ ∧ σ' = f σ
/-- leave the state and finish with `k` at no cost -/
def exit (k : Ctl) : CR := fun σ c n σ' => c = k ∧ n = 0 ∧ σ' = σ
/-- run `R`; if it finishes normally run `S` -/
def seq (R S : CR) : CR := fun σ c n σ' =>
  (∃ σ1 a b, R σ .normal a σ1 ∧ S σ1 c b σ' ∧ n = a + b) ∨ (c ≠ .normal ∧ R σ c n σ')
/-- branch on a test of the initial state -/
def ite (b : St → Bool) (R S : CR) : CR := fun σ c n σ' => if b σ then R σ c n σ' else S σ c n σ'
/-- `while (1) R` -/
inductive forever (R : CR) : CR
  | step {σ σ1 c σ2 a b} (k : Ctl) : R σ k a σ1 → (k = .normal ∨ k = .cont) → forever R σ1 c b σ2 → forever R σ c (a + b) σ2
  | stop {σ σ1 a} : R σ .brk a σ1 → forever R σ .normal a σ1
  | ret {σ σ1 a} (d : String) (q : Bool) : R σ (.ret d q) a σ1 → forever R σ (.ret d q) a σ1
/-- `for (; b; u) R` -/
inductive iter (b : St → Bool) (u : St → St) (R : CR) : CR
  | done {σ} : b σ = false → iter b u R σ .normal 0 σ
  | step {σ σ1 c σ2 n m} (k : Ctl) : b σ = true → R σ k n σ1 → (k = .normal ∨ k = .cont) → iter b u R (u σ1) c m σ2 →
    iter b u R σ c (n + m) σ2
  | stop {σ σ1 n} : b σ = true → R σ .brk n σ1 → iter b u R σ .normal n σ1
  | ret {σ σ1 n} (d : String) (q : Bool) : b σ = true → R σ (.ret d q) n σ1 → iter b u R σ (.ret d q) n σ1
end CR

/-- operations of a tasklet: two for a fused multiply-add, one for every other operation or comparison of floating point numbers -/
def opFlops (op : String) : Int :=
  if op ∈ ["fp_neg", "fp_add", "fp_sub", "fp_mul", "fp_div", "fp_rem", "fp_oeq", "fp_one", "fp_oge", "fp_ogt", "fp_ole", "fp_olt", "fp_ord",
    "fp_ueq", "fp_une", "fp_ugt", "fp_uge", "fp_ult", "fp_ule", "fp_uno"] then 1
  else if op = "fp_fma" then 2 else 0

/-- operations of one computation; `W` gives those of the library nodes -/
def Stmt.work (W : String → St → Int) : Stmt → St → Int
  | .tasklet op _ _ _, _ => opFlops op
  | .lib op _ _, σ => W op σ

/-- operations of a block -/
def blockWork (E : Env) (W : String → St → Int) : List Stmt → St → Int
  | [], _ => 0
  | x :: r, σ => x.work W σ + blockWork E W r (x.run E σ)

mutual
/-- executions of a node with their operations -/
def Node.cost (E : Env) (W : String → St → Int) : Node → CR
  | .block l => CR.upd (runBlock E l) (blockWork E W l)
  | .seq s => s.cost E W
  | .ifElse b => b.cost E W
  | .whileL s => CR.forever (s.cost E W)
  | .loop _ i init cond upd s => CR.seq (CR.upd (fun σ => σ.setS i (σ.ev E init)) fun _ => 0)
      (CR.iter (fun σ => σ.cond E cond) (fun σ => σ.setS i (σ.ev E upd)) (s.cost E W))
  | .brk => CR.exit .brk
  | .cont => CR.exit .cont
  | .ret d q => CR.exit (.ret d q)
/-- executions of a sequence -/
def Seq.cost (E : Env) (W : String → St → Int) : Seq → CR
  | .nil => CR.upd id fun _ => 0
  | .cons n t r => CR.seq (n.cost E W) (CR.seq (CR.upd (runTrans E t) fun _ => 0) (r.cost E W))
/-- executions of the cases of an if-else -/
def Brs.cost (E : Env) (W : String → St → Int) : Brs → CR
  | .nil => CR.upd id fun _ => 0
  | .cons c s r => CR.ite (fun σ => σ.cond E c) (s.cost E W) (r.cost E W)
end

/-- dropping the counter -/
def CR.erase (R : CR) : Rel := fun σ c σ' => ∃ n, R σ c n σ'

namespace CR

theorem erase_upd (f : St → St) (k : St → Int) : (upd f k).erase = Rel.upd f := by
  funext σ c σ'
  refine propext ⟨?_, ?_⟩
  · rintro ⟨n, h1, _, h2⟩; exact ⟨h1, h2⟩
  · rintro ⟨h1, h2⟩; exact ⟨_, h1, rfl, h2⟩

theorem erase_exit (k : Ctl) : (exit k).erase = Rel.exit k := by
  funext σ c σ'
  refine propext ⟨?_, ?_⟩
  · rintro ⟨n, h1, _, h2⟩; exact ⟨h1, h2⟩
  · rintro ⟨h1, h2⟩; exact ⟨_, h1, rfl, h2⟩

theorem erase_seq (R S : CR) : (seq R S).erase = Rel.seq R.erase S.erase := by
  funext σ c σ'
  refine propext ⟨?_, ?_⟩
  · rintro ⟨n, ⟨σ1, a, b, h1, h2, _⟩ | ⟨h1, h2⟩⟩
    · exact Or.inl ⟨σ1, ⟨a, h1⟩, b, h2⟩
    · exact Or.inr ⟨h1, n, h2⟩
  · rintro (⟨σ1, ⟨a, h1⟩, b, h2⟩ | ⟨h1, n, h2⟩)
    · exact ⟨_, Or.inl ⟨σ1, a, b, h1, h2, rfl⟩⟩
    · exact ⟨n, Or.inr ⟨h1, h2⟩⟩

theorem erase_ite (b : St → Bool) (R S : CR) : (ite b R S).erase = Rel.ite b R.erase S.erase := by
  funext σ c σ'
  simp only [erase, ite, Rel.ite]
  split <;> rfl

theorem erase_forever (R : CR) : (forever R).erase = Rel.forever R.erase := by
  funext σ c σ'
  refine propext ⟨?_, ?_⟩
  · rintro ⟨n, h⟩
    induction h with
    | step k h1 h2 _ ih => exact .step k ⟨_, h1⟩ h2 ih
    | stop h1 => exact .stop ⟨_, h1⟩
    | ret d q h1 => exact .ret d q ⟨_, h1⟩
  · intro h
    induction h with
    | step k h1 h2 _ ih =>
      obtain ⟨a, h1⟩ := h1
      obtain ⟨b, ih⟩ := ih
      exact ⟨_, .step k h1 h2 ih⟩
    | stop h1 => obtain ⟨a, h1⟩ := h1; exact ⟨_, .stop h1⟩
    | ret d q h1 => obtain ⟨a, h1⟩ := h1; exact ⟨_, .ret d q h1⟩

theorem erase_iter (b : St → Bool) (u : St → St) (R : CR) : (iter b u R).erase = Rel.iter b u R.erase := by
  funext σ c σ'
  refine propext ⟨?_, ?_⟩
  · rintro ⟨n, h⟩
    induction h with
    | done h1 => exact .done h1
    | step k h0 h1 h2 _ ih => exact .step k h0 ⟨_, h1⟩ h2 ih
    | stop h0 h1 => exact .stop h0 ⟨_, h1⟩
    | ret d q h0 h1 => exact .ret d q h0 ⟨_, h1⟩
  · intro h
    induction h with
    | done h1 => exact ⟨_, .done h1⟩
    | step k h0 h1 h2 _ ih =>
      obtain ⟨a, h1⟩ := h1
      obtain ⟨b, ih⟩ := ih
      exact ⟨_, .step k h0 h1 h2 ih⟩
    | stop h0 h1 => obtain ⟨a, h1⟩ := h1; exact ⟨_, .stop h0 h1⟩
    | ret d q h0 h1 => obtain ⟨a, h1⟩ := h1; exact ⟨_, .ret d q h0 h1⟩

end CR

mutual
theorem Node.cost_erase (E : Env) (W : String → St → Int) : ∀ n : Node, (n.cost E W).erase = n.den E
  | .block l => by rw [Node.cost, Node.den, CR.erase_upd]
  | .seq s => by rw [Node.cost, Node.den, s.cost_erase E W]
  | .ifElse b => by rw [Node.cost, Node.den, b.cost_erase E W]
  | .whileL s => by rw [Node.cost, Node.den, CR.erase_forever, s.cost_erase E W]
  | .loop _ i init cond upd s => by rw [Node.cost, Node.den, CR.erase_seq, CR.erase_upd, CR.erase_iter, s.cost_erase E W]
  | .brk => by rw [Node.cost, Node.den, CR.erase_exit]
  | .cont => by rw [Node.cost, Node.den, CR.erase_exit]
  | .ret d q => by rw [Node.cost, Node.den, CR.erase_exit]
theorem Seq.cost_erase (E : Env) (W : String → St → Int) : ∀ s : Seq, (s.cost E W).erase = s.den E
  | .nil => by rw [Seq.cost, Seq.den, CR.erase_upd]
  | .cons n t r => by rw [Seq.cost, Seq.den, CR.erase_seq, CR.erase_seq, CR.erase_upd, n.cost_erase E W, r.cost_erase E W]
theorem Brs.cost_erase (E : Env) (W : String → St → Int) : ∀ b : Brs, (b.cost E W).erase = b.den E
  | .nil => by rw [Brs.cost, Brs.den, CR.erase_upd]
  | .cons c s r => by rw [Brs.cost, Brs.den, CR.erase_ite, s.cost_erase E W, r.cost_erase E W]
end

end Docc.IR
