import Verif.IR.CfaTree
import Verif.IR.CfaExitProps
import Verif.IR.UGraphRun
import Verif.IR.HoistViol

/-
The control flow graph: examples, and programs for which its answers are wrong.
-/
namespace Docc.IR
open Docc.Sym

mutual
/-- `Node.cvis`, computed -/
def Node.cvf (E : Env) (fu : Nat) : Node → Nat → TF
  | .block l, k => TF.emit [cv k] (runBlock E l)
  | .seq s, k => s.cvf E fu (k + 1)
  | .ifElse b, k => TF.seq (TF.emit [cv k] id) (b.cvf E fu (k + 1))
  | .whileL s, k => TF.forever (TF.seq (TF.emit [cv k] id) (s.cvf E fu (k + 1))) fu
  | .loop _ i init cond upd s, k => TF.seq (TF.emit [] fun σ => σ.setS i (σ.ev E init))
      (TF.iter (fun σ => σ.cond E cond) (fun σ => σ.setS i (σ.ev E upd)) [cv k] [] (s.cvf E fu (k + 1)) fu)
  | .brk, k => TF.jump [cv k] .brk
  | .cont, k => TF.jump [cv k] .cont
  | .ret d q, k => TF.jump [cv k] (.ret d q)
def Seq.cvf (E : Env) (fu : Nat) : Seq → Nat → TF
  | .nil, _ => TF.emit [] id
  | .cons n t r, k => TF.seq (n.cvf E fu k) (TF.seq (TF.emit [] (runTrans E t)) (r.cvf E fu (k + n.cn)))
def Brs.cvf (E : Env) (fu : Nat) : Brs → Nat → TF
  | .nil, _ => TF.emit [] id
  | .cons c s r, k => TF.ite (fun σ => σ.cond E c) (s.cvf E fu k) (r.cvf E fu (k + s.cn))
end

mutual
theorem Node.cvf_ok (E : Env) (fu : Nat) : (n : Node) → ∀ k, TF.Ok (n.cvf E fu k) (n.cvis E k)
  | .block _, k => by rw [Node.cvf, Node.cvis]; exact TF.ok_emit _ _
  | .seq s, k => by rw [Node.cvf, Node.cvis]; exact Seq.cvf_ok E fu s _
  | .ifElse b, k => by rw [Node.cvf, Node.cvis]; exact TF.ok_seq (TF.ok_emit _ _) (Brs.cvf_ok E fu b _)
  | .whileL s, k => by rw [Node.cvf, Node.cvis]; exact TF.ok_forever (TF.ok_seq (TF.ok_emit _ _) (Seq.cvf_ok E fu s _)) _
  | .loop _ i init cond upd s, k => by
    rw [Node.cvf, Node.cvis]; exact TF.ok_seq (TF.ok_emit _ _) (TF.ok_iter (Seq.cvf_ok E fu s _) _)
  | .brk, _ => by rw [Node.cvf, Node.cvis]; exact TF.ok_jump _ _
  | .cont, _ => by rw [Node.cvf, Node.cvis]; exact TF.ok_jump _ _
  | .ret d q, k => by rw [Node.cvf, Node.cvis]; exact TF.ok_jump _ _
theorem Seq.cvf_ok (E : Env) (fu : Nat) : (s : Seq) → ∀ k, TF.Ok (s.cvf E fu k) (s.cvis E k)
  | .nil, _ => by rw [Seq.cvf, Seq.cvis]; exact TF.ok_emit _ _
  | .cons n t r, k => by
    rw [Seq.cvf, Seq.cvis]; exact TF.ok_seq (Node.cvf_ok E fu n _) (TF.ok_seq (TF.ok_emit _ _) (Seq.cvf_ok E fu r _))
theorem Brs.cvf_ok (E : Env) (fu : Nat) : (b : Brs) → ∀ k, TF.Ok (b.cvf E fu k) (b.cvis E k)
  | .nil, _ => by rw [Brs.cvf, Brs.cvis]; exact TF.ok_emit _ _
  | .cons c s r, k => by rw [Brs.cvf, Brs.cvis]; exact TF.ok_ite (Seq.cvf_ok E fu s _) (Brs.cvf_ok E fu r _)
end

theorem Seq.visits_of (E : Env) (s : Seq) (fu : Nat) (σ : St) {l : List V} (h : (s.cvf E fu 1 σ).1 = l) : ∃ o, s.Visits E σ l o := by
  subst h
  exact ⟨_, (Seq.cvf_ok E fu s 1 σ).1⟩

/-! ### examples -/

/-- an empty block -/
def exB : Node := .block []

/-- `A; if (k) { return } ; B` : nodes 1, 2, 3, 4 -/
def exCfa : Seq := .cons exB [] (.cons (.ifElse (.cons (.atom "k") (.one (.ret "one" false)) .nil)) [] (.one exB))

theorem exCfa_graph : (exCfa.flow exCompl).edges = [(cv 2, cv 3), (cv 2, .nop 2), (cv 1, cv 2), (.nop 2, cv 4)] ∧
    (exCfa.flow exCompl).verts = [cv 1, cv 2, cv 3, .nop 2, cv 4] ∧ (exCfa.flow exCompl).start = some (cv 1) := by
  refine ⟨?_, ?_, ?_⟩ <;> decide

/-- the tree of this program -/
def exCfaT : V → Option V := fun v => if v = cv 2 then some (cv 1) else if v = cv 3 then some (cv 2) else if v = .nop 2 then some (cv 2)
  else if v = cv 4 then some (.nop 2) else none
/-- and the map of pointers -/
def exCfaD : Option Nat → Option (Option Nat)
  | some 2 => some (some 1)
  | some 3 => some (some 2)
  | none => some (some 2)
  | some 4 => some none
  | _ => none

theorem exCfa_tree : IdomTree (exCfa.flow exCompl).edges (cv 1) exCfaT := by
  rw [exCfa_graph.1]
  intro v w h
  simp only [exCfaT] at h
  split at h
  · cases h; rename_i e; subst e
    exact dominates_of [cv 1] (by decide) (by decide) (by decide) (by decide)
  · split at h
    · cases h; rename_i e; subst e
      exact dominates_of [cv 1, cv 2] (by decide) (by decide) (by decide) (by decide)
    · split at h
      · cases h; rename_i e; subst e
        exact dominates_of [cv 1, cv 2] (by decide) (by decide) (by decide) (by decide)
      · split at h
        · cases h; rename_i e; subst e
          exact dominates_of [cv 1, cv 2, cv 3, .nop 2] (by decide) (by decide) (by decide) (by decide)
        · cases h

theorem exCfa_ptr : PtrTree exCfaT (exCfa.flow exCompl).verts exCfaD := by
  rw [exCfa_graph.2.1]
  refine ⟨fun p q h => ?_, fun v hv w hw => ?_⟩
  · unfold exCfaD at h
    split at h
    · cases h; exact ⟨cv 2, by decide, cv 1, by decide⟩
    · cases h; exact ⟨cv 3, by decide, cv 2, by decide⟩
    · cases h; exact ⟨.nop 2, by decide, cv 2, by decide⟩
    · cases h; exact ⟨cv 4, by decide, .nop 2, by decide⟩
    · cases h
  · simp only [List.mem_cons, List.not_mem_nil, or_false] at hv
    rcases hv with rfl | rfl | rfl | rfl | rfl
    · cases hw
    · exact ⟨_, rfl⟩
    · exact ⟨_, rfl⟩
    · exact ⟨_, rfl⟩
    · exact ⟨_, rfl⟩

theorem exCfa_one : OneJoin (exCfa.flow exCompl).verts := by
  rw [exCfa_graph.2.1]
  intro i j hi hj
  simp [cv] at hi hj
  rw [hi, hj]

/-- `dominates(A, B)` holds, and the execution visits `A` before `B` -/
example {σ : St} {l : List V} {o : Option (Ctl × St)} (h : exCfa.Visits exEnvH σ l o) {l1 l2 : List V} (hl : l = l1 ++ cv 4 :: l2) : cv 1 ∈ l1 :=
  cfa_dominates_partial (exCompl_sound _) (by decide) exCfa_one exCfa_graph.2.2 exCfa_tree (by
    rw [exCfa_graph.2.1]
    intro v w h
    simp only [exCfaT] at h
    repeat' split at h
    all_goals first | (cases h; decide) | cases h) exCfa_ptr (by rw [exCfa_graph.2.1]; decide) (by rw [exCfa_graph.2.1]; decide) ⟨4, by decide⟩ h hl
/-- there is such an execution -/
example : ∃ o, exCfa.Visits exEnvH (exHs 0 0) [cv 1, cv 2, cv 4] o := Seq.visits_of _ _ 1 _ (by decide)
/-- the condition dominates the return, in the graph -/
example {σ : St} {l : List V} {o : Option (Ctl × St)} (h : exCfa.Visits exEnvH σ l o) {l1 l2 : List V} (hl : l = l1 ++ cv 3 :: l2) : cv 2 ∈ l1 :=
  cfg_dominates_partial (exCompl_sound _) (by decide) exCfa_graph.2.2
    (by rw [exCfa_graph.1]; exact dominates_of [cv 1, cv 2] (by decide) (by decide) (by decide) (by decide)) h hl
/-- the entry -/
example : cv 1 ∈ (exCfa.flow exCompl).entries := (entry_found _ (by decide) _).mpr exCfa_graph.2.2
/-- the return is an exit, and so is the last block -/
example : (exCfa.flow exCompl).exits = [some 3, some 4] := by decide
/-- an execution that returns -/
example : ∃ l' j, ([cv 1, cv 2, cv 3] : List V) = l' ++ [cv j] ∧ some j ∈ (exCfa.flow exCompl).exits :=
  return_is_exit_partial (E := exEnvH) (exCompl_sound _) (by decide) (σ := exHs 0 1) (d := "one") (q := false) (σ' := exHs 0 1)
    (Seq.cvf_ok exEnvH 1 exCfa 1 (exHs 0 1)).1

/-! ### violations -/

/-- **C100** is violated: in `if (k) { A } else { }; B` the graph has no path around `A`, so `A` dominates `B`, though with `k = 0` the
execution reaches `B` without `A`. -/
theorem empty_case_violated : ∃ s : Seq, (s.flow exCompl).start = some (cv 1) ∧ Dominates (s.flow exCompl).edges (cv 1) (cv 2) (cv 3) ∧
    ∃ o, s.Visits exEnvH (exHs 0 0) [cv 1, cv 3] o := by
  refine ⟨.cons (exIfK (.one exB) .nil) [] (.one exB), by decide, ?_, Seq.visits_of _ _ 1 _ (by decide)⟩
  exact dominates_of [cv 1, cv 2] (by decide) (by decide) (by decide) (by decide)

/-- **C100** is violated: what stands behind an empty nested sequence is not in the graph, though it is executed; `dominates` is false for it, and the first block is reported as an exit. -/
theorem empty_seq_violated : ∃ s : Seq, (s.flow exCompl).verts = [cv 1] ∧ (s.flow exCompl).edges = [] ∧ (s.flow exCompl).exits = [some 1] ∧
    ∃ o, s.Visits exEnvH (exHs 0 0) [cv 1, cv 3] o :=
  ⟨.cons exB [] (.cons (.seq .nil) [] (.one exB)), by decide, by decide, by decide, Seq.visits_of _ _ 1 _ (by decide)⟩

/-- **C100** is violated: a program that ends in a loop has no exit, not even a wrong one. -/
theorem loop_exit_violated : ∃ s : Seq, s.filled exCompl = true ∧ (s.flow exCompl).exits = [] ∧ (s.flow exCompl).entries = [cv 1] ∧
    ∃ σ', s.Visits exEnvH (exHs 0 0) [cv 1, cv 2] (some (.normal, σ')) :=
  ⟨.cons exB [] (.one (exMapH (.one exB))), by decide, by decide, by decide, _, (Seq.cvf_ok exEnvH 1 (.cons exB [] (.one (exMapH (.one exB)))) 1 (exHs 0 0)).1⟩

/-- **C100** is violated: behind an if-else the exit is a null pointer. -/
theorem null_exit_violated : ∃ s : Seq, s.filled exCompl = true ∧ (s.flow exCompl).exits = [none] ∧
    ∃ σ', s.Visits exEnvH (exHs 0 0) [cv 1, cv 3] (some (.normal, σ')) :=
  ⟨.one (exIfK (.one exB) (.one exB)), by decide, by decide, _, (Seq.cvf_ok exEnvH 1 (.one (exIfK (.one exB) (.one exB))) 1 (exHs 0 0)).1⟩

/-- **C100** is violated: a program that begins with a loop has no vertex without predecessors; the dominator tree is then asked for with the null vertex as root. -/
theorem no_entry_violated : ∃ s : Seq, s.filled exCompl = true ∧ (s.flow exCompl).start = some (cv 1) ∧ (s.flow exCompl).entries = [] :=
  ⟨.cons (exMapH (.one exB)) [] (.one exB), by decide, by decide, by decide⟩

/-- `if (k) A else A'; B; if (k) D else D'; C` : nodes 1 to 8 -/
def exJoin : Seq := .cons (exIfK (.one exB) (.one exB)) [] (.cons exB [] (.cons (exIfK (.one exB) (.one exB)) [] (.one exB)))

theorem exJoin_graph : (exJoin.flow exCompl).edges = [(cv 1, cv 2), (cv 2, .nop 1), (cv 1, cv 3), (cv 3, .nop 1), (.nop 1, cv 4), (cv 5, cv 6), (cv 6, .nop 5), (cv 5, cv 7), (cv 7, .nop 5), (cv 4, cv 5), (.nop 5, cv 8)] ∧
    (exJoin.flow exCompl).verts = [cv 1, cv 2, cv 3, .nop 1, cv 4, cv 5, cv 6, cv 7, .nop 5, cv 8] ∧ (exJoin.flow exCompl).start = some (cv 1) := by
  refine ⟨?_, ?_, ?_⟩ <;> decide

/-- its dominator tree -/
def exJoinT : V → Option V := fun v => if v = cv 2 ∨ v = cv 3 ∨ v = .nop 1 then some (cv 1) else if v = cv 4 then some (.nop 1) else if v = cv 5 then some (cv 4)
  else if v = cv 6 ∨ v = cv 7 ∨ v = .nop 5 then some (cv 5) else if v = cv 8 then some (.nop 5) else none
/-- the map of pointers, when the second vertex without a node is inserted last -/
def exJoinD : Option Nat → Option (Option Nat)
  | some 2 => some (some 1)
  | some 3 => some (some 1)
  | some 4 => some none
  | some 5 => some (some 4)
  | some 6 => some (some 5)
  | some 7 => some (some 5)
  | some 8 => some none
  | none => some (some 5)
  | _ => none

theorem exJoin_tree : IdomTree (exJoin.flow exCompl).edges (cv 1) exJoinT := by
  rw [exJoin_graph.1]
  intro v w h
  simp only [exJoinT] at h
  split at h
  · cases h; rename_i e
    rcases e with rfl | rfl | rfl <;> exact dominates_of [cv 1] (by decide) (by decide) (by decide) (by decide)
  · split at h
    · cases h; rename_i e; subst e
      exact dominates_of [cv 1, cv 2, cv 3, .nop 1] (by decide) (by decide) (by decide) (by decide)
    · split at h
      · cases h; rename_i e; subst e
        exact dominates_of [cv 1, cv 2, cv 3, .nop 1, cv 4] (by decide) (by decide) (by decide) (by decide)
      · split at h
        · cases h; rename_i e
          rcases e with rfl | rfl | rfl <;> exact dominates_of [cv 1, cv 2, cv 3, .nop 1, cv 4, cv 5] (by decide) (by decide) (by decide) (by decide)
        · split at h
          · cases h; rename_i e; subst e
            exact dominates_of [cv 1, cv 2, cv 3, .nop 1, cv 4, cv 5, cv 6, cv 7, .nop 5] (by decide) (by decide) (by decide) (by decide)
          · cases h

theorem exJoin_ptr : PtrTree exJoinT (exJoin.flow exCompl).verts exJoinD := by
  rw [exJoin_graph.2.1]
  refine ⟨fun p q h => ?_, fun v hv w hw => ?_⟩
  · unfold exJoinD at h
    split at h
    · cases h; exact ⟨cv 2, by decide, cv 1, by decide⟩
    · cases h; exact ⟨cv 3, by decide, cv 1, by decide⟩
    · cases h; exact ⟨cv 4, by decide, .nop 1, by decide⟩
    · cases h; exact ⟨cv 5, by decide, cv 4, by decide⟩
    · cases h; exact ⟨cv 6, by decide, cv 5, by decide⟩
    · cases h; exact ⟨cv 7, by decide, cv 5, by decide⟩
    · cases h; exact ⟨cv 8, by decide, .nop 5, by decide⟩
    · cases h; exact ⟨.nop 5, by decide, cv 5, by decide⟩
    · cases h
  · simp only [List.mem_cons, List.not_mem_nil, or_false] at hv
    rcases hv with rfl | rfl | rfl | rfl | rfl | rfl | rfl | rfl | rfl | rfl
    · cases hw
    all_goals exact ⟨_, rfl⟩

/-- **C100** is violated: with two if-elses `dominates(second if-else, B)` may hold although `B` stands in front of it, and `dominates(first if-else, B)` may
not end, though every execution visits the first if-else before `B`. -/
theorem shared_join_violated : exJoin.filled exCompl = true ∧ (∃ T D, IdomTree (exJoin.flow exCompl).edges (cv 1) T ∧ PtrTree T (exJoin.flow exCompl).verts D ∧
    CfaDominates D 5 4 ∧ ∀ f, walk D (some 1) f (some 4) = none) ∧ ∃ o, exJoin.Visits exEnvH (exHs 0 0) [cv 1, cv 3, cv 4, cv 5, cv 7, cv 8] o := by
  refine ⟨by decide, ⟨exJoinT, exJoinD, exJoin_tree, exJoin_ptr, ⟨2, by decide⟩, ?_⟩, Seq.visits_of _ _ 1 _ (by decide)⟩
  have key : ∀ f, walk exJoinD (some 1) f (some 4) = none ∧ walk exJoinD (some 1) f none = none ∧ walk exJoinD (some 1) f (some 5) = none := by
    intro f
    induction f with
    | zero => exact ⟨rfl, rfl, rfl⟩
    | succ f ih => exact ⟨ih.2.1, ih.2.2, ih.1⟩
  exact fun f => (key f).1

end Docc.IR
