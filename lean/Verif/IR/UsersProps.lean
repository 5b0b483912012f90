import Verif.IR.Users
import Verif.IR.Sim

/-
The users analysis accounts for every access of every execution.
-/
namespace Docc.IR
open Docc.Sym

theorem reads_append {a b : List User} {x : String} : reads (a ++ b) x ↔ reads a x ∨ reads b x := by simp [reads]
theorem writes_append {a b : List User} {x : String} : writes (a ++ b) x ↔ writes a x ∨ writes b x := by simp [writes]
theorem reads_readsOf {l : List String} {x : String} : reads (readsOf l) x ↔ x ∈ l := by simp [reads, readsOf]
theorem writes_readsOf {l : List String} {x : String} : ¬ writes (readsOf l) x := by simp [writes, readsOf]

/-! ### written containers -/

theorem runTrans_frame (E : Env) (t : Trans) (σ : St) (x : String) (h : ¬ writes (transUsers t) x) : runTrans E t σ x = σ x := by
  have h' : ∀ a ∈ t, a.1 ≠ x := by
    rintro a ha rfl
    exact h (by simp only [writes, transUsers, List.mem_append, List.mem_map]; exact Or.inr ⟨a, ha, rfl⟩)
  clear h
  unfold runTrans
  induction t generalizing σ with
  | nil => rfl
  | cons a r ih =>
    rw [List.foldl_cons, ih _ (fun b hb => h' b (List.mem_cons_of_mem _ hb)), St.setS_other]
    exact fun e => h' a (by simp) e.symm

theorem Stmt.run_frame (E : Env) (s : Stmt) (σ : St) (x : String) (h : ¬ writes s.users x) : s.run E σ x = σ x := by
  cases s with
  | tasklet op ins out sub =>
    simp only [Stmt.run]
    apply St.set_other
    rintro rfl
    exact h (by simp [writes, Stmt.users])
  | lib op rs ws =>
    simp only [Stmt.run]
    apply St.setMany_other
    intro hx
    exact h (by simp only [writes, Stmt.users, List.mem_append, List.mem_map]; exact Or.inr ⟨x, hx, rfl⟩)

theorem runBlock_frame (E : Env) (l : List Stmt) (σ : St) (x : String) (h : ¬ writes (l.flatMap Stmt.users) x) :
    runBlock E l σ x = σ x := by
  unfold runBlock
  induction l generalizing σ with
  | nil => rfl
  | cons s r ih =>
    rw [List.flatMap_cons, writes_append, not_or] at h
    rw [List.foldl_cons, ih _ h.2, Stmt.run_frame E s σ x h.1]

/-- the value of container `x` is `v` -/
abbrev Holds (x : String) (v : List Int → Int) : St → Prop := fun σ => σ x = v

mutual
theorem Node.frame_inv (E : Env) (x : String) (v : List Int → Int) : (n : Node) → ¬ writes n.users x → Rel.inv (Holds x v) (n.den E)
  | .block l => fun h => by
    rw [Node.den]
    exact Rel.upd_inv fun σ hp => by rw [Holds, runBlock_frame E l σ x (by rwa [Node.users] at h)]; exact hp
  | .seq s => fun h => by rw [Node.den]; rw [Node.users] at h; exact s.frame_inv E x v h
  | .ifElse b => fun h => by
    rw [Node.den]; rw [Node.users, writes_append, not_or] at h; exact b.frame_inv E x v h.2
  | .whileL s => fun h => by rw [Node.den]; rw [Node.users] at h; exact Rel.forever_inv (s.frame_inv E x v h)
  | .loop m i a c u s => fun h => by
    rw [Node.den]
    simp only [Node.users, writes_append, not_or] at h
    have hi : x ≠ i := by
      rintro rfl; exact h.2 (by simp [writes])
    refine Rel.seq_inv (Rel.upd_inv fun σ hp => ?_) (Rel.iter_inv (fun σ hp => ?_) (s.frame_inv E x v h.1.1.2))
    · rw [Holds, St.setS_other _ _ hi]; exact hp
    · rw [Holds, St.setS_other _ _ hi]; exact hp
  | .brk => fun _ => by rw [Node.den]; exact Rel.exit_inv _ _
  | .cont => fun _ => by rw [Node.den]; exact Rel.exit_inv _ _
  | .ret d q => fun _ => by rw [Node.den]; exact Rel.exit_inv _ _
theorem Seq.frame_inv (E : Env) (x : String) (v : List Int → Int) : (s : Seq) → ¬ writes s.users x → Rel.inv (Holds x v) (s.den E)
  | .nil => fun _ => by rw [Seq.den]; exact Rel.upd_inv fun _ hp => hp
  | .cons n t r => fun h => by
    rw [Seq.den]
    cases n with
    | ret d q => rw [Node.den, Rel.exit_seq _ (by simp)]; exact Rel.exit_inv _ _
    | _ =>
      simp only [Seq.users, Node.isRet, Bool.false_eq_true, if_false, writes_append, not_or] at h
      exact Rel.seq_inv (Node.frame_inv E x v _ h.1.1) (Rel.seq_inv (Rel.upd_inv fun σ hp => by
        rw [Holds, runTrans_frame E t σ x h.1.2]; exact hp) (r.frame_inv E x v h.2))
theorem Brs.frame_inv (E : Env) (x : String) (v : List Int → Int) : (b : Brs) → ¬ writes b.users x → Rel.inv (Holds x v) (b.den E)
  | .nil => fun _ => by rw [Brs.den]; exact Rel.upd_inv fun _ hp => hp
  | .cons c s r => fun h => by
    rw [Brs.den]
    simp only [Brs.users, writes_append, not_or] at h
    exact Rel.ite_inv (s.frame_inv E x v h.1) (r.frame_inv E x v h.2)
end

/-- **C48 (writes).** A container without a `WRITE` user in a node has the same contents after every terminating
execution of the node. -/
theorem users_write_complete (E : Env) (n : Node) (x : String) (h : ¬ writes n.users x) (σ : St) (c : Ctl) (σ' : St)
    (hrun : n.den E σ c σ') : σ' x = σ x := Node.frame_inv E x (σ x) n h σ c σ' rfl hrun

/-! ### read containers -/

theorem runTrans_agree (E : Env) (X : String → Prop) (t : Trans) (h : ∀ x, X x → ¬ reads (transUsers t) x) (σ τ : St)
    (hA : AgreeOff X σ τ) : AgreeOff X (runTrans E t σ) (runTrans E t τ) := by
  have h' : ∀ a ∈ t, ∀ x ∈ a.2.atoms, ¬ X x := by
    intro a ha x hx hX
    exact h x hX (by rw [transUsers, reads_append, reads_readsOf, List.mem_flatMap]; exact Or.inl ⟨a, ha, hx⟩)
  clear h
  unfold runTrans
  induction t generalizing σ τ with
  | nil => exact hA
  | cons a r ih =>
    simp only [List.foldl_cons]
    refine ih _ _ ?_ (fun b hb => h' b (List.mem_cons_of_mem _ hb))
    rw [hA.ev E (h' a (by simp))]
    exact hA.setS _ _

theorem Stmt.run_agree (E : Env) (X : String → Prop) (s : Stmt) (h : ∀ x, X x → ¬ reads s.users x) (σ τ : St)
    (hA : AgreeOff X σ τ) : AgreeOff X (s.run E σ) (s.run E τ) := by
  cases s with
  | tasklet op ins out sub =>
    simp only [Stmt.run]
    simp only [Stmt.users, reads_append, reads_readsOf] at h
    have h1 : sub.map (σ.ev E) = sub.map (τ.ev E) := by
      refine List.map_congr_left fun e he => hA.ev E fun x hx hX => ?_
      exact h x hX (Or.inl (Or.inr ((Expr.mem_atomsL x sub).2 ⟨e, he, hx⟩)))
    have h2 : (ins.map fun r => σ r.1 (r.2.map (σ.ev E))) = ins.map fun r => τ r.1 (r.2.map (τ.ev E)) := by
      refine List.map_congr_left fun r hr => ?_
      have e1 : r.2.map (σ.ev E) = r.2.map (τ.ev E) := by
        refine List.map_congr_left fun e he => hA.ev E fun x hx hX => ?_
        exact h x hX (Or.inl (Or.inl (Or.inr (List.mem_flatMap.2 ⟨r, hr, (Expr.mem_atomsL x r.2).2 ⟨e, he, hx⟩⟩))))
      have e2 : σ r.1 = τ r.1 := hA _ fun hX =>
        h r.1 hX (Or.inl (Or.inl (Or.inl (List.mem_map.2 ⟨r, hr, rfl⟩))))
      rw [e1, e2]
    rw [h1, h2]
    exact hA.set _ _ _
  | lib op rs ws =>
    simp only [Stmt.run]
    simp only [Stmt.users, reads_append, reads_readsOf] at h
    have : rs.map σ = rs.map τ := List.map_congr_left fun r hr => hA _ fun hX => h r hX (Or.inl hr)
    rw [this]
    exact hA.setMany _ _

theorem runBlock_agree (E : Env) (X : String → Prop) (l : List Stmt) (h : ∀ x, X x → ¬ reads (l.flatMap Stmt.users) x)
    (σ τ : St) (hA : AgreeOff X σ τ) : AgreeOff X (runBlock E l σ) (runBlock E l τ) := by
  unfold runBlock
  induction l generalizing σ τ with
  | nil => exact hA
  | cons s r ih =>
    simp only [List.flatMap_cons, reads_append, not_or] at h
    exact ih (fun x hx => (h x hx).2) _ _ (Stmt.run_agree E X s (fun x hx => (h x hx).1) _ _ hA)

mutual
theorem Node.agree_sim (E : Env) (X : String → Prop) : (n : Node) → (∀ x, X x → ¬ reads n.users x) →
    Rel.sim (AgreeOff X) (n.den E) (n.den E)
  | .block l => fun h => by
    rw [Node.den]
    simp only [Node.users] at h
    exact Rel.upd_sim fun σ τ hA => runBlock_agree E X l h σ τ hA
  | .seq s => fun h => by rw [Node.den]; exact s.agree_sim E X (by simpa only [Node.users] using h)
  | .ifElse b => fun h => by
    rw [Node.den]
    simp only [Node.users, reads_append, reads_readsOf, not_or] at h
    exact b.agree_sim E X (fun x hx => (h x hx).1) (fun x hx => (h x hx).2)
  | .whileL s => fun h => by
    rw [Node.den]
    exact Rel.forever_sim (s.agree_sim E X (by simpa only [Node.users] using h))
  | .loop m i a c u s => fun h => by
    rw [Node.den]
    simp only [Node.users, reads_append, reads_readsOf, not_or] at h
    refine Rel.seq_sim (Rel.upd_sim fun σ τ hA => ?_) (Rel.iter_sim (fun σ τ hA => ?_) (fun σ τ hA => ?_)
      (s.agree_sim E X fun x hx => (h x hx).1.1.2))
    · rw [hA.ev E fun x hx hX => (h x hX).1.1.1.1.1 hx]; exact hA.setS _ _
    · exact hA.cond E fun x hx hX => (h x hX).1.1.1.2 hx
    · rw [hA.ev E fun x hx hX => (h x hX).1.2 hx]; exact hA.setS _ _
  | .brk => fun _ => by rw [Node.den]; exact Rel.exit_sim _ _
  | .cont => fun _ => by rw [Node.den]; exact Rel.exit_sim _ _
  | .ret d q => fun _ => by rw [Node.den]; exact Rel.exit_sim _ _
theorem Seq.agree_sim (E : Env) (X : String → Prop) : (s : Seq) → (∀ x, X x → ¬ reads s.users x) →
    Rel.sim (AgreeOff X) (s.den E) (s.den E)
  | .nil => fun _ => by rw [Seq.den]; exact Rel.upd_sim fun _ _ h => h
  | .cons n t r => fun h => by
    rw [Seq.den]
    cases n with
    | ret d q => rw [Node.den, Rel.exit_seq _ (by simp)]; exact Rel.exit_sim _ _
    | _ =>
      simp only [Seq.users, Node.isRet, Bool.false_eq_true, if_false, reads_append, not_or] at h
      exact Rel.seq_sim (Node.agree_sim E X _ fun x hx => (h x hx).1.1) (Rel.seq_sim (Rel.upd_sim fun σ τ hA =>
        runTrans_agree E X t (fun x hx => (h x hx).1.2) σ τ hA) (r.agree_sim E X fun x hx => (h x hx).2))
theorem Brs.agree_sim (E : Env) (X : String → Prop) : (b : Brs) → (∀ x, X x → x ∉ b.condAtoms) →
    (∀ x, X x → ¬ reads b.users x) → Rel.sim (AgreeOff X) (b.den E) (b.den E)
  | .nil => fun _ _ => by rw [Brs.den]; exact Rel.upd_sim fun _ _ h => h
  | .cons c s r => fun hc h => by
    rw [Brs.den]
    simp only [Brs.users, reads_append, not_or] at h
    simp only [Brs.condAtoms, List.mem_append, not_or] at hc
    exact Rel.ite_sim (fun σ τ hA => hA.cond E fun x hx hX => (hc x hX).1 hx)
      (s.agree_sim E X fun x hx => (h x hx).1) (r.agree_sim E X (fun x hx => (hc x hx).2) fun x hx => (h x hx).2)
end

mutual
theorem Node.ret_read (E : Env) (d : String) (hd : d ≠ "") : (n : Node) → ∀ σ σ', n.den E σ (.ret d false) σ' → reads n.users d
  | .block l => by intro σ σ' h; rw [Node.den] at h; simp [Rel.upd] at h
  | .seq s => by intro σ σ' h; rw [Node.den] at h; rw [Node.users]; exact Seq.ret_read E d hd s σ σ' h
  | .ifElse b => by
    intro σ σ' h; rw [Node.den] at h; rw [Node.users, reads_append]; exact Or.inr (Brs.ret_read E d hd b σ σ' h)
  | .whileL s => by
    intro σ σ' h; rw [Node.den] at h; rw [Node.users]
    have hs := Seq.ret_read E d hd s
    generalize hc : Ctl.ret d false = c at h
    induction h with
    | step k h1 h2 _ ih => exact ih hc
    | stop h1 => cases hc
    | ret d' q h1 => cases hc; exact hs _ _ h1
  | .loop m i a c u s => by
    intro σ σ' h; rw [Node.den, Rel.upd_seq] at h
    simp only [Node.users, reads_append]
    have hs := Seq.ret_read E d hd s
    refine Or.inl (Or.inl (Or.inr ?_))
    generalize hc : Ctl.ret d false = c' at h
    generalize σ.setS i (σ.ev E a) = σ0 at h
    induction h with
    | done _ => cases hc
    | step k _ h1 h2 _ ih => exact ih hc
    | stop _ h1 => cases hc
    | ret d' q _ h1 => cases hc; exact hs _ _ h1
  | .brk => by intro σ σ' h; rw [Node.den] at h; simp [Rel.exit] at h
  | .cont => by intro σ σ' h; rw [Node.den] at h; simp [Rel.exit] at h
  | .ret d' q => by
    intro σ σ' h; rw [Node.den] at h
    simp only [Rel.exit, Ctl.ret.injEq] at h
    obtain ⟨⟨rfl, rfl⟩, _⟩ := h
    simp [Node.users, hd, reads]
theorem Seq.ret_read (E : Env) (d : String) (hd : d ≠ "") : (s : Seq) → ∀ σ σ', s.den E σ (.ret d false) σ' → reads s.users d
  | .nil => by intro σ σ' h; rw [Seq.den] at h; simp [Rel.upd] at h
  | .cons n t r => by
    intro σ σ' h
    rw [Seq.den, Rel.upd_seq] at h
    have hn := Node.ret_read E d hd n
    have hr := Seq.ret_read E d hd r
    have key : reads n.users d ∨ ((∀ d' q, n ≠ .ret d' q) ∧ reads r.users d) := by
      rcases h with ⟨σ1, h1, h2⟩ | ⟨_, h1⟩
      · refine Or.inr ⟨?_, hr _ _ h2⟩
        rintro d' q rfl
        simp [Node.den, Rel.exit] at h1
      · exact Or.inl (hn _ _ h1)
    cases n with
    | ret d' q =>
      rcases key with h | ⟨h, _⟩
      · simpa only [Seq.users, Node.isRet, if_true] using h
      · exact absurd rfl (h d' q)
    | _ =>
      simp only [Seq.users, Node.isRet, Bool.false_eq_true, if_false, reads_append]
      rcases key with h | ⟨_, h⟩
      · exact Or.inl (Or.inl h)
      · exact Or.inr h
theorem Brs.ret_read (E : Env) (d : String) (hd : d ≠ "") : (b : Brs) → ∀ σ σ', b.den E σ (.ret d false) σ' → reads b.users d
  | .nil => by intro σ σ' h; rw [Brs.den] at h; simp [Rel.upd] at h
  | .cons c s r => by
    intro σ σ' h
    rw [Brs.den] at h
    simp only [Rel.ite] at h
    simp only [Brs.users, reads_append]
    split at h
    · exact Or.inl (Seq.ret_read E d hd s _ _ h)
    · exact Or.inr (Brs.ret_read E d hd r _ _ h)
end

/-- A returned container has a `READ` user. -/
theorem users_return_read (E : Env) (n : Node) (σ σ' : St) (d : String) (hd : d ≠ "") (h : n.den E σ (.ret d false) σ') :
    reads n.users d := n.ret_read E d hd σ σ' h

/-- **C48 (reads).** Containers without a `READ` user do not influence an execution: if two memories agree on every
container except some that have no `READ` user in the node, then every terminating execution from the first has a counterpart
from the second with the same outcome, agreeing on the same containers; a returned container is among those that agree. -/
theorem users_read_complete (E : Env) (n : Node) (X : String → Prop) (hX : ∀ x, X x → ¬ reads n.users x)
    (σ τ : St) (hA : ∀ x, ¬ X x → σ x = τ x) (c : Ctl) (σ' : St) (hrun : n.den E σ c σ') :
    ∃ τ', n.den E τ c τ' ∧ (∀ x, ¬ X x → σ' x = τ' x) ∧ (∀ d, d ≠ "" → c = .ret d false → σ' d = τ' d) := by
  obtain ⟨τ', h1, h2⟩ := Node.agree_sim E X n hX σ τ c σ' hA hrun
  refine ⟨τ', h1, h2, ?_⟩
  rintro d hd rfl
  exact h2 d fun hx => hX d hx (users_return_read E n σ σ' d hd hrun)

/-! ### the hypotheses are met by a loop that copies an array -/

/-- `for (i = 0; i < n; i = i + 1) A[i] = B[i]; k = n; return A;` followed by dead code -/
def exCopy : Node := .seq (.cons (.loop false "i" (.int 0) (.lt (.sym "i") (.sym "n")) (.add [.sym "i", .int 1])
    (.one (.block [.tasklet "assign" [("B", [.sym "i"])] "A" [.sym "i"]]))) [("k", .sym "n")]
  (.cons (.ret "A" false) [("dead", .sym "d")] (.one (.block [.lib "memset" ["d"] ["B"]]))))

/-- concrete operations -/
def exEnv : Env := ⟨fun _ _ => 0, fun _ l => l.sum, fun _ _ _ _ => 0, 0⟩

example : ¬ writes exCopy.users "B" ∧ ¬ writes exCopy.users "n" ∧ writes exCopy.users "A" ∧ writes exCopy.users "i" := by decide
example : ¬ reads exCopy.users "A" → False := by decide
example : ¬ reads exCopy.users "dead" ∧ ¬ reads exCopy.users "k" ∧ ¬ reads exCopy.users "d" ∧ reads exCopy.users "B" := by decide
/-- the loop runs and returns -/
example : ∃ σ', exCopy.den exEnv (fun x _ => if x = "n" then 2 else if x = "B" then 7 else 0) (.ret "A" false) σ' ∧
    σ' "A" [0] = 7 ∧ σ' "A" [1] = 7 ∧ σ' "A" [2] = 0 ∧ σ' "k" [] = 2 :=
  ⟨_, (run_sound exEnv 20).1 _ _ _ _ rfl, by decide⟩

/-! ### completeness of an if-else -/

theorem foldl_mkOr_eval (O : OrEngine) (hO : O.Sound) (v : Leaf) (l : List Cond) (a : Cond) :
    (l.foldl O.mkOr a).eval v = (a.eval v || l.any fun c => c.eval v) := by
  induction l generalizing a with
  | nil => simp
  | cons b r ih => rw [List.foldl_cons, ih, hO v a b, List.any_cons, Bool.or_assoc]

/-- **C49.** If `is_complete` answers true, in every valuation some case condition is true. -/
theorem isComplete_sound (O : OrEngine) (hO : O.Sound) (b : Brs) (h : b.isComplete O = some true) (v : Leaf) :
    ∃ c ∈ b.conds, c.eval v = true := by
  unfold Brs.isComplete at h
  split at h
  · simp at h
  · rename_i f hf
    simp only [Option.some.injEq, List.all_eq_true] at h
    have h1 := cnf_sound _ f hf v
    have h2 : f.eval v = true := by
      simp only [CNF.eval, List.all_eq_true]
      intro cl hcl
      have e := isTT_eq (h cl hcl)
      have := foldl_mkOr_eval O hO v cl .ff
      rw [e] at this
      simpa [Cond.eval] using this.symm
    rw [h2, foldl_mkOr_eval O hO] at h1
    have h3 := h1.symm
    simp only [Cond.eval, Bool.false_or, List.any_eq_true] at h3
    exact h3

/-- an engine that recognises `true` and complementary operands -/
def exOr : OrEngine := ⟨fun a b => if a.isFF then b else if b.isFF then a else if a.isTT || b.isTT || a.neg = b then .tt
  else .or [a, b]⟩

theorem exOr_sound : exOr.Sound := by
  intro v a b
  simp only [exOr]
  split
  · rename_i h; rw [isFF_eq h]; simp [Cond.eval]
  · split
    · rename_i h; rw [isFF_eq h]; simp [Cond.eval]
    · split
      · rename_i h
        simp only [Bool.or_eq_true, decide_eq_true_eq] at h
        rcases h with (h | h) | h
        · rw [isTT_eq h]; simp [Cond.eval]
        · rw [isTT_eq h]; simp [Cond.eval]
        · rw [← h, neg_eval]; simp [Cond.eval]
      · simp [Cond.eval, Cond.evalAny]

/-- `if (i < n) ... else if (n <= i) ...` is recognised as complete; without the second case it is not. -/
example : (Brs.cons (.lt (.sym "i") (.sym "n")) .nil (.cons (.le (.sym "n") (.sym "i")) .nil .nil)).isComplete exOr = some true ∧
    (Brs.cons (.lt (.sym "i") (.sym "n")) .nil .nil).isComplete exOr = some false := by
  constructor <;> simp [Brs.isComplete, Brs.conds, exOr, Cond.isFF, Cond.isTT, Cond.neg, cnf]

end Docc.IR
