import Verif.IR.CondElim
import Verif.IR.ReplaceProps
import Verif.IR.DeadCFGProps
import Verif.IR.AgreeS

/-
C15: removing a redundant guard around a loop.
-/
namespace Docc.IR
open Docc.Sym

theorem numReads_append (a b : List User) (x : String) : numReads (a ++ b) x = numReads a x + numReads b x := by
  simp [numReads]
theorem numReads_zero {u : List User} {x : String} : numReads u x = 0 ↔ ¬ reads u x := by
  simp [numReads, reads, List.count_eq_zero]
theorem numReads_write (x y : String) : numReads [(Use.write, y)] x = 0 := by simp [numReads]

/-- how the pass treats an if-else: it only visits the branches, or the if-else guards a single loop and is removed -/
theorem CE.ifElse_cases (C : CE) (b : Brs) :
    (C.node (.ifElse b) = .ifElse (C.cases b) ∧ C.elim (.ifElse b) = C.elimB b ∧
      ∀ E, Node.guardOk E (.ifElse b) → b.guardOk E) ∨
    (∃ c m i a k u s tb, b = .cons c (.cons (.loop m i a k u s) tb .nil) .nil ∧
      C.hit c i a k (Seq.users (.cons (.loop m i a k u s) tb .nil)) = true) := by
  by_cases hb : ∃ c m i a k u s tb, b = .cons c (.cons (.loop m i a k u s) tb .nil) .nil
  · obtain ⟨c, m, i, a, k, u, s, tb, rfl⟩ := hb
    by_cases h : C.hit c i a k (Seq.users (.cons (.loop m i a k u s) tb .nil)) = true
    · exact Or.inr ⟨c, m, i, a, k, u, s, tb, rfl, h⟩
    · refine Or.inl ⟨?_, ?_, ?_⟩
      · simp [CE.node, h, CE.cases, CE.seq]
      · simp [CE.elim, h, CE.elimB, CE.elimS, Node.isRet]
      · intro E hg
        simp only [Node.guardOk] at hg
        simp [Brs.guardOk, Seq.guardOk, Node.guardOk, hg]
  · left
    refine ⟨?_, ?_, ?_⟩
    · rw [CE.node.eq_def]
      split
      case h_3 h => injection h with h; exact absurd ⟨_, _, _, _, _, _, _, _, h⟩ hb
      all_goals simp_all
    · rw [CE.elim.eq_def]
      split
      case h_3 h => injection h with h; exact absurd ⟨_, _, _, _, _, _, _, _, h⟩ hb
      all_goals simp_all
    · intro E
      rw [Node.guardOk.eq_def]
      split
      case h_3 h => injection h with h; exact absurd ⟨_, _, _, _, _, _, _, _, h⟩ hb
      all_goals simp_all

mutual
/-- every read of a variable of a removed guard is inside its node -/
theorem CE.elim_total (C : CE) (x : String) (n : Node) (h : x ∈ C.elim n) : C.total x ≤ numReads n.users x := by
  match n with
  | .block l => simp [CE.elim] at h
  | .seq s => rw [Node.users]; exact C.elimS_total x s (by simpa [CE.elim] using h)
  | .ifElse b =>
    rw [Node.users, numReads_append]
    rcases C.ifElse_cases b with ⟨_, h2, _⟩ | ⟨c, m, i, a, k, u, s, tb, hb, hh⟩
    · rw [h2] at h; have := C.elimB_total x b h; omega
    · have ih := C.elimS_total x s
      subst hb
      simp only [CE.elim, hh, if_true, List.mem_cons] at h
      rcases h with rfl | h
      · simp only [CE.hit, Bool.and_eq_true, decide_eq_true_eq] at hh
        simp only [Brs.users, List.append_nil]; omega
      · have := ih h
        simp only [Brs.users, Seq.users, Node.isRet, Node.users, numReads_append, Bool.false_eq_true, if_false] at this ⊢
        omega
  | .whileL s => rw [Node.users]; exact C.elimS_total x s (by simpa [CE.elim] using h)
  | .loop m i a k u s =>
    have := C.elimS_total x s (by simpa [CE.elim] using h)
    simp only [Node.users, numReads_append]; omega
  | .brk => simp [CE.elim] at h
  | .cont => simp [CE.elim] at h
  | .ret _ _ => simp [CE.elim] at h
termination_by n.w
decreasing_by all_goals subst_vars; simp only [Node.w, Brs.w, Seq.w]; omega
theorem CE.elimS_total (C : CE) (x : String) (s : Seq) (h : x ∈ C.elimS s) : C.total x ≤ numReads s.users x := by
  match s with
  | .nil => simp [CE.elimS] at h
  | .cons n t r =>
    rw [CE.elimS] at h
    rw [Seq.users]
    split at h
    · simp at h
    · rename_i hr
      rw [if_neg hr, numReads_append, numReads_append]
      rcases List.mem_append.1 h with h | h
      · have := C.elim_total x n h; omega
      · have := C.elimS_total x r h; omega
termination_by s.w
decreasing_by all_goals simp only [Seq.w]; omega
theorem CE.elimB_total (C : CE) (x : String) (b : Brs) (h : x ∈ C.elimB b) : C.total x ≤ numReads b.users x := by
  match b with
  | .nil => simp [CE.elimB] at h
  | .cons c s r =>
    rw [CE.elimB] at h
    rw [Brs.users, numReads_append]
    rcases List.mem_append.1 h with h | h
    · have := C.elimS_total x s h; omega
    · have := C.elimB_total x r h; omega
termination_by b.w
decreasing_by all_goals simp only [Brs.w]; omega
end


/-- reads outside a part that holds all reads -/
theorem CE.noRead {C : CE} {x : String} {u v : List User} (hT : numReads u x + numReads v x ≤ C.total x)
    (h : C.total x ≤ numReads v x) : ¬ reads u x := by
  rw [← numReads_zero]; omega

mutual
theorem CE.node_bis (E : Env) (C : CE) (hC : C.Sound) (X : String → Prop) (n : Node) (hg : n.guardOk E)
    (h1 : ∀ x ∈ C.elim n, X x) (h2 : ∀ x, X x → x ∈ C.elim n ∨ ¬ reads n.users x)
    (hT : ∀ x, numReads n.users x ≤ C.total x) : Rel.bis (AgreeS X) (n.den E) ((C.node n).den E) := by
  match n with
  | .block l =>
    rw [CE.node, Node.den]
    exact Rel.upd_bis fun σ τ hA => AgreeS.runBlock E l (fun x hx => (h2 x hx).resolve_left (by simp [CE.elim])) hA
  | .seq s =>
    simp only [CE.elim, Node.users, Node.guardOk] at h1 h2 hT hg
    rw [CE.node, Node.den, Node.den]
    exact C.seq_bis E hC X s hg h1 h2 hT
  | .ifElse b =>
    rcases C.ifElse_cases b with ⟨e1, e2, e3⟩ | ⟨c, m, i, a, k, u, s, tb, hb, hh⟩
    · rw [e2] at h1 h2
      rw [e1, Node.den, Node.den]
      simp only [Node.users, numReads_append, reads_append, reads_readsOf] at hT h2
      refine C.cases_bis E hC X b (e3 E hg) h1 (fun x hx => ?_) (fun x hx => ?_) (fun x => ?_)
      · rcases h2 x hx with h | h
        · have := C.elimB_total x b h
          have hT := hT x
          intro hm
          have : 0 < numReads (readsOf b.condAtoms) x := by
            rw [Nat.pos_iff_ne_zero]; intro h0; rw [numReads_zero, reads_readsOf] at h0; exact h0 hm
          omega
        · exact fun hm => h (Or.inl hm)
      · exact (h2 x hx).imp id fun h hm => h (Or.inr hm)
      · have := hT x; omega
    · have ih := C.seq_bis E hC (fun x => X x ∧ (x ≠ i ∨ i ∈ C.elimS s)) s
      have it := C.elimS_total
      subst hb
      simp only [Node.guardOk] at hg
      obtain ⟨rfl, ga, gd, gk, gs⟩ := hg
      simp only [CE.elim, hh, if_true, List.mem_cons, forall_eq_or_imp] at h1 h2
      obtain ⟨hXi, h1⟩ := h1
      have hhit := hh
      simp only [CE.hit, Bool.and_eq_true, decide_eq_true_eq, Nat.not_lt] at hhit
      obtain ⟨hcount, heq⟩ := hhit
      have tu : transUsers [] = [] := rfl
      simp only [Seq.users, Node.isRet, Bool.false_eq_true, if_false, tu, List.append_nil, Node.users, numReads_append,
        numReads_write] at hcount
      simp only [Node.users, Brs.users, Brs.condAtoms, Seq.users, Node.isRet, Bool.false_eq_true, if_false, tu,
        List.append_nil, numReads_append, numReads_write] at hT
      simp only [Node.users, Brs.users, Brs.condAtoms, Seq.users, Node.isRet, Bool.false_eq_true, if_false, tu,
        List.append_nil, reads_append, reads_readsOf] at h2
      have z : ∀ {l : List String} {x : String}, numReads (readsOf l) x = 0 → x ∉ l := by
        intro l x h; rwa [numReads_zero, reads_readsOf] at h
      have hc : ∀ x, X x → x ∉ c.atoms := by
        intro x hx
        rcases h2 x hx with (rfl | h) | h
        · exact z (by have := hT x; omega)
        · exact z (by have := hT x; have := it x s h; omega)
        · exact fun hm => h (Or.inl hm)
      have ha : ∀ x, X x → x ∉ a.atoms := by
        intro x hx
        rcases h2 x hx with (rfl | h) | h
        · exact ga
        · exact z (by have := hT x; have := it x s h; omega)
        · exact fun hm => h (by simp [hm])
      have hk : ∀ x, X x → x ≠ i → x ∉ k.atoms := by
        intro x hx hne
        rcases h2 x hx with (rfl | h) | h
        · exact absurd rfl hne
        · exact z (by have := hT x; have := it x s h; omega)
        · exact fun hm => h (by simp [hm])
      have hu : ∀ x, X x → x ≠ i → x ∉ u.atoms := by
        intro x hx hne
        rcases h2 x hx with (rfl | h) | h
        · exact absurd rfl hne
        · exact z (by have := hT x; have := it x s h; omega)
        · exact fun hm => h (by simp [hm])
      have hq : i ∈ C.elimS s → i ∉ k.atoms ∧ i ∉ u.atoms := fun h =>
        ⟨z (by have := hT i; have := it i s h; omega), z (by have := hT i; have := it i s h; omega)⟩
      have body := loop_bisS E X m m i a k u s (C.seq s) (i ∈ C.elimS s) (fun _ => hXi) hq ha hk hu
        (ih gs (fun x hx => ⟨h1 x hx, by
            by_cases he : x = i
            · subst he; exact Or.inr hx
            · exact Or.inl he⟩)
          (fun x hx => by
            rcases h2 x hx.1 with (rfl | h) | h
            · exact Or.inl (hx.2.resolve_left (· rfl))
            · exact Or.inl h
            · exact Or.inr fun hm => h (by simp [hm]))
          (fun x => by have := hT x; omega))
      have key : ∀ τ : St, (τ.setS i (τ.ev E a)).cond E k = τ.cond E c := by
        intro τ
        obtain ⟨n, hn⟩ := gd τ
        have hs : Subst E i a (τ.setS i (τ.ev E a)) τ := by
          refine ⟨fun z hz => St.setS_other _ _ hz, ?_⟩
          rw [St.setS_same, St.ev, hn]
        rw [hs.cond k gk]
        exact hC _ _ heq _
      simp only [CE.node, hh, if_true]
      have er : Rel.upd (runTrans E []) = Rel.upd id := rfl
      have one : ∀ n : Node, (Seq.cons n [] .nil).den E = n.den E := by
        intro n; rw [Seq.den, Seq.den, er, Rel.skip_seq, Rel.seq_skip]
      have el : (Node.ifElse (.cons c (.cons (.loop m i a k u s) [] .nil) .nil)).den E =
          Rel.ite (fun σ => σ.cond E c) ((Node.loop m i a k u s).den E) (Rel.upd id) := by
        rw [Node.den, Brs.den, one, Brs.den]
      have e2 : (Node.seq (.cons (.loop m i a k u (C.seq s)) [] .nil)).den E = (Node.loop m i a k u (C.seq s)).den E := by
        rw [Node.den, one]
      rw [el, e2]
      constructor
      · intro σ τ ct σ' hA hr
        have hcc := hA.cond E fun x hx hX => hc x hX hx
        simp only [Rel.ite] at hr
        split at hr
        · exact body.1 σ τ ct σ' hA hr
        · rename_i hf
          obtain ⟨rfl, rfl⟩ := hr
          refine ⟨τ.setS i (τ.ev E a), ?_, hA.setS_right hXi _⟩
          rw [Node.den, Rel.upd_seq]
          exact .done (by rw [key, ← hcc]; simpa using hf)
      · intro τ σ ct τ' hA hr
        have hcc := hA.cond E fun x hx hX => hc x hX hx
        by_cases hf : σ.cond E c = true
        · obtain ⟨σ', g1, g2⟩ := body.2 τ σ ct τ' hA hr
          exact ⟨σ', by simp only [Rel.ite, hf, if_true]; exact g1, g2⟩
        · rw [Node.den, Rel.upd_seq] at hr
          have hf' : (τ.setS i (τ.ev E a)).cond E k = false := by rw [key, ← hcc]; simpa using hf
          cases hr with
          | done _ =>
            exact ⟨σ, by simp only [Rel.ite, hf, if_false]; exact ⟨rfl, rfl⟩, hA.setS_right hXi _⟩
          | step _ h' _ _ _ => rw [hf'] at h'; simp at h'
          | stop h' _ => rw [hf'] at h'; simp at h'
          | ret _ _ h' _ => rw [hf'] at h'; simp at h'
  | .whileL s =>
    simp only [CE.elim, Node.users, Node.guardOk] at h1 h2 hT hg
    rw [CE.node, Node.den, Node.den]
    exact Rel.forever_bis (C.seq_bis E hC X s hg h1 h2 hT)
  | .loop m i a k u s =>
    simp only [CE.elim, Node.guardOk] at h1 h2 hg
    simp only [Node.users, numReads_append, numReads_write] at hT
    simp only [Node.users, reads_append, reads_readsOf] at h2
    have z : ∀ {l : List String} {x : String}, numReads (readsOf l) x = 0 → x ∉ l := by
      intro l x h; rwa [numReads_zero, reads_readsOf] at h
    have ha : ∀ x, X x → x ∉ a.atoms ∧ x ∉ k.atoms ∧ x ∉ u.atoms := by
      intro x hx
      rcases h2 x hx with h | h
      · have := hT x; have := C.elimS_total x s h
        exact ⟨z (by omega), z (by omega), z (by omega)⟩
      · exact ⟨fun hm => h (by simp [hm]), fun hm => h (by simp [hm]), fun hm => h (by simp [hm])⟩
    rw [CE.node]
    have ih := C.seq_bis E hC X s hg h1 (fun x hx => (h2 x hx).imp id fun h hm => h (by simp [hm]))
      (fun x => by have := hT x; omega)
    rw [Node.den, Node.den]
    refine Rel.seq_bis (Rel.upd_bis fun σ τ hA => ?_) (Rel.iter_bis (fun σ τ hA => ?_) (fun σ τ hA => ?_) ih)
    · rw [hA.ev E fun x hx hX => (ha x hX).1 hx]; exact (hA.setS _ _).mono fun x hx => hx.1
    · exact hA.cond E fun x hx hX => (ha x hX).2.1 hx
    · rw [hA.ev E fun x hx hX => (ha x hX).2.2 hx]; exact (hA.setS _ _).mono fun x hx => hx.1
  | .brk => rw [CE.node]; exact Rel.exit_bis _ _
  | .cont => rw [CE.node]; exact Rel.exit_bis _ _
  | .ret _ _ => rw [CE.node]; exact Rel.exit_bis _ _
termination_by n.w
decreasing_by all_goals subst_vars; simp only [Node.w, Brs.w, Seq.w]; omega
theorem CE.seq_bis (E : Env) (C : CE) (hC : C.Sound) (X : String → Prop) (s : Seq) (hg : s.guardOk E)
    (h1 : ∀ x ∈ C.elimS s, X x) (h2 : ∀ x, X x → x ∈ C.elimS s ∨ ¬ reads s.users x)
    (hT : ∀ x, numReads s.users x ≤ C.total x) : Rel.bis (AgreeS X) (s.den E) ((C.seq s).den E) := by
  match s with
  | .nil => rw [CE.seq]; rw [Seq.den]; exact Rel.upd_bis fun _ _ h => h
  | .cons n t r =>
    rw [CE.seq, Seq.den, Seq.den]
    by_cases hr : n.isRet = true
    · cases n <;> simp [Node.isRet] at hr
      rw [CE.node, Node.den, Rel.exit_seq _ (by simp), Rel.exit_seq _ (by simp)]; exact Rel.exit_bis _ _
    · simp only [CE.elimS, hr, Bool.false_eq_true, if_false, List.mem_append] at h1 h2
      simp only [Seq.users, hr, Bool.false_eq_true, if_false, numReads_append] at hT
      simp only [Seq.users, hr, Bool.false_eq_true, if_false, reads_append] at h2
      rw [Seq.guardOk] at hg
      refine Rel.seq_bis (C.node_bis E hC X n hg.1 (fun x hx => h1 x (Or.inl hx)) (fun x hx => ?_) (fun x => ?_))
        (Rel.seq_bis (Rel.upd_bis fun σ τ hA => AgreeS.runTrans E t (fun x hx => ?_) hA)
          (C.seq_bis E hC X r hg.2 (fun x hx => h1 x (Or.inr hx)) (fun x hx => ?_) (fun x => ?_)))
      · rcases h2 x hx with (h | h) | h
        · exact Or.inl h
        · right; rw [← numReads_zero]; have := hT x; have := C.elimS_total x r h; omega
        · exact Or.inr fun hm => h (by simp [hm])
      · have := hT x; omega
      · rcases h2 x hx with (h | h) | h
        · rw [← numReads_zero]; have := hT x; have := C.elim_total x n h; omega
        · rw [← numReads_zero]; have := hT x; have := C.elimS_total x r h; omega
        · exact fun hm => h (by simp [hm])
      · rcases h2 x hx with (h | h) | h
        · right; rw [← numReads_zero]; have := hT x; have := C.elim_total x n h; omega
        · exact Or.inl h
        · exact Or.inr fun hm => h (by simp [hm])
      · have := hT x; omega
termination_by s.w
decreasing_by all_goals simp only [Seq.w]; omega
theorem CE.cases_bis (E : Env) (C : CE) (hC : C.Sound) (X : String → Prop) (b : Brs) (hg : b.guardOk E)
    (h1 : ∀ x ∈ C.elimB b, X x) (hc : ∀ x, X x → x ∉ b.condAtoms)
    (h2 : ∀ x, X x → x ∈ C.elimB b ∨ ¬ reads b.users x)
    (hT : ∀ x, numReads b.users x ≤ C.total x) : Rel.bis (AgreeS X) (b.den E) ((C.cases b).den E) := by
  match b with
  | .nil => rw [CE.cases]; rw [Brs.den]; exact Rel.upd_bis fun _ _ h => h
  | .cons c s r =>
    simp only [CE.elimB, Brs.condAtoms, Brs.users, Brs.guardOk, List.mem_append, reads_append, numReads_append, not_or] at *
    rw [CE.cases, Brs.den, Brs.den]
    refine Rel.ite_bis (fun σ τ hA => hA.cond E fun x hx hX => (hc x hX).1 hx)
      (C.seq_bis E hC X s hg.1 (fun x hx => h1 x (Or.inl hx)) (fun x hx => ?_) (fun x => ?_))
      (C.cases_bis E hC X r hg.2 (fun x hx => h1 x (Or.inr hx)) (fun x hx => (hc x hx).2) (fun x hx => ?_) (fun x => ?_))
    · rcases h2 x hx with (h | h) | h
      · exact Or.inl h
      · right; rw [← numReads_zero]; have := hT x; have := C.elimB_total x r h; omega
      · exact Or.inr h.1
    · have := hT x; omega
    · rcases h2 x hx with (h | h) | h
      · right; rw [← numReads_zero]; have := hT x; have := C.elimS_total x s h; omega
      · exact Or.inl h
      · exact Or.inr h.2
    · have := hT x; omega
termination_by b.w
decreasing_by all_goals simp only [Brs.w]; omega
end

/-- **C15** (partial). A guard `if (c)` around a single loop is removed when `c` is the loop's condition in its first iteration and
the loop variable is read nowhere outside the branch.  For every program and memory the terminating executions before and
after the pass correspond and end in memories that differ at most in the variables of the unguarded loops, provided
nothing is assigned behind the loop inside the branch and the start value does not use the loop variable. -/
theorem condElim_preserves_partial (E : Env) (eqC : Cond → Cond → Bool) (root : Seq)
    (hC : CE.Sound ⟨eqC, numReads root.users⟩) (hg : root.guardOk E) :
    Rel.bis (AgreeS (· ∈ CE.elimS ⟨eqC, numReads root.users⟩ root)) (root.den E) ((condElim eqC root).den E) :=
  CE.seq_bis E _ hC _ root hg (fun _ h => h) (fun _ h => Or.inl h) (fun _ => Nat.le_refl _)

/-- The variables that may change are dead: nothing that follows the node in which a guard was removed reads them. -/
theorem condElim_changed_local (eqC : Cond → Cond → Bool) (post : Seq) (n : Node) (t : Trans) (x : String)
    (hn : n.isRet = false)
    (hx : x ∈ CE.elim ⟨eqC, numReads (Seq.users (.cons n t post))⟩ n) :
    ¬ reads (transUsers t) x ∧ ¬ reads post.users x := by
  have h := CE.elim_total _ x n hx
  simp only [Seq.users, hn, Bool.false_eq_true, if_false, numReads_append] at h
  constructor <;> rw [← numReads_zero] <;> omega

/-- `if (0 < N) for (i = 0; i < N; i++) A[i] := A[i] + B[i]` -/
def exGuard (tb : Trans) : Seq := .one (.ifElse (.cons (.lt (.int 0) (.sym "N"))
  (.cons (.loop false "i" (.int 0) (.lt (.sym "i") (.sym "N")) (.add [.sym "i", .int 1])
    (.one (.block [.tasklet "+" [("A", [.sym "i"]), ("B", [.sym "i"])] "A" [.sym "i"]]))) tb .nil) .nil))

/-- hypotheses of `condElim_preserves_partial` hold for a guarded loop, and the guard is removed -/
example : CE.Sound ⟨fun a b => decide (a = b), numReads (exGuard []).users⟩ ∧ (exGuard []).guardOk exEnv ∧
    CE.elimS ⟨fun a b => decide (a = b), numReads (exGuard []).users⟩ (exGuard []) = ["i"] ∧
    condElim (fun a b => decide (a = b)) (exGuard []) = .one (.seq (.one (.loop false "i" (.int 0) (.lt (.sym "i") (.sym "N"))
      (.add [.sym "i", .int 1]) (.one (.block [.tasklet "+" [("A", [.sym "i"]), ("B", [.sym "i"])] "A" [.sym "i"]]))))) := by
  refine ⟨?_, ?_, ?_, ?_⟩
  · intro a b h v; simp at h; rw [h]
  · simp [exGuard, Seq.one, Seq.guardOk, Node.guardOk, Expr.atoms, Expr.eval, Cond.boolSyms]
  · decide
  · rfl

/-- **C15 fails** when the branch assigns a symbol behind the loop: with `N = 0`,
`if (0 < N) { for (i = 0; i < N; i++) ...; x := 1 }` leaves `x` alone; the transformed program sets it. -/
theorem condElim_violated : ∃ (E : Env) (eqC : Cond → Cond → Bool) (root : Seq) (σ σ' : St),
    CE.Sound ⟨eqC, numReads root.users⟩ ∧ "x" ∉ CE.elimS ⟨eqC, numReads root.users⟩ root ∧
    root.den E σ .normal σ' ∧ ∀ c τ', (condElim eqC root).den E σ c τ' → τ' "x" [] ≠ σ' "x" [] := by
  obtain ⟨σ', h1, h2⟩ := Seq.run_obs (E := exEnv) (σ := fun _ _ => 0) 20 (x := "x") (j := []) (c := .normal) (v := 0)
    (s := exGuard [("x", .int 1)]) (by decide)
  refine ⟨exEnv, fun a b => decide (a = b), _, _, σ', ?_, by decide, h1, ?_⟩
  · intro a b h v; simp at h; rw [h]
  · intro c τ' h
    have := (Seq.run_obs_all 20 (x := "x") (j := []) (c := .normal) (v := 1) (by decide) h).2
    rw [this, h2]; decide

end Docc.IR
