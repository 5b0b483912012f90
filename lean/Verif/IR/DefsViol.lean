import Verif.IR.DefsProps

/-
DeadDataElimination: containers it removes are unused, an example, and programs it breaks.
-/
namespace Docc.IR
open Docc.Sym DefSt

/-! ### what is erased -/

/-- the writes of `x` can be erased: no loop has `x` as its variable, and library nodes that write `x` have no side effects
(dead_data_elimination.cpp:59-82) -/
def Stmt.erasable (pure : String → Bool) (x : String) : Stmt → Bool
  | .tasklet _ _ _ _ => true
  | .lib op _ ws => pure op || !decide (x ∈ ws)

mutual
/-- the same for a node -/
def Node.erasable (pure : String → Bool) (x : String) : Node → Bool
  | .block l => l.all (Stmt.erasable pure x)
  | .seq s => s.erasable pure x
  | .ifElse b => b.erasable pure x
  | .whileL s => s.erasable pure x
  | .loop _ i _ _ _ s => decide (i ≠ x) && s.erasable pure x
  | .brk => true
  | .cont => true
  | .ret _ _ => true
/-- the same for a sequence -/
def Seq.erasable (pure : String → Bool) (x : String) : Seq → Bool
  | .nil => true
  | .cons n _ r => n.erasable pure x && r.erasable pure x
/-- the same for branches -/
def Brs.erasable (pure : String → Bool) (x : String) : Brs → Bool
  | .nil => true
  | .cons _ s r => s.erasable pure x && r.erasable pure x
end

/-- every definition of `x` in `st` is in `P` -/
def AllIn (P : List Nat → String → Bool) (x : String) (st : DefSt) : Prop :=
  ∀ e ∈ st.all, e.1.cont = x → e.1.art = false → P e.1.pos x = true

theorem AllIn.anti {P : List Nat → String → Bool} {x : String} {a b : DefSt} (h : Sub a b) (hb : AllIn P x b) : AllIn P x a := by
  intro e he h1 h2
  obtain ⟨e', m, k, _⟩ := h e he
  have := hb e' m (k ▸ h1) (k ▸ h2)
  rwa [k] at this

theorem writes_mem_all (O : DefOracle) (d : Bool) : ∀ (ws : List Usr) (st : DefSt), ∀ w ∈ ws, ∃ e ∈ (ws.foldl (DefSt.write O d) st).all, e.1 = w
  | [], _, w, hw => by cases hw
  | v :: ws, st, w, hw => by
    rcases List.mem_cons.1 hw with rfl | hw
    · have h1 : ((w, []) : Def) ∈ (st.write O d w).all := List.mem_append_left _ (by simp [DefSt.write])
      obtain ⟨e, m, k, _⟩ := (foldl_le (write_le O d) ws (st.write O d w)).1 _ h1
      exact ⟨e, m, k⟩
    · exact writes_mem_all O d ws (st.write O d v) w hw

theorem eraseBlock_assigned (O : DefOracle) (pure : String → Bool) {P : List Nat → String → Bool} {x : String} (pos : List Nat) :
    ∀ (l : List Stmt) (k : Nat) (st : DefSt), AllIn P x (defsBlock O pos k l st) → l.all (Stmt.erasable pure x) = true →
      ∀ s ∈ eraseBlock pure P pos k l, x ∉ (s.writeUsrs []).map (·.cont)
  | [], _, _, _, _, s, hs => by simp [eraseBlock] at hs
  | s0 :: l, k, st, hA, hE, s, hs => by
    rw [defsBlock] at hA
    simp only [List.all_cons, Bool.and_eq_true] at hE
    have hrec := eraseBlock_assigned O pure (P := P) (x := x) pos l (k + 1) _ hA hE.2
    rw [eraseBlock] at hs
    split at hs
    · rename_i hk
      rcases List.mem_cons.1 hs with rfl | hs
      · intro hx
        have hA1 := hA.anti (block_le O pos l (k + 1) _).1
        obtain ⟨w0, hw0, rfl⟩ := List.mem_map.1 hx
        -- the definition opened by the statement
        have hdef : ∃ w ∈ s.writeUsrs (pos ++ [k]), w.cont = w0.cont := by
          cases s with
          | tasklet op ins out sub =>
            simp only [Stmt.writeUsrs, List.mem_singleton] at hw0 ⊢
            exact ⟨_, rfl, by rw [hw0]⟩
          | lib op rs ws =>
            simp only [Stmt.writeUsrs, List.mem_map] at hw0 ⊢
            obtain ⟨y, hy, rfl⟩ := hw0
            exact ⟨_, ⟨y, hy, rfl⟩, rfl⟩
        obtain ⟨w, hw, hwc⟩ := hdef
        obtain ⟨h1, _, h3⟩ := writeUsrs_spec hw
        obtain ⟨e, m, he⟩ := writes_mem_all O false _ ((s.readUsrs (pos ++ [k])).foldl (DefSt.read O) st) w hw
        have hP := hA1 e m (by rw [he, hwc]) (by rw [he, h3])
        rw [he, h1] at hP
        cases s with
        | tasklet op ins out sub =>
          simp only [Stmt.writeUsrs, List.mem_singleton] at hw0
          subst hw0
          simp only [Stmt.keep] at hk
          simp only at hP
          rw [hP] at hk
          cases hk
        | lib op rs ws =>
          simp only [Stmt.writeUsrs, List.mem_map] at hw0
          obtain ⟨y, hy, rfl⟩ := hw0
          simp only at hP
          have hp : pure op = true := by simpa [Stmt.erasable, hy] using hE.1
          have : ws.any (P (pos ++ [k])) = true := List.any_eq_true.2 ⟨y, hy, hP⟩
          simp [Stmt.keep, hp, this] at hk
      · exact hrec s hs
    · exact hrec s hs

mutual
/-- If every definition of `x` is in `P` and erasable, no write of `x` stays. -/
theorem Node.erased (O : DefOracle) (pure : String → Bool) {P : List Nat → String → Bool} {x : String} : (n : Node) → (pos : List Nat) →
    (st : DefSt) → AllIn P x (n.defs O pos st) → n.erasable pure x = true → x ∉ (n.eraseDefs pure P pos).assigned
  | .block l, pos, st, hA, hE => by
    rw [Node.defs] at hA
    rw [Node.erasable] at hE
    rw [Node.eraseDefs, Node.assigned]
    intro h
    obtain ⟨s, hs, hx⟩ := List.mem_flatMap.1 h
    exact eraseBlock_assigned O pure pos l 0 st hA hE s hs hx
  | .seq s, pos, st, hA, hE => by
    rw [Node.defs] at hA
    rw [Node.erasable] at hE
    rw [Node.eraseDefs, Node.assigned]
    exact s.erased O pure pos 0 st hA hE
  | .ifElse b, pos, st, hA, hE => by
    rw [Node.defs] at hA
    rw [Node.erasable] at hE
    rw [Node.eraseDefs, Node.assigned]
    exact b.erased O pure pos 0 (fun d hd => hA.anti (if_sub hd)) hE
  | .whileL s, pos, st, hA, hE => by
    rw [Node.defs] at hA
    rw [Node.erasable] at hE
    rw [Node.eraseDefs, Node.assigned]
    exact s.erased O pure (pos ++ [0]) 0 {} (hA.anti (while_sub _ st)) hE
  | .loop m i a c u s, pos, st, hA, hE => by
    rw [Node.defs] at hA
    simp only [Node.erasable, Bool.and_eq_true, decide_eq_true_eq] at hE
    rw [Node.eraseDefs, Node.assigned]
    intro h
    rcases List.mem_cons.1 h with h | h
    · exact hE.1 h.symm
    · exact s.erased O pure (pos ++ [0]) 0 {} ((hA.anti (for_sub O i u _ _)).anti (foldl_le (read_isRead O).le _ _).1) hE.2 h
  | .brk, pos, st, _, _ => by rw [Node.eraseDefs, Node.assigned]; simp
  | .cont, pos, st, _, _ => by rw [Node.eraseDefs, Node.assigned]; simp
  | .ret d q, pos, st, _, _ => by rw [Node.eraseDefs, Node.assigned]; simp
theorem Seq.erased (O : DefOracle) (pure : String → Bool) {P : List Nat → String → Bool} {x : String} : (s : Seq) → (pos : List Nat) →
    (k : Nat) → (st : DefSt) → AllIn P x (s.defs O pos k st) → s.erasable pure x = true → x ∉ (s.eraseDefs pure P pos k).assigned
  | .nil, pos, k, st, _, _ => by rw [Seq.eraseDefs, Seq.assigned]; simp
  | .cons n t r, pos, k, st, hA, hE => by
    rw [Seq.defs] at hA
    simp only [Seq.erasable, Bool.and_eq_true] at hE
    rw [Seq.eraseDefs, Seq.assigned]
    have hAt := hA.anti (r.defs_le O pos (k + 1) _).1
    intro h
    simp only [List.mem_append] at h
    rcases h with (h | h) | h
    · exact n.erased O pure (pos ++ [2 * k]) st (hAt.anti (trans_le O _ t _).1) hE.1 h
    · obtain ⟨a, ha, rfl⟩ := List.mem_map.1 h
      rw [List.mem_filter] at ha
      unfold defsTrans at hAt
      obtain ⟨e, m, he⟩ := writes_mem_all O true (t.map fun a => (⟨pos ++ [2 * k + 1], a.1, [], false, false⟩ : Usr))
        ((symUsrs (pos ++ [2 * k + 1]) (t.flatMap fun a => a.2.atoms)).foldl DefSt.readName (n.defs O (pos ++ [2 * k]) st))
        ⟨pos ++ [2 * k + 1], a.1, [], false, false⟩ (List.mem_map.2 ⟨a, ha.1, rfl⟩)
      have := hAt e m (by rw [he]) (by rw [he])
      rw [he] at this
      simp only at this
      rw [this] at ha
      exact absurd ha.2 (by simp)
    · exact r.erased O pure pos (k + 1) _ hA hE.2 h
theorem Brs.erased (O : DefOracle) (pure : String → Bool) {P : List Nat → String → Bool} {x : String} : (b : Brs) → (pos : List Nat) →
    (k : Nat) → (∀ d ∈ b.defs O pos k, AllIn P x d) → b.erasable pure x = true → x ∉ (b.eraseDefs pure P pos k).assigned
  | .nil, pos, k, _, _ => by rw [Brs.eraseDefs, Brs.assigned]; simp
  | .cons c s r, pos, k, hA, hE => by
    simp only [Brs.erasable, Bool.and_eq_true] at hE
    rw [Brs.eraseDefs, Brs.assigned]
    intro h
    rw [Brs.defs] at hA
    rcases List.mem_append.1 h with h | h
    · exact s.erased O pure (pos ++ [k]) 0 {} (hA _ List.mem_cons_self) hE.1 h
    · exact r.erased O pure pos (k + 1) (fun d hd => hA d (List.mem_cons_of_mem _ hd)) hE.2 h
end

/-- **A container whose definitions are all dead is not written any more** when it is removed (dead_data_elimination.cpp:84-92): if no reads are
recorded for any definition of `x`, and no definition is a loop variable or the output of a library node with side effects, the result has no
write of `x`.  (In particular the pass does erase what it finds dead.) -/
theorem dead_container_unwritten (O : DefOracle) (pure : String → Bool) (xs : List String) (p : Seq) (x : String) (hx : x ∈ xs)
    (hdead : ∀ e ∈ definitions O p, e.1.cont = x → e.1.art = false → e.2 = []) (hE : p.erasable pure x = true) :
    x ∉ (deadData O pure xs p).assigned := by
  refine p.erased O pure [] 0 {} (fun e he h1 h2 => ?_) hE
  have hm : e ∈ definitions O p := by
    rcases List.mem_append.1 he with h | h
    · exact List.mem_append_right _ h
    · exact List.mem_append_left _ h
  simp only [hx, decide_true, Bool.true_and, noReads, Bool.and_eq_true, List.any_eq_true, List.all_eq_true]
  refine ⟨⟨e, hm, by simp [h1, h2]⟩, fun e' hm' => ?_⟩
  by_cases hc : e'.1.cont = x ∧ e'.1.art = false
  · simp [hdead e' hm' hc.1 hc.2]
  · by_cases h3 : e'.1.cont = x
    · have h4 : e'.1.art = true := by
        cases h : e'.1.art with
        | false => exact absurd ⟨h3, h⟩ hc
        | true => rfl
      simp [h4]
    · simp [h3]

/-! ### an example -/

/-- An oracle: `T` and `B` are arrays, the post-dominance test never succeeds, an if-else with two opposite conditions is complete, in the
default mode. -/
def exDefO : DefOracle where
  scalar x := !decide (x ∈ ["T", "B"])
  disjoint _ _ := false
  subset _ _ := false
  meets _ _ _ := true
  postdom _ _ := false
  dom _ _ := false
  mono _ _ := false
  complete b := match b.conds with | [.lt a c, .le d e] => decide (d = c ∧ e = a) | _ => false
  order l := l

/-- copy the scalar `y` -/
def exMov (x y : String) : Node := .block [.tasklet "assign" [(y, [])] x []]

theorem exDefO_complete (E : Env) (b : Brs) (h : exDefO.complete b = true) (σ : St) : ∃ c ∈ b.conds, σ.cond E c = true := by
  simp only [exDefO] at h
  split at h
  · rename_i a c d e hb
    simp only [decide_eq_true_eq] at h
    obtain ⟨rfl, rfl⟩ := h
    rw [hb]
    by_cases hl : σ.ev E e < σ.ev E d
    · exact ⟨_, List.mem_cons_self, by simp [St.cond, Cond.eval, hl]⟩
    · exact ⟨.le d e, by simp, by simp [St.cond, Cond.eval]; omega⟩
  · cases h

/-- `x = a; if (k < m) x = b; else { x = a; x = b; } for (i = 0; i < n; i++) { t = x; B[i] = t; } t = a; return x;` -/
def exDead : Seq :=
  .cons (exMov "x" "a") [] (.cons (.ifElse (.cons (.lt (.sym "k") (.sym "m")) (.one (exMov "x" "b"))
    (.cons (.le (.sym "m") (.sym "k")) (.cons (exMov "x" "a") [] (.one (exMov "x" "b"))) .nil))) []
  (.cons (.loop false "i" (.int 0) (.lt (.sym "i") (.sym "n")) (.add [.sym "i", .int 1])
    (.cons (exMov "t" "x") [] (.one (.block [.tasklet "assign" [("t", [])] "B" [.sym "i"]])))) []
  (.cons (exMov "t" "a") [] (.one (.ret "x" false)))))

/-- the hypotheses of `dead_data_elimination_partial` hold for the example, and three writes are erased -/
example : (∀ x ∈ ["x", "t"], exDefO.scalar x = true) ∧ (∀ q ∈ exDead.bodies [] 0, exDefO.Skips q) ∧
    (∀ x ∈ ["x", "t"], exDead.tidy exDefO x [] 0 false = true) ∧
    deadData exDefO (fun _ => false) ["x", "t"] exDead =
      .cons (.block []) [] (.cons (.ifElse (.cons (.lt (.sym "k") (.sym "m")) (.one (exMov "x" "b"))
        (.cons (.le (.sym "m") (.sym "k")) (.cons (.block []) [] (.one (exMov "x" "b"))) .nil))) []
      (.cons (.loop false "i" (.int 0) (.lt (.sym "i") (.sym "n")) (.add [.sym "i", .int 1])
        (.cons (exMov "t" "x") [] (.one (.block [.tasklet "assign" [("t", [])] "B" [.sym "i"]])))) []
      (.cons (.block []) [] (.one (.ret "x" false))))) := by
  refine ⟨by decide, fun _ _ _ _ _ _ => rfl, by decide, rfl⟩

/-- `dead_container_unwritten` applies to `t = a; u = b;` -/
example : "t" ∉ (deadData exDefO (fun _ => false) ["t"] (.cons (exMov "t" "a") [] (.one (exMov "u" "b")))).assigned :=
  dead_container_unwritten exDefO _ _ _ _ (by decide) (by decide) (by decide)

/-! ### programs it breaks -/

/-- From `σ` the program `p` runs to the end, and the program made by the pass does not leave the same value in element `j` of `y`. -/
def DdeWrong (E : Env) (pure : String → Bool) (xs : List String) (p : Seq) (σ : St) (y : String) (j : List Int) : Prop :=
  y ∉ xs ∧ ∃ σ', p.den E σ .normal σ' ∧ ∀ c τ', (deadData exDefO pure xs p).den E σ c τ' → σ' y j ≠ τ' y j

theorem DdeWrong.of {E : Env} {pure : String → Bool} {xs : List String} {p : Seq} {σ : St} {y : String} {j : List Int} (v w : Int)
    (hy : y ∉ xs) (h1 : (p.run E 60 σ).map (fun r => (r.1, r.2 y j)) = some (.normal, v))
    (h2 : ((deadData exDefO pure xs p).run E 60 σ).map (fun r => (r.1, r.2 y j)) = some (.normal, w)) (hne : v ≠ w) :
    DdeWrong E pure xs p σ y j := by
  obtain ⟨σ', a, b⟩ := Seq.run_obs 60 h1
  exact ⟨hy, σ', a, fun c τ' h => by rw [b, (Seq.run_obs_all 60 h2 h).2]; exact hne⟩

/-- the state with `one = 1`, `two = 2`, everything else 0 -/
def exOneTwo : St := fun x _ => if x = "one" then 1 else if x = "two" then 2 else 0

/-- store the scalar `y` in `B[0]` -/
def exStore (y : String) : Node := .block [.tasklet "assign" [(y, [])] "B" [.int 0]]

/-- a loop from 0 to below `n` -/
def exUpTo (i : String) (n : Expr) (s : Seq) : Node := .loop false i (.int 0) (.lt (.sym i) n) (.add [.sym i, .int 1]) s

/-- **C64 fails** with `break`: in `while (1) { x = 1; if (k < 1) break; x = 2; k = k - 1; } B[0] = x` the second write closes the first, which
the code after the loop reads if the loop is left in between. -/
theorem dead_break_violated : DdeWrong exEnv (fun _ => false) ["x"]
    (.cons (.whileL (.cons (exMov "x" "one") [] (.cons (.ifElse (.cons (.lt (.sym "k") (.int 1)) (.one .brk) .nil)) []
      (.cons (exMov "x" "two") [("k", .add [.sym "k", .int (-1)])] .nil)))) [] (.one (exStore "x"))) exOneTwo "B" [0] :=
  DdeWrong.of 1 0 (by decide) (by decide) (by decide) (by decide)

/-- **C64 fails** for a loop that may not run: in `x = 1; for (i = 0; i < 1; i++) { for (j = 0; j < m; j++) x = 2; B[0] = x; }` the read in the
outer loop is attributed to the inner write only. -/
theorem dead_zero_trip_violated : DdeWrong exEnv (fun _ => false) ["x"]
    (.cons (exMov "x" "one") [] (.one (exUpTo "i" (.int 1) (.cons (exUpTo "j" (.sym "m") (.one (exMov "x" "two"))) [] (.one (exStore "x"))))))
    exOneTwo "B" [0] :=
  DdeWrong.of 1 0 (by decide) (by decide) (by decide) (by decide)

/-- **C64 fails** for conditional writes before a transition: in `x = 1; for (i = 0; i < 1; i++) { if (1 <= m) x = 2; y = x; } B[0] = y` the read
of the transition is attributed to the conditional write only. -/
theorem dead_conditional_violated : DdeWrong exEnv (fun _ => false) ["x"]
    (.cons (exMov "x" "one") [] (.cons (exUpTo "i" (.int 1) (.cons (.ifElse (.cons (.le (.int 1) (.sym "m")) (.one (exMov "x" "two")) .nil))
      [("y", .sym "x")] .nil)) [] (.one (exStore "y")))) exOneTwo "B" [0] :=
  DdeWrong.of 1 0 (by decide) (by decide) (by decide) (by decide)

/-- **C64 fails** when the condition of a loop reads a scalar written in the body: `x = 2; for (i = 0; i < x; i++) { B[i] = 1; x = 1; }` runs
once; without the inner write it runs twice. -/
theorem dead_condition_violated : DdeWrong exEnv (fun _ => false) ["x"]
    (.cons (exMov "x" "two") [] (.one (exUpTo "i" (.sym "x") (.cons (.block [.tasklet "assign" [("one", [])] "B" [.sym "i"]]) []
      (.one (exMov "x" "one")))))) exOneTwo "B" [1] :=
  DdeWrong.of 0 1 (by decide) (by decide) (by decide) (by decide)

/-- **C64 fails** for arrays: in `T[1] = 1; for (i = 0; i < 1; i++) { T[0] = 2; B[0] = T[1]; }` the read is attributed to the write of `T[0]` in
the loop, and not to the one before it. -/
theorem dead_array_violated : DdeWrong exEnv (fun _ => false) ["T"]
    (.cons (.block [.tasklet "assign" [("one", [])] "T" [.int 1]]) [] (.one (exUpTo "i" (.int 1)
      (.cons (.block [.tasklet "assign" [("two", [])] "T" [.int 0]]) [] (.one (.block [.tasklet "assign" [("T", [.int 1])] "B" [.int 0]]))))))
    exOneTwo "B" [0] :=
  DdeWrong.of 1 0 (by decide) (by decide) (by decide) (by decide)

/-- **C64 fails** for arrays written in all branches: `T[5] = 1; if (k < 1) T[0] = 1; else T[1] = 1; B[0] = T[5]`: the if-else closes all earlier
definitions of the array. -/
theorem dead_branches_violated : DdeWrong exEnv (fun _ => false) ["T"]
    (.cons (.block [.tasklet "assign" [("one", [])] "T" [.int 5]]) [] (.cons (.ifElse
      (.cons (.lt (.sym "k") (.int 1)) (.one (.block [.tasklet "assign" [("one", [])] "T" [.int 0]]))
        (.cons (.le (.int 1) (.sym "k")) (.one (.block [.tasklet "assign" [("one", [])] "T" [.int 1]])) .nil))) []
      (.one (.block [.tasklet "assign" [("T", [.int 5])] "B" [.int 0]])))) exOneTwo "B" [0] :=
  DdeWrong.of 1 0 (by decide) (by decide) (by decide) (by decide)

/-- **C64 fails** for a branch that writes only in a loop: `x = 1; if (k < 1) { for (j = 0; j < m; j++) x = 2; } else x = 2; B[0] = x`. -/
theorem dead_branch_loop_violated : DdeWrong exEnv (fun _ => false) ["x"]
    (.cons (exMov "x" "one") [] (.cons (.ifElse (.cons (.lt (.sym "k") (.int 1)) (.one (exUpTo "j" (.sym "m") (.one (exMov "x" "two"))))
        (.cons (.le (.int 1) (.sym "k")) (.one (exMov "x" "two")) .nil))) [] (.one (exStore "x")))) exOneTwo "B" [0] :=
  DdeWrong.of 1 0 (by decide) (by decide) (by decide) (by decide)

/-- operations where library nodes write 1 -/
def exLibEnv : Env := ⟨fun _ _ => 0, fun _ l => l.sum, fun _ _ _ _ => 1, 0⟩

/-- **C64 fails** for a library node with two outputs, of which only one is dead. -/
theorem dead_library_violated : DdeWrong exLibEnv (fun _ => true) ["x"]
    (.cons (.block [.lib "divmod" ["one", "two"] ["x", "y"]]) [] (.one (exStore "y"))) exOneTwo "B" [0] :=
  DdeWrong.of 1 0 (by decide) (by decide) (by decide) (by decide)

end Docc.IR
