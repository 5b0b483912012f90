import Verif.IR.HoistThm
import Verif.IR.XferViol

/-
Blocks taken out of maps and if-elses: examples, and programs that the pass changes.
-/
namespace Docc.IR
open Docc.Sym

/-- a library node gives the contents of its first input, or zeros -/
def exEnvH : Env := ⟨fun _ _ => 0, fun _ l => l.sum, fun _ _ r j => match r with | s :: _ => s j | [] => 0, 0⟩

/-- `if (k) … else …` is complete -/
def exCompl : Brs → Bool
  | .cons (.atom x) _ (.cons (.not (.atom y)) _ .nil) => x == y
  | _ => false

theorem exCompl_sound (E : Env) : CompleteSound E exCompl := by
  intro b h σ
  unfold exCompl at h
  split at h
  · rename_i x s y r
    have e : x = y := by simpa using h
    subst e
    cases hk : σ.cond E (.atom x) with
    | true => exact ⟨_, by simp [Brs.conds], hk⟩
    | false =>
      refine ⟨.not (.atom x), by simp [Brs.conds], ?_⟩
      simp only [St.cond, Cond.eval] at hk ⊢
      rw [hk]; rfl
  · cases h

/-- the library nodes of the examples -/
def exHoist : HoistEnv := ⟨fun op => if op = "memset" then .memset else if op = "memcpy" then .memcpy else if op = "d2h" then .offload false true false true
  else .other, exCompl⟩

/-- `memset(x, 0)` -/
def exZero (x : String) : Stmt := .lib "memset" [] [x]
/-- `memcpy(y, x)` -/
def exCpy (x y : String) : Stmt := .lib "memcpy" [x] [y]
/-- `y = x` for scalars -/
def exHMov (x y : String) : Node := .block [.tasklet "assign" [(x, [])] y []]

/-- `map i = 0; i < n; i += 1` -/
def exMapH (s : Seq) : Node := .loop true "i" (.int 0) (.lt (.sym "i") (.sym "n")) (.add [.sym "i", .int 1]) s
/-- `if (k) s else r` -/
def exIfK (s r : Seq) : Node := .ifElse (.cons (.atom "k") s (.cons (.not (.atom "k")) r .nil))

/-- `n` iterations; `one = 1`, `two = 2`, `A = 3`, `s = 4`, `k` as given -/
def exHs (n k : Int) : St := fun x _ => if x = "n" then n else if x = "k" then k else if x = "one" then 1 else if x = "two" then 2 else if x = "A" then 3
  else if x = "s" then 4 else if x = "dB" then 5 else 0

/-- the loop of the example has an iteration -/
theorem exHs_one : ((exHs 2 1).setS "i" ((exHs 2 1).ev exEnvH (.int 0))).cond exEnvH (.lt (.sym "i") (.sym "n")) = true := by decide

/-- `hoist_map_front_partial` applies to `map { A = zeros; C[i] = one }` -/
example (c : Ctl) (σ' : St) : (Seq.cons (.block [exZero "A"]) [] (.one (exMapH (.one (.block [.tasklet "assign" [("one", [])] "C" [.sym "i"]]))))).den exEnvH (exHs 2 1) c σ' ↔
    (Seq.one (exMapH (.cons (.block [exZero "A"]) [] (.one (.block [.tasklet "assign" [("one", [])] "C" [.sym "i"]]))))).den exEnvH (exHs 2 1) c σ' :=
  hoist_map_front_partial (H := exHoist) (by rfl) (fun y _ => by simp [exZero, lib_reads]) (by simp [exZero, lib_reads, lib_writes]) (fun y hy => by
      simp [exZero, lib_writes] at hy; subst hy; decide) (fun y hy => by
      have : y = "A" := by simpa [exZero, lib_writes, lib_reads] using hy
      subst this
      simp [writes, Seq.one, Seq.users, Node.users, Stmt.users, readsOf, transUsers]) [] .nil exHs_one c σ'

/-- `hoist_map_back_partial` applies to `map { C[i] = one; A = zeros }` -/
example (c : Ctl) (σ' : St) : (Seq.cons (exMapH (.one (.block [.tasklet "assign" [("one", [])] "C" [.sym "i"]]))) [] (.one (.block [exZero "A"]))).den exEnvH (exHs 2 1) c σ' ↔
    (Seq.one (exMapH (.cons (.block [.tasklet "assign" [("one", [])] "C" [.sym "i"]]) [] (.one (.block [exZero "A"]))))).den exEnvH (exHs 2 1) c σ' :=
  hoist_map_back_partial (H := exHoist) (by rfl) (by decide) (by decide) (by decide) (fun y hy => by
      simp only [List.mem_singleton] at hy
      subst hy
      simp [reads, Seq.one, Seq.users, Node.users, Stmt.users, readsOf, transUsers, Expr.atoms, Expr.atomsL])
    (fun σ c σ' h => by
      simp only [Seq.one, Seq.den, Node.den, Rel.upd_seq] at h
      exact h.1) (TransApart.nil _) .nil exHs_one c σ'

/-- `hoist_if_partial` applies to `if (k) { A = zeros; x = one; B = s } else { A = zeros; x = two; B = s }` -/
example (c : Ctl) (σ' : St) : (Seq.cons (.block [exZero "A"]) [] (.cons (exIfK (.one (exHMov "one" "x")) (.one (exHMov "two" "x"))) [] (.one (.block [exCpy "s" "B"])))).den exEnvH (exHs 2 1) c σ' ↔
    (Seq.one (exIfK (.cons (.block [exZero "A"]) [] (.cons (exHMov "one" "x") [] (.one (.block [exCpy "s" "B"]))))
      (.cons (.block [exZero "A"]) [] (.cons (exHMov "two" "x") [] (.one (.block [exCpy "s" "B"])))))).den exEnvH (exHs 2 1) c σ' := by
  have hf : exHoist.frontIf (.cons (.atom "k") (.cons (.block [exZero "A"]) [] (.cons (exHMov "one" "x") [] (.one (.block [exCpy "s" "B"]))))
      (.cons (.not (.atom "k")) (.cons (.block [exZero "A"]) [] (.cons (exHMov "two" "x") [] (.one (.block [exCpy "s" "B"])))) .nil)) =
      some ([exZero "A"], .cons (.atom "k") (.cons (exHMov "one" "x") [] (.one (.block [exCpy "s" "B"])))
        (.cons (.not (.atom "k")) (.cons (exHMov "two" "x") [] (.one (.block [exCpy "s" "B"]))) .nil)) := by rfl
  have hloc : ∀ l ∈ [[exZero "A"], [exCpy "s" "B"]], exHoist.Local l := by
    intro l hl op r w hm p q u v
    simp only [List.mem_cons, List.not_mem_nil, or_false] at hl
    rcases hl with rfl | rfl
    · simp only [List.mem_singleton, exZero, Stmt.lib.injEq] at hm
      obtain ⟨rfl, _⟩ := hm; simp [exHoist]
    · simp only [List.mem_singleton, exCpy, Stmt.lib.injEq] at hm
      obtain ⟨rfl, _⟩ := hm; simp [exHoist]
  have hback : ∀ l b', exHoist.backIf (.cons (.atom "k") (.cons (.block [exZero "A"]) [] (.cons (exHMov "one" "x") [] (.one (.block [exCpy "s" "B"]))))
      (.cons (.not (.atom "k")) (.cons (.block [exZero "A"]) [] (.cons (exHMov "two" "x") [] (.one (.block [exCpy "s" "B"])))) .nil)) = some (b', l) → l = [exCpy "s" "B"] := by
    intro l b' h
    have h' : some (_, [exCpy "s" "B"]) = some (b', l) := h
    cases h'; rfl
  have hback2 : ∀ l b', exHoist.backIf (.cons (.atom "k") (.cons (exHMov "one" "x") [] (.one (.block [exCpy "s" "B"])))
        (.cons (.not (.atom "k")) (.cons (exHMov "two" "x") [] (.one (.block [exCpy "s" "B"]))) .nil)) = some (b', l) → l = [exCpy "s" "B"] := by
    intro l b' h
    have h' : some (_, [exCpy "s" "B"]) = some (b', l) := h
    cases h'; rfl
  refine hoist_if_partial (H := exHoist) (E := exEnvH) (b := .cons (.atom "k") (.cons (.block [exZero "A"]) [] (.cons (exHMov "one" "x") [] (.one (.block [exCpy "s" "B"]))))
      (.cons (.not (.atom "k")) (.cons (.block [exZero "A"]) [] (.cons (exHMov "two" "x") [] (.one (.block [exCpy "s" "B"])))) .nil)) (t := [])
    (exCompl_sound _) ?_ ?_ ?_ .nil _ c σ'
  · rintro op ⟨l, b', h, r, w, hm⟩
    have : l = [exZero "A"] ∨ l = [exCpy "s" "B"] := by
      rcases h with h | h | ⟨m, b2, h1, h2⟩
      · rw [hf] at h; cases h; exact .inl rfl
      · exact .inr (hback _ _ h)
      · rw [hf] at h1; cases h1; exact .inr (hback2 _ _ h2)
    exact hloc l (by rcases this with rfl | rfl <;> simp) op r w hm
  · intro l b' h
    rw [hf] at h; cases h
    decide
  · intro l b' h x hx
    exact TransApart.nil x

/-- `map { A = zeros; C[i] = one; B = s }` -/
def exBoth : Seq := .cons (.block [exZero "A"]) [] (.cons (.block [.tasklet "assign" [("one", [])] "C" [.sym "i"]]) [] (.one (.block [exCpy "s" "B"])))

/-- `hoist_map_partial` applies to it; both blocks are taken out -/
example (c : Ctl) (σ' : St) : (Seq.cons (.block [exZero "A"]) [] (.cons (exMapH (.one (.block [.tasklet "assign" [("one", [])] "C" [.sym "i"]]))) [("z", .int 1)]
      (.one (.block [exCpy "s" "B"])))).den exEnvH (exHs 2 1) c σ' ↔ (Seq.cons (exMapH exBoth) [("z", .int 1)] .nil).den exEnvH (exHs 2 1) c σ' := by
  have h1 : exHoist.frontMap "i" exBoth = some ([exZero "A"], .cons (.block [.tasklet "assign" [("one", [])] "C" [.sym "i"]]) [] (.one (.block [exCpy "s" "B"]))) := by rfl
  have h2 : exHoist.backMap "i" (.cons (.block [.tasklet "assign" [("one", [])] "C" [.sym "i"]]) [] (.one (.block [exCpy "s" "B"]))) =
      some (.one (.block [.tasklet "assign" [("one", [])] "C" [.sym "i"]]), [exCpy "s" "B"]) := by rfl
  refine hoist_map_partial (H := exHoist) (s := exBoth) (u := .add [.sym "i", .int 1]) (t := [("z", .int 1)]) ?_ ?_ .nil exHs_one c σ'
  · intro l s1 h x hx
    rw [h1] at h; cases h
    rw [List.mem_singleton] at hx; subst hx
    refine ⟨fun y _ => by simp [exZero, lib_reads], by simp [exZero, lib_reads, lib_writes], fun y hy => ?_, fun y hy => ?_⟩
    · simp only [exZero, lib_writes, List.mem_singleton] at hy; subst hy; decide
    · have : y = "A" := by simpa [exZero, lib_writes, lib_reads] using hy
      subst this
      simp [writes, Seq.one, Seq.users, Node.users, Stmt.users, readsOf, transUsers, exCpy, Node.isRet]
  · intro l s2 h x hx
    rcases h with ⟨h, _⟩ | ⟨m, s1, h, h'⟩
    · rw [h1] at h; cases h
    · rw [h1] at h; cases h
      rw [h2] at h'; cases h'
      rw [List.mem_singleton] at hx; subst hx
      refine ⟨fun y hy => ?_, by simp [exCpy, lib_writes], fun y hy => ?_, fun y hy => ?_, fun σ c σ' h => ?_, fun y hy => ?_, fun y hy => ?_⟩
      · simp only [exCpy, lib_writes, List.mem_singleton] at hy; subst hy; simp [exCpy, lib_reads]
      · simp only [exCpy, lib_writes, List.mem_singleton] at hy; subst hy; decide
      · simp only [exCpy, lib_writes, List.mem_singleton] at hy; subst hy
        simp [reads, Seq.one, Seq.users, Node.users, Stmt.users, readsOf, transUsers, Expr.atoms, Expr.atomsL]
      · simp only [Seq.one, Seq.den, Node.den, Rel.upd_seq] at h
        exact h.1
      · simp only [exCpy, lib_writes, List.mem_singleton] at hy; subst hy; simp [reads, writes, transUsers, readsOf, Expr.atoms]
      · simp only [exCpy, lib_reads, List.mem_singleton] at hy; subst hy; simp [writes, transUsers, readsOf, Expr.atoms]

/-- **C99, violated for maps without iterations**: `map i < n { memset(A) }` becomes `memset(A); map i < n { }`. -/
theorem empty_map_violated : ∃ s', exHoist.accept (exMapH (.one (.block [exZero "A"]))) [] .nil = s' ∧
    Differ exEnvH (.one (exMapH (.one (.block [exZero "A"])))) s' (exHs 0 0) "A" [] 3 0 :=
  ⟨_, rfl, differ_of 20 (by decide) (by decide)⟩

/-- **C99, violated for a container that the rest of the body changes**: `map i < 2 { memset(t); t = t + one; C[i] = t }` sets `C[1]` to 1; with the
`memset` in front of the map it becomes 2. -/
theorem reset_violated : ∃ s', exHoist.accept (exMapH (.cons (.block [exZero "t"]) [] (.cons (.block [.tasklet "add" [("t", []), ("one", [])] "t" []]) []
      (.one (.block [.tasklet "assign" [("t", [])] "C" [.sym "i"]]))))) [] .nil = s' ∧
    Differ exEnvH (.one (exMapH (.cons (.block [exZero "t"]) [] (.cons (.block [.tasklet "add" [("t", []), ("one", [])] "t" []]) []
      (.one (.block [.tasklet "assign" [("t", [])] "C" [.sym "i"]])))))) s' (exHs 2 0) "C" [1] 1 2 :=
  ⟨_, rfl, differ_of 40 (by decide) (by decide)⟩

/-- **C99, violated for conditions**: `if (k) { memcpy(k, q); x = one } else { memcpy(k, q); x = two }`: after the step the condition sees the copied
value. -/
theorem condition_violated : ∃ s', exHoist.accept (exIfK (.cons (.block [exCpy "q" "k"]) [] (.one (exHMov "one" "x")))
      (.cons (.block [exCpy "q" "k"]) [] (.one (exHMov "two" "x")))) [] .nil = s' ∧
    Differ exEnvH (.one (exIfK (.cons (.block [exCpy "q" "k"]) [] (.one (exHMov "one" "x"))) (.cons (.block [exCpy "q" "k"]) [] (.one (exHMov "two" "x")))))
      s' (exHs 0 1) "x" [] 1 2 :=
  ⟨_, rfl, differ_of 40 (by decide) (by decide)⟩

/-- **C99, violated for the assignments that follow**: `if (k) { memcpy(B, s) } else { memcpy(B, s) }` followed by `s = 9`: the block is
inserted behind the assignment. -/
theorem trans_violated : ∃ s', exHoist.accept (exIfK (.cons (exHMov "one" "x") [] (.one (.block [exCpy "s" "B"])))
      (.cons (exHMov "two" "x") [] (.one (.block [exCpy "s" "B"])))) [("s", .int 9)] .nil = s' ∧
    Differ exEnvH (.cons (exIfK (.cons (exHMov "one" "x") [] (.one (.block [exCpy "s" "B"]))) (.cons (exHMov "two" "x") [] (.one (.block [exCpy "s" "B"]))))
      [("s", .int 9)] .nil) s' (exHs 0 1) "B" [] 4 9 :=
  ⟨_, rfl, differ_of 40 (by decide) (by decide)⟩

/-- **C99, violated for the assignments behind a map** in the same way: `map i < 2 { C[i] = one; memcpy(B, s) }` followed by `s = 9`. -/
theorem map_trans_violated : ∃ s', exHoist.accept (exMapH (.cons (.block [.tasklet "assign" [("one", [])] "C" [.sym "i"]]) [] (.one (.block [exCpy "s" "B"])))) [("s", .int 9)] .nil = s' ∧
    Differ exEnvH (.cons (exMapH (.cons (.block [.tasklet "assign" [("one", [])] "C" [.sym "i"]]) [] (.one (.block [exCpy "s" "B"])))) [("s", .int 9)] .nil)
      s' (exHs 2 1) "B" [] 4 9 :=
  ⟨_, rfl, differ_of 40 (by decide) (by decide)⟩

/-- **C99, violated for transfers from different device containers**: `if (k) { x = one; d2h dA → A } else { x = two; d2h dB → A }` copies `dA` in both
cases afterwards. -/
theorem device_violated : ∃ s', exHoist.accept (exIfK (.cons (exHMov "one" "x") [] (.one (.block [.lib "d2h" ["dA"] ["A"]])))
      (.cons (exHMov "two" "x") [] (.one (.block [.lib "d2h" ["dB"] ["A"]])))) [] .nil = s' ∧
    Differ exEnvH (.one (exIfK (.cons (exHMov "one" "x") [] (.one (.block [.lib "d2h" ["dA"] ["A"]]))) (.cons (exHMov "two" "x") [] (.one (.block [.lib "d2h" ["dB"] ["A"]])))))
      s' (exHs 0 0) "A" [] 5 0 :=
  ⟨_, rfl, differ_of 40 (by decide) (by decide)⟩

end Docc.IR
