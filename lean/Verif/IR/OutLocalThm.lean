import Verif.IR.OutLocalArray

/-! C92: what OutLocalStorage accepts and what is then preserved. -/
namespace Docc.IR
open Docc.Sym

/-- all subsets of all users are the first one -/
theorem sameSubsets_all {accs : List (List (List Expr))} (h : sameSubsets accs = true)
    (h1 : accs.length = 1 → ∀ v ∈ accs.headD [], v = firstSubset accs) : ∀ v ∈ accs.flatten, v = firstSubset accs := by
  cases accs with
  | nil => simp
  | cons a r =>
    intro v hv
    obtain ⟨b, hb, hv'⟩ := List.mem_flatten.1 hv
    cases r with
    | nil =>
      simp only [List.mem_singleton] at hb
      subst hb
      exact h1 rfl v hv'
    | cons c r =>
      simp only [sameSubsets, Bool.or_eq_true, List.all_eq_true] at h
      rcases h with h | h
      · simp at h
      · have := h b hb
        simp only [Bool.and_eq_true, List.all_eq_true] at this
        have := this.2 v hv'
        simpa [firstSubset] using this

theorem firstSubset_mem {accs : List (List (List Expr))} {y : String} (hy : y ∈ Expr.atomsL (firstSubset accs)) : firstSubset accs ∈ accs.headD [] := by
  unfold firstSubset at hy ⊢
  cases h : accs.headD [] with
  | nil => rw [h] at hy; simp [Expr.atomsL] at hy
  | cons a r => simp

theorem subsetsStable_first {body : Seq} {accs : List (List (List Expr))} (h : subsetsStable body accs = true) (hr : body.returns = false) :
    ∀ y ∈ Expr.atomsL (firstSubset accs), y ∉ body.written := by
  intro y hy hw
  have hm := firstSubset_mem hy
  simp only [subsetsStable, List.all_eq_true] at h
  have := h _ hm y hy
  have hu : (Use.write, y) ∈ body.users := body.written_users y hr hw
  simp [hu] at this

/-- The checks of OutLocalStorage, and what they do not check.  `accs`: for every access node of `C` in the body, the subsets of its edges. -/
structure OlsAccepted (C M : String) (i : String) (a : Expr) (cc : Cond) (u : Expr) (body : Seq) (t : Trans) (accs : List (List (List Expr))) : Prop where
  /-- `can_be_applied` -/
  ok : olsOk i a cc body accs = true
  /-- `accs` are all accesses -/
  all : ∀ v ∈ body.places C, v ∈ accs.flatten
  /-- not checked: the edges of a single access node -/
  single : accs.length = 1 → ∀ v ∈ accs.headD [], v = firstSubset accs
  /-- not checked: the loop header does not use the elements of an array -/
  header : ∀ v ∈ symSub C (i :: (a.atoms ++ cc.atoms ++ u.atoms)), v = firstSubset accs
  /-- no library node of the body accesses the container -/
  libs : C ∉ body.libs
  /-- the container does not index itself -/
  self : C ∉ Expr.atomsL (firstSubset accs)
  /-- not checked: the body does not return -/
  stay : body.returns = false
  /-- the local container is new -/
  new : C ≠ M ∧ M ∉ (Node.loop false i a cc u body).names ∧ M ∉ Expr.atomsL (firstSubset accs) ∧ M ∉ t.map (·.1) ++ t.flatMap (fun a => a.2.atoms)
  /-- not checked: the transition of the loop neither uses the container nor assigns a symbol of its index -/
  after : C ∉ t.map (·.1) ++ t.flatMap (fun a => a.2.atoms) ∧ ∀ y ∈ Expr.atomsL (firstSubset accs), y ∉ t.map (·.1)

/-- **C92** (partial): OutLocalStorage with a scalar: if the loop is accepted, and in addition does not return, and its transition does not use the container, then the
loop with the local scalar, between the two copies, has the same outcomes and leaves the same content in every container except the local one. -/
theorem out_local_scalar_partial {E : Env} {C M i : String} {m : Bool} {a : Expr} {cc : Cond} {u : Expr} {body : Seq} {t : Trans}
    {accs : List (List (List Expr))} (hop : ∀ v, E.op "assign" [v] = v) (hA : OlsAccepted C M i a cc u body t accs) (hn : needsArray i accs = false) :
    Rel.bis (fun σ τ => ∀ z, z ≠ M → σ z = τ z) ((Seq.cons (.loop m i a cc u body) t .nil).den E)
      ((olsScalar C M (firstSubset accs) (.loop m i a cc u body) t).den E) := by
  have hok := hA.ok
  simp only [olsOk, Bool.and_eq_true] at hok
  have hall := sameSubsets_all hok.1.1.2 hA.single
  have hst := subsetsStable_first hok.1.2 hA.stay
  refine scalar_storage hop hA.new.1 (fun v hv => ?_) hA.libs (fun y hy => ?_) hA.self hA.stay hA.new.2.1 hA.new.2.2.1 hA.after.1 hA.new.2.2.2 hA.after.2
  · rw [Node.places, List.mem_append] at hv
    exact hv.elim (hA.header v) fun hv => hall v (hA.all v hv)
  · rw [List.mem_cons, not_or]
    refine ⟨fun e => ?_, hst y hy⟩
    have : needsArray i accs = true := by
      rw [needsArray, List.any_eq_true]
      exact ⟨_, firstSubset_mem hy, by simpa using e ▸ hy⟩
    rw [hn] at this
    cases this

/-- **C92** (partial): OutLocalStorage with an array: if in addition the header is not changed by the body or the transition, and different iterations access different
elements, then the loop with the local array, between the two copy loops, has the same outcomes and leaves the same content in every container except the local array
and the variable of the copy loops. -/
theorem out_local_array_partial {E : Env} {C M j i : String} {m : Bool} {a : Expr} {cc : Cond} {u : Expr} {body : Seq} {t : Trans}
    {accs : List (List (List Expr))} (hop : ∀ v, E.op "assign" [v] = v) (hA : OlsAccepted C M i a cc u body t accs) (hn : needsArray i accs = true)
    (hj : j ≠ C ∧ j ≠ M ∧ j ∉ (Node.loop false i a cc u body).names ∧ j ∉ Expr.atomsL (firstSubset accs) ∧ j ∉ t.map (·.1) ++ t.flatMap (fun a => a.2.atoms))
    (hh : ∀ y ∈ a.atoms ++ cc.atoms ++ u.atoms, y ∉ body.written ∧ (y ≠ i → y ∉ t.map (·.1))) (hia : i ∉ a.atoms)
    {σ τ : St} {vs : List Int} {e : Int} (hI : Iters E i cc u σ (σ.ev E a) vs e)
    (hinj : ∀ v ∈ vs, ∀ w ∈ vs, (firstSubset accs).map ((σ.setS i v).ev E) = (firstSubset accs).map ((σ.setS i w).ev E) → v = w)
    (h : ∀ z, z ≠ M → z ≠ j → σ z = τ z) :
    Rel.BisAt (fun σ τ => ∀ z, z ≠ M → z ≠ j → σ z = τ z) ((Seq.cons (.loop m i a cc u body) t .nil).den E)
      ((olsArray C M j (firstSubset accs) m i a cc u body t).den E) σ τ := by
  have hok := hA.ok
  simp only [olsOk, Bool.and_eq_true] at hok
  have hall := sameSubsets_all hok.1.1.2 hA.single
  have hst := subsetsStable_first hok.1.2 hA.stay
  have his : i ∈ Expr.atomsL (firstSubset accs) := by
    rw [needsArray, List.any_eq_true] at hn
    obtain ⟨v, hv, hi⟩ := hn
    have hne : accs ≠ [] := fun e => by rw [e] at hv; simp at hv
    have : v ∈ accs.flatten := by
      cases accs with
      | nil => exact absurd rfl hne
      | cons b r => exact List.mem_flatten.2 ⟨b, by simp, hv⟩
    rw [← hall v this]
    simpa using hi
  have hCh : C ∉ a.atoms ++ cc.atoms ++ u.atoms := by
    intro hc
    have := hA.header [] (symSub_mem (List.mem_cons_of_mem _ hc))
    rw [← this] at his
    simp [Expr.atomsL] at his
  have ht1 := hA.after.1
  have ht2 := hA.new.2.2.2
  have ht3 := hj.2.2.2.2
  simp only [List.mem_append, not_or] at ht1 ht2 ht3
  refine array_storage hop hA.new.1 hj.1.symm hj.2.1.symm (fun v hv => hall v (hA.all v hv)) hA.libs (fun y hy => ?_) hia his hA.self hCh hA.stay hA.new.2.1
    hj.2.2.1 hA.new.2.2.1 hj.2.2.2.1 ?_ (fun y hy hyi => ?_) hinj hI h
  · rw [List.mem_append] at hy
    exact hy.elim (fun hy => (hh y hy).1) (hst y)
  · rintro z (rfl | rfl | rfl)
    · exact ht1
    · exact ht2
    · exact ht3
  · rw [List.mem_append] at hy
    exact hy.elim (fun hy => (hh y hy).2 hyi) (hA.after.2 y)

/-! ### the size of the array -/

/-- the conjuncts of a condition -/
def _root_.Docc.Sym.Cond.conj : Cond → List Cond
  | .and l => l
  | c => [c]

theorem andCount_lt {i : String} {init : Expr} {n : Int} : ∀ (l : List Cond), (∀ x, Cond.lt x (.sym i) ∉ l) → andCount i init l = some n →
    ∃ b a, init = .int a ∧ Cond.lt (.sym i) (.int b) ∈ l ∧ n = b - a
  | [], _, h => by simp [andCount] at h
  | .lt x y :: r, hl, h => by
    simp only [andCount, Option.or_eq_some_iff] at h
    rcases h with h | ⟨_, h⟩
    · simp only [ltBound] at h
      split at h
      · rename_i e
        simp only [Option.bind_some, intRange] at h
        split at h
        · rename_i b a
          exact ⟨b, a, rfl, by rw [e]; simp, by simpa using h.symm⟩
        · cases h
      · split at h
        · rename_i e
          exact absurd (by rw [e]; simp) (hl x)
        · simp at h
    · obtain ⟨b, a, h1, h2, h3⟩ := andCount_lt r (fun x hx => hl x (by simp [hx])) h
      exact ⟨b, a, h1, by simp [h2], h3⟩
  | .tt :: r, _, h => by simp [andCount] at h
  | .ff :: r, _, h => by simp [andCount] at h
  | .atom _ :: r, _, h => by simp [andCount] at h
  | .eq _ _ :: r, _, h => by simp [andCount] at h
  | .ne _ _ :: r, _, h => by simp [andCount] at h
  | .le _ _ :: r, _, h => by simp [andCount] at h
  | .eqB _ _ :: r, _, h => by simp [andCount] at h
  | .neB _ _ :: r, _, h => by simp [andCount] at h
  | .not _ :: r, _, h => by simp [andCount] at h
  | .and _ :: r, _, h => by simp [andCount] at h
  | .or _ :: r, _, h => by simp [andCount] at h

theorem iterationCount_lt {i : String} {init : Expr} {c : Cond} {n : Int} (hl : ∀ x, Cond.lt x (.sym i) ∉ c.conj) (h : iterationCount i init c = some n) :
    ∃ b a, init = .int a ∧ Cond.lt (.sym i) (.int b) ∈ c.conj ∧ n = b - a := by
  cases c with
  | and l => exact andCount_lt l hl h
  | lt x y =>
    have : andCount i init [.lt x y] = some n := by
      simp only [iterationCount] at h
      simp only [andCount, h, Option.or_none]
    exact andCount_lt [.lt x y] hl this
  | _ => simp [iterationCount] at h

theorem cond_conj {E : Env} {σ : St} {c d : Cond} (hd : d ∈ c.conj) (h : σ.cond E c = true) : σ.cond E d = true := by
  cases c with
  | and l =>
    simp only [Docc.Sym.Cond.conj] at hd
    simp only [St.cond, Cond.eval] at h ⊢
    have : ∀ (l : List Cond), Cond.evalAll ⟨fun e => σ.ev E e, fun x => σ x [] != 0⟩ l = true → ∀ d ∈ l, d.eval ⟨fun e => σ.ev E e, fun x => σ x [] != 0⟩ = true := by
      intro l
      induction l with
      | nil => simp
      | cons c l ih =>
        intro h d hd
        simp only [Cond.evalAll, Bool.and_eq_true] at h
        rcases List.mem_cons.1 hd with rfl | hd
        · exact h.1
        · exact ih h.2 d hd
    exact this l h d hd
  | _ => simp only [Docc.Sym.Cond.conj, List.mem_singleton] at hd; rw [hd]; exact h

/-- **C92** (partial): the local array is large enough if the loop starts at 0 with an upper bound and counts upwards: all iterations are indices of an array with the computed
number of elements. -/
theorem local_array_bounds_partial {E : Env} {i : String} {cc : Cond} {u : Expr} {σ : St} {vs : List Int} {e n : Int}
    (hn : iterationCount i (.int 0) cc = some n) (hl : ∀ x, Cond.lt x (.sym i) ∉ cc.conj) (hu : ∀ v, v ≤ (σ.setS i v).ev E u)
    (hI : Iters E i cc u σ (σ.ev E (.int 0)) vs e) : ∀ v ∈ vs, 0 ≤ v ∧ v < n := by
  obtain ⟨b, a, h1, h2, h3⟩ := iterationCount_lt hl hn
  obtain rfl : (0 : Int) = a := by simpa using h1
  have hlo : ∀ {w vs e}, Iters E i cc u σ w vs e → 0 ≤ w → ∀ v ∈ vs, 0 ≤ v := by
    intro w vs e h
    induction h with
    | done => intro _ v hv; simp at hv
    | @step w vs e hc _ ih =>
      intro hw v hv
      rcases List.mem_cons.1 hv with rfl | hv
      · exact hw
      · exact ih (Int.le_trans hw (hu w)) v hv
  have h0 : σ.ev E (.int 0) = 0 := St.ev_of_eval rfl
  rw [h0] at hI
  refine fun v hv => ⟨hlo hI (Int.le_refl _) v hv, ?_⟩
  have := cond_conj h2 (hI.conds.1 v hv)
  have hb : (σ.setS i v).ev E (.int b) = b := St.ev_of_eval rfl
  simp only [St.cond, Cond.eval, St.ev_sym, St.setS_same, hb, decide_eq_true_eq] at this
  omega

/-! ### examples -/

/-- `for (i = a; i < n; i = i + 1) body` -/
def exOls (a n : Int) (body : Seq) : Node := .loop false "i" (.int a) (exLt "i" n) (exInc "i") body
/-- `A[s] = A[s] + B[i]` -/
def exAcc (s : List Expr) : Seq := .one (.block [.tasklet "add" [("A", s), ("B", [.sym "i"])] "A" s])

/-- a sum over `B` in `A[0]`: accepted, with a scalar -/
theorem exOls_sum : OlsAccepted "A" "M" "i" (.int 0) (exLt "i" 2) (exInc "i") (exAcc [.int 0]) [] [[[.int 0]], [[.int 0]]] ∧ needsArray "i" [[[.int 0]], [[.int 0]]] = false := by
  refine ⟨⟨by decide, by decide, by decide, by decide, by decide, by decide, by decide, by decide, by decide⟩, by decide⟩
/-- so the transformed program computes the same -/
example : Rel.bis (fun σ τ => ∀ z, z ≠ "M" → σ z = τ z) ((Seq.cons (exOls 0 2 (exAcc [.int 0])) [] .nil).den exEnv)
    ((olsScalar "A" "M" [.int 0] (exOls 0 2 (exAcc [.int 0])) []).den exEnv) :=
  out_local_scalar_partial (accs := [[[.int 0]], [[.int 0]]]) (fun v => by simp [exEnv]) exOls_sum.1 exOls_sum.2
/-- and it computes the sum -/
example : ∃ σ', (olsScalar "A" "M" [.int 0] (exOls 0 2 (exAcc [.int 0])) []).den exEnv (fun x _ => if x = "A" then 1 else if x = "B" then 5 else 0) .normal σ' ∧ σ' "A" [0] = 11 :=
  Seq.run_obs (E := exEnv) 60 (by decide)

/-- an element-wise sum: accepted, with an array -/
theorem exOls_elem : OlsAccepted "A" "M" "i" (.int 0) (exLt "i" 2) (exInc "i") (exAcc [.sym "i"]) [] [[[.sym "i"]], [[.sym "i"]]] ∧ needsArray "i" [[[.sym "i"]], [[.sym "i"]]] = true := by
  refine ⟨⟨by decide, by decide, by decide, by decide, by decide, by decide, by decide, by decide, by decide⟩, by decide⟩
example (σ : St) : Rel.BisAt (fun σ τ => ∀ z, z ≠ "M" → z ≠ "j" → σ z = τ z) ((Seq.cons (exOls 0 2 (exAcc [.sym "i"])) [] .nil).den exEnv)
    ((olsArray "A" "M" "j" [.sym "i"] false "i" (.int 0) (exLt "i" 2) (exInc "i") (exAcc [.sym "i"]) []).den exEnv) σ σ :=
  out_local_array_partial (accs := [[[.sym "i"]], [[.sym "i"]]]) (fun v => by simp [exEnv]) exOls_elem.1 exOls_elem.2 (by decide) (by decide) (by decide) (exIters "i" σ)
    (fun v _ w _ h => by simpa only [firstSubset, List.headD, List.map_cons, List.map_nil, St.ev_sym, St.setS_same, List.cons.injEq, and_true] using h) fun _ _ _ => rfl
example : ∃ σ', (olsArray "A" "M" "j" [.sym "i"] false "i" (.int 0) (exLt "i" 2) (exInc "i") (exAcc [.sym "i"]) []).den exEnv
    (fun x l => if x = "A" then 1 else if x = "B" ∧ l = [1] then 5 else 0) .normal σ' ∧ σ' "A" [1] = 6 :=
  Seq.run_obs (E := exEnv) 60 (by decide)
example (σ : St) : ∀ v ∈ [(0 : Int), 1], 0 ≤ v ∧ v < 2 :=
  local_array_bounds_partial (E := exEnv) (i := "i") (cc := exLt "i" 2) (u := exInc "i") (by decide) (fun x => by simp [Docc.Sym.Cond.conj, exLt])
    (fun v => by
      have : (σ.setS "i" v).ev exEnv (exInc "i") = v + 1 := St.ev_of_eval (eval_add2 (by simp [Expr.eval, St.val, St.setS_same]) rfl)
      rw [this]; omega) (exIters "i" σ)

/-! ### what goes wrong -/

/-- `B = A[0] + A[1]` with one access node of `A` -/
def exTwoPl : Seq := .one (.block [.tasklet "add" [("A", [.int 0]), ("A", [.int 1])] "B" []])

/-- **C92** (violated): one access node with two different subsets is accepted: the subsets are compared between users only.  Both accesses become the local scalar. -/
theorem out_local_one_user : olsOk "i" (.int 0) (exLt "i" 2) exTwoPl [[[.int 0], [.int 1]]] = true ∧ needsArray "i" [[[.int 0], [.int 1]]] = false ∧
    ∃ σ σ' τ', (Seq.cons (exOls 0 2 exTwoPl) [] .nil).den exEnv σ .normal σ' ∧ (olsScalar "A" "M" [.int 0] (exOls 0 2 exTwoPl) []).den exEnv σ .normal τ' ∧
      σ' "B" [] ≠ τ' "B" [] := by
  refine ⟨by decide, by decide, fun x l => if x = "A" ∧ l = [1] then 5 else if x = "A" then 1 else 0, ?_⟩
  obtain ⟨σ', h1, h2⟩ := Seq.run_obs (E := exEnv) (s := Seq.cons (exOls 0 2 exTwoPl) [] .nil) (σ := fun x l => if x = "A" ∧ l = [1] then 5 else if x = "A" then 1 else 0)
    (c := .normal) (x := "B") (j := []) (v := 6) 60 (by decide)
  obtain ⟨τ', h3, h4⟩ := Seq.run_obs (E := exEnv) (s := olsScalar "A" "M" [.int 0] (exOls 0 2 exTwoPl) []) (σ := fun x l => if x = "A" ∧ l = [1] then 5 else if x = "A" then 1 else 0)
    (c := .normal) (x := "B") (j := []) (v := 2) 60 (by decide)
  exact ⟨σ', τ', h1, h3, by rw [h2, h4]; decide⟩

/-- **C92** (violated): the copy back runs after the transition of the loop.  If this changes the index, another element is overwritten: `A[k]` in a loop, then `k = 1`. -/
theorem out_local_transition : olsOk "i" (.int 0) (exLt "i" 2) (exAcc [.sym "k"]) [[[.sym "k"]], [[.sym "k"]]] = true ∧
    ∃ σ σ' τ', (Seq.cons (exOls 0 2 (exAcc [.sym "k"])) [("k", .int 1)] .nil).den exEnv σ .normal σ' ∧
      (olsScalar "A" "M" [.sym "k"] (exOls 0 2 (exAcc [.sym "k"])) [("k", .int 1)]).den exEnv σ .normal τ' ∧ σ' "A" [0] ≠ τ' "A" [0] := by
  refine ⟨by decide, fun x _ => if x = "B" then 5 else 0, ?_⟩
  obtain ⟨σ', h1, h2⟩ := Seq.run_obs (E := exEnv) (s := Seq.cons (exOls 0 2 (exAcc [.sym "k"])) [("k", .int 1)] .nil) (σ := fun x _ => if x = "B" then 5 else 0)
    (c := .normal) (x := "A") (j := [0]) (v := 10) 60 (by decide)
  obtain ⟨τ', h3, h4⟩ := Seq.run_obs (E := exEnv) (s := olsScalar "A" "M" [.sym "k"] (exOls 0 2 (exAcc [.sym "k"])) [("k", .int 1)]) (σ := fun x _ => if x = "B" then 5 else 0)
    (c := .normal) (x := "A") (j := [0]) (v := 0) 60 (by decide)
  exact ⟨σ', τ', h1, h3, by rw [h2, h4]; decide⟩

/-- `A[0] = A[0] + B[i]; return A` -/
def exRetBody : Seq := .cons (.block [.tasklet "add" [("A", [.int 0]), ("B", [.sym "i"])] "A" [.int 0]]) [] (.one (.ret "B" false))

/-- **C92** (violated): a `Return` in the loop leaves without the copy back. -/
theorem out_local_return : olsOk "i" (.int 0) (exLt "i" 2) exRetBody [[[.int 0]], [[.int 0]]] = true ∧
    ∃ σ σ' τ', (Seq.cons (exOls 0 2 exRetBody) [] .nil).den exEnv σ (.ret "B" false) σ' ∧
      (olsScalar "A" "M" [.int 0] (exOls 0 2 exRetBody) []).den exEnv σ (.ret "B" false) τ' ∧ σ' "A" [0] ≠ τ' "A" [0] := by
  refine ⟨by decide, fun x _ => if x = "B" then 5 else 0, ?_⟩
  obtain ⟨σ', h1, h2⟩ := Seq.run_obs (E := exEnv) (s := Seq.cons (exOls 0 2 exRetBody) [] .nil) (σ := fun x _ => if x = "B" then 5 else 0)
    (c := .ret "B" false) (x := "A") (j := [0]) (v := 5) 60 (by decide)
  obtain ⟨τ', h3, h4⟩ := Seq.run_obs (E := exEnv) (s := olsScalar "A" "M" [.int 0] (exOls 0 2 exRetBody) []) (σ := fun x _ => if x = "B" then 5 else 0)
    (c := .ret "B" false) (x := "A") (j := [0]) (v := 0) 60 (by decide)
  exact ⟨σ', τ', h1, h3, by rw [h2, h4]; decide⟩

/-- `max(i, 1)` -/
def exMaxI : Expr := .max [.sym "i", .int 1]

/-- **C92** (violated): iterations that access the same element: each works on its own copy, the last one wins. -/
theorem out_local_same_element : olsOk "i" (.int 0) (exLt "i" 2) (exAcc [exMaxI]) [[[exMaxI]], [[exMaxI]]] = true ∧ needsArray "i" [[[exMaxI]], [[exMaxI]]] = true ∧
    ∃ σ σ' τ', (Seq.cons (exOls 0 2 (exAcc [exMaxI])) [] .nil).den exEnv σ .normal σ' ∧
      (olsArray "A" "M" "j" [exMaxI] false "i" (.int 0) (exLt "i" 2) (exInc "i") (exAcc [exMaxI]) []).den exEnv σ .normal τ' ∧ σ' "A" [1] ≠ τ' "A" [1] := by
  refine ⟨by decide, by decide, fun x _ => if x = "B" then 5 else 0, ?_⟩
  obtain ⟨σ', h1, h2⟩ := Seq.run_obs (E := exEnv) (s := Seq.cons (exOls 0 2 (exAcc [exMaxI])) [] .nil) (σ := fun x _ => if x = "B" then 5 else 0)
    (c := .normal) (x := "A") (j := [1]) (v := 10) 60 (by decide)
  obtain ⟨τ', h3, h4⟩ := Seq.run_obs (E := exEnv) (s := olsArray "A" "M" "j" [exMaxI] false "i" (.int 0) (exLt "i" 2) (exInc "i") (exAcc [exMaxI]) [])
    (σ := fun x _ => if x = "B" then 5 else 0) (c := .normal) (x := "A") (j := [1]) (v := 5) 60 (by decide)
  exact ⟨σ', τ', h1, h3, by rw [h2, h4]; decide⟩

/-- the iterations from 5 -/
theorem exIters5 (σ : St) : Iters exEnv "i" (exLt "i" 7) (exInc "i") σ (σ.ev exEnv (.int 5)) [5, 6] 7 := by
  have hc : ∀ v : Int, (σ.setS "i" v).cond exEnv (exLt "i" 7) = decide (v < 7) := by
    intro v
    have h1 : (σ.setS "i" v).ev exEnv (.sym "i") = v := St.ev_of_eval (by simp [Expr.eval, St.val, St.setS_same])
    have h2 : (σ.setS "i" v).ev exEnv (.int 7) = 7 := St.ev_of_eval rfl
    simp [St.cond, exLt, Cond.eval, h1, h2]
  have hu : ∀ v : Int, (σ.setS "i" v).ev exEnv (exInc "i") = v + 1 := fun v =>
    St.ev_of_eval (eval_add2 (by simp [Expr.eval, St.val, St.setS_same]) rfl)
  have h0 : σ.ev exEnv (.int 5) = 5 := St.ev_of_eval rfl
  rw [h0]
  refine .step (by rw [hc]; decide) ?_
  rw [hu]
  refine .step (by rw [hc]; decide) ?_
  rw [hu]
  exact .done (by rw [hc]; decide)

/-- **C92** (violated): the array has as many elements as the loop has iterations, but is indexed by the loop variable: a loop from 5 to 6 accesses the elements 5 and 6 of an
array of two elements.  A loop `10 < i` even gets an array of negative size. -/
theorem out_local_bounds : olsOk "i" (.int 5) (exLt "i" 7) (exAcc [.sym "i"]) [[[.sym "i"]], [[.sym "i"]]] = true ∧ iterationCount "i" (.int 5) (exLt "i" 7) = some 2 ∧
    (∀ σ, Iters exEnv "i" (exLt "i" 7) (exInc "i") σ (σ.ev exEnv (.int 5)) [5, 6] 7) ∧ ¬ ((6 : Int) < 2) ∧
    iterationCount "i" (.int 20) (.lt (.int 10) (.sym "i")) = some (-10) := by
  exact ⟨by decide, by decide, exIters5, by decide, by decide⟩

end Docc.IR
