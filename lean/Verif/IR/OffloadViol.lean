import Verif.IR.OffloadProps
import Verif.IR.RangesViol
import Verif.IR.Fresh

/-
C86: a map that reads before the pointer, and a case that meets the hypotheses of `offload_partial`.
-/
namespace Docc.IR
open Docc.Sym

/-- `B[0] = A[k - 1]` in a map of one iteration -/
def exBackMap : Node := .loop true "i" (.int 0) (.lt (.sym "i") (.int 1)) exInc1
  (.one (.block [.tasklet "assign" [("A", [.add [.sym "k", .int (-1)]])] "B" [.int 0]]))
/-- the program that consists of it -/
def exBack : Seq := .one exBackMap
/-- all containers but the induction variable are arguments; `A` and `B` are pointers to scalars, `k` is an integer -/
def exBackCtx : OffCtx where
  args := exBack.argCtx fun x => x == "A" || x == "B" || x == "k"
  rng := exCtx exBack fun _ => []
  assm := rootAssums (fun _ => none) (fun _ => none)
  scalar x := x == "k" || x == "i"
  ptr x := x == "A" || x == "B"
  ext _ := []
  pfx := "d_"

theorem exBack_upper : exBackCtx.upper exBackMap "A" = some (.max [.add [.sym "k", .int (-1)]]) ∧ exBackCtx.upper exBackMap "B" = some (.max [.int 0]) := by
  have hb : exBackMap.blocksAt = [([0, 0], [.tasklet "assign" [("A", [.add [.sym "k", .int (-1)]])] "B" [.int 0]])] := rfl
  obtain ⟨B, hB⟩ := Node.assums_block exBackCtx.rng exBackMap exBackCtx.assm [0, 0] _ (hb ▸ List.mem_singleton.2 rfl)
  unfold OffCtx.upper Node.range Node.subsetsOf
  rw [hb]
  simp only [List.flatMap_cons, List.flatMap_nil, hB, List.append_nil]
  exact ⟨rfl, rfl⟩

/-- the memory of the device: nothing of `A` is copied when `k` is 0 -/
theorem exBack_entry (σ : St) (h : σ "k" [] = 0) : exBackCtx.entry exEnv exBackMap ["A", "B"] (fun _ _ => 0) σ = fun y idx =>
    if y = "d_A" then (if idx = [] then σ "A" idx else 0) else if y = "d_B" then (if idx = [] ∨ idx = [0] then σ "B" idx else 0) else if y = "k" then σ "k" idx else 0 := by
  funext y idx
  unfold OffCtx.entry
  by_cases h1 : y = "d_A"
  · subst h1
    have : (["A", "B"].find? fun x => exBackCtx.dev x == "d_A") = some "A" := by decide
    rw [this]
    simp only [exBack_upper.1, if_true]
    cases idx with
    | nil => rfl
    | cons i r =>
      have e : exBackCtx.count exEnv σ "A" (.max [.add [.sym "k", .int (-1)]]) = 0 := by
        have : St.ev exEnv σ (.max [.add [.sym "k", .int (-1)]]) = σ "k" [] - 1 := St.ev_of_eval rfl
        simp [OffCtx.count, exBackCtx, this, h]
      have : exBackCtx.copied exEnv σ "A" (.max [.add [.sym "k", .int (-1)]]) (i :: r) = false := by
        simp only [OffCtx.copied, e]
        simp
      simp [this]
  · by_cases h2 : y = "d_B"
    · subst h2
      have : (["A", "B"].find? fun x => exBackCtx.dev x == "d_B") = some "B" := by decide
      rw [this]
      simp only [exBack_upper.2, if_true, h1, if_false]
      cases idx with
      | nil => rfl
      | cons i r =>
        have e : exBackCtx.count exEnv σ "B" (.max [.int 0]) = 1 := by
          have : St.ev exEnv σ (.max [.int 0]) = 0 := St.ev_of_eval rfl
          simp [OffCtx.count, exBackCtx, this]
        have : exBackCtx.copied exEnv σ "B" (.max [.int 0]) (i :: r) = decide (i :: r = [0]) := by
          simp only [OffCtx.copied, e]
          cases r with
          | nil => simp [exBackCtx, linOff]; by_cases hi : i = 0 <;> simp [hi]; omega
          | cons _ _ => simp [exBackCtx]
        simp [this]
    · have h3 : (["A", "B"].find? fun x => exBackCtx.dev x == y) = none := by
        rw [List.find?_eq_none]
        intro x hx
        simp only [List.mem_cons, List.not_mem_nil, or_false] at hx
        rcases hx with rfl | rfl
        · intro h; exact h1 (by rw [← (beq_iff_eq.1 h)]; rfl)
        · intro h; exact h2 (by rw [← (beq_iff_eq.1 h)]; rfl)
      rw [h3]
      simp only [h1, h2, if_false]
      by_cases h4 : y = "k"
      · subst h4; rfl
      · have : (exBackCtx.args.isArg exBackMap y && exBackCtx.scalar y) = false := by
          by_cases h5 : y = "i"
          · subst h5; decide
          · simp [exBackCtx, h4, h5]
        simp [this, h4]

/-- **C86 fails** for maps that read before the pointer: `map (i = 0; i < 1; i++) B[0] = A[k - 1]` with `k = 0` is accepted, the buffer on the device gets the `k` elements
from `A[0]` on, and the kernel reads memory that was never copied. -/
theorem negative_index_violated : ∃ (E : Env) (O : OffCtx) (s : Seq) (p : List Nat) (n : Node) (l : List String) (junk σ σ' : St) (x : String) (j : List Int),
    s.regionAt p = some n ∧ O.canApply n = true ∧ (∀ y, y ∈ l ↔ O.args.isArg n y = true ∧ O.ptr y = true) ∧ O.args.isArg n x = true ∧ s.den E σ .normal σ' ∧
    ∀ k τ', s.denWith E (O.run E n l junk) p σ k τ' → τ' x j ≠ σ' x j := by
  obtain ⟨σ', h1, h2⟩ := Seq.run_obs (E := exEnv) 60 (s := exBack) (σ := fun x _ => if x = "A" then 7 else 0) (x := "B") (j := [0]) (c := .normal) (v := 7) (by decide)
  refine ⟨exEnv, exBackCtx, exBack, [0], exBackMap, ["A", "B"], fun _ _ => 0, fun x _ => if x = "A" then 7 else 0, σ', "B", [0], rfl, ?_, fun y => ?_, by decide, h1,
    fun k τ' hd => ?_⟩
  · have e : exBackMap.users.all (fun q => !exBackCtx.args.isArg exBackMap q.2 || ((!exBackCtx.scalar q.2 || !(exBackMap.flags q.2).isOut) &&
        (exBackCtx.scalar q.2 || q.2 == "A" || q.2 == "B"))) = true := by decide
    unfold OffCtx.canApply exBackMap
    simp only [Bool.and_eq_true]
    refine ⟨by decide, List.all_eq_true.2 fun q hq => ?_⟩
    have := List.all_eq_true.1 e q hq
    simp only [Bool.or_eq_true, Bool.and_eq_true] at this ⊢
    refine this.imp id fun ⟨a, b⟩ => ⟨a, ?_⟩
    rcases b with (b | b) | b
    · exact Or.inl b
    · rw [beq_iff_eq.1 b]
      exact Or.inr (by have := exBack_upper.1; unfold exBackMap at this; rw [this]; rfl)
    · rw [beq_iff_eq.1 b]
      exact Or.inr (by have := exBack_upper.2; unfold exBackMap at this; rw [this]; rfl)
  · constructor
    · intro h
      simp only [List.mem_cons, List.not_mem_nil, or_false] at h
      rcases h with rfl | rfl <;> decide
    · rintro ⟨_, h⟩
      simpa [exBackCtx] using h
  · rw [h2]
    have hd : Rel.seq (exBackCtx.run exEnv exBackMap ["A", "B"] fun _ _ => 0) (.seq (.upd (runTrans exEnv [])) (Seq.nil.den exEnv)) _ k τ' := hd
    have hnil : Rel.seq (.upd (runTrans exEnv [])) (Seq.nil.den exEnv) = Rel.upd id := by
      rw [Seq.den, Rel.upd_upd]; rfl
    rw [hnil, Rel.seq_skip] at hd
    obtain ⟨κ, hk, rfl⟩ := hd
    rw [exBack_entry _ rfl] at hk
    have := (Node.run_obs_all (E := exEnv) 60 (x := "d_B") (j := [0]) (c := .normal) (v := 0) (by decide) hk).2
    have hf : (["A", "B"].contains "B" && (exBackMap.flags "B").isOut) = true := by decide
    simp only [hf, if_true, exBack_upper.2]
    split
    · rw [show exBackCtx.dev "B" = "d_B" from rfl, this]; decide
    · decide

/-! ### the hypotheses of `offload_partial` are met -/

/-- `map (i = 0; i < N; i++) A[i] = ...` -/
def exFillMap : Node := .loop true "i" (.int 0) (.lt (.sym "i") (.sym "N")) exInc1 (exPut [.sym "i"])
/-- the program that consists of it -/
def exFillProg : Seq := .one exFillMap
/-- `A` is a pointer to scalars, `N` an integer -/
def exFillOff : OffCtx where
  args := exFillProg.argCtx fun x => x == "A" || x == "N"
  rng := exFillCtx
  assm := rootAssums (fun _ => none) (fun _ => none)
  scalar x := x == "N" || x == "i"
  ptr x := x == "A"
  ext _ := []
  pfx := "d_"

theorem exFillMap_blocks : exFillMap.blocksAt = [([0, 0], [.tasklet "f" [] "A" [.sym "i"]])] := rfl

theorem exFillMap_range : exFillMap.range exFillCtx (rootAssums (fun _ => none) (fun _ => none)) "A" =
    .ok ⟨false, true, false, [(some (.min [.int 0]), some (.max [exFillHi]))]⟩ := by
  have h : exFillMap.assums exFillCtx (rootAssums (fun _ => none) (fun _ => none)) [0, 0] = some (exFillBody, exFillBody) := exFill_assums
  unfold Node.range Node.subsetsOf
  rw [exFillMap_blocks]
  simp only [List.flatMap_cons, List.flatMap_nil, h, List.append_nil]
  simp only [exFillBody, propagate_none]
  rfl

theorem exFillMap_upper : exFillOff.upper exFillMap "A" = some (.max [exFillHi]) := by
  unfold OffCtx.upper
  rw [show exFillMap.range exFillOff.rng exFillOff.assm "A" = _ from exFillMap_range]
  rfl

theorem exFillMap_hold (E : Env) (σ : St) (p : List Nat) (B : Assums × Assums) (τ : St)
    (hB : exFillMap.assums exFillCtx (rootAssums (fun _ => none) (fun _ => none)) p = some B) (hv : exFillMap.vis E p σ τ) : B.1.Hold (τ.val E) :=
  exFill_hold E σ (0 :: p) B τ (by
    match p, hB with
    | [], hB => exact hB
    | 0 :: q, hB => exact hB
    | (k + 1) :: q, hB => exact hB) (by
    match p, hv with
    | [], hv => exact hv
    | 0 :: q, hv => exact hv
    | (k + 1) :: q, hv => exact hv)

theorem exFillMap_locals (x : String) : exFillOff.args.isLocal exFillMap x = true ↔ x ∈ ["i"] := by
  constructor
  · intro h
    have hu := ArgCtx.isLocal_used h
    have : x = "i" ∨ x = "N" ∨ x = "A" := by
      simp [Node.used, exFillMap, exInc1, exPut, Node.users, Seq.users, Seq.one, readsOf, Stmt.users, Expr.atoms, Expr.atomsL, Node.isRet, transUsers, Cond.atoms] at hu
      grind
    rcases this with rfl | rfl | rfl
    · simp
    · revert h; decide
    · revert h; decide
  · intro h
    rw [List.mem_singleton.1 h]
    decide

theorem exFillMap_args (x : String) : exFillOff.args.isArg exFillMap x = true → x = "A" ∨ x = "N" := by
  intro h
  have hu := ArgCtx.isArg_used h
  have : x = "i" ∨ x = "N" ∨ x = "A" := by
    simp [Node.used, exFillMap, exInc1, exPut, Node.users, Seq.users, Seq.one, readsOf, Stmt.users, Expr.atoms, Expr.atomsL, Node.isRet, transUsers, Cond.atoms] at hu
    grind
  rcases this with rfl | rfl | rfl
  · revert h; decide
  · exact Or.inr rfl
  · exact Or.inl rfl

theorem exFillMap_can : exFillOff.canApply exFillMap = true := by
  have e : exFillMap.users.all (fun q => !exFillOff.args.isArg exFillMap q.2 || ((!exFillOff.scalar q.2 || !(exFillMap.flags q.2).isOut) &&
      (exFillOff.scalar q.2 || q.2 == "A"))) = true := by decide
  unfold OffCtx.canApply exFillMap
  simp only [Bool.and_eq_true]
  refine ⟨by decide, List.all_eq_true.2 fun q hq => ?_⟩
  have := List.all_eq_true.1 e q hq
  simp only [Bool.or_eq_true, Bool.and_eq_true] at this ⊢
  refine this.imp id fun ⟨a, b⟩ => ⟨a, ?_⟩
  rcases b with b | b
  · exact Or.inl b
  · rw [beq_iff_eq.1 b]
    exact Or.inr (by have := exFillMap_upper; unfold exFillMap at this; rw [this]; rfl)

theorem exFillMap_static : exFillOff.Static exFillMap ["A"] where
  mem x := by
    constructor
    · intro h; rw [List.mem_singleton.1 h]; decide
    · rintro ⟨_, h⟩; simpa [exFillOff] using h
  nodup := by simp
  kind x h := by rcases exFillMap_args x h with rfl | rfl <;> decide
  fns x hx r hr := by
    rw [List.mem_singleton.1 hx, show exFillMap.range exFillOff.rng exFillOff.assm "A" = _ from exFillMap_range] at hr
    cases hr
    exact exFill_fns
  lib x hx p l h op rs ws hl := by
    rw [exFillMap_blocks, List.mem_singleton] at h
    cases h
    simp at hl
  stable x hx p l h s hs sub hsub y hy := by
    rw [exFillMap_blocks, List.mem_singleton] at h
    cases h
    rw [List.mem_singleton.1 hs] at hsub
    rw [List.mem_singleton.1 hx] at hsub
    have : sub = [.sym "i"] := by simpa [Stmt.subsOf, Stmt.readSubs, Stmt.writeSubs] using hsub
    subst this
    have : y = "i" := by simpa [Expr.atomsL, Expr.atoms] using hy
    subst this
    decide
  upper x hx u hu y hy := by
    rw [List.mem_singleton.1 hx, exFillMap_upper] at hu
    cases hu
    have : y = "N" := by simpa [exFillHi, Expr.atoms, Expr.atomsL] using hy
    subst this
    decide
  ext x hx e he := by simp [exFillOff] at he
  new x hx := by rw [List.mem_singleton.1 hx]; decide
  ret x hx := by rw [List.mem_singleton.1 hx]; decide

theorem exFillMap_runs (E : Env) (ρ : St) : exFillOff.Runs E exFillMap ["A"] ρ where
  dead := localsDead_of_fresh E _ _ ["i"] exFillMap_locals (by decide) ρ
  hold κ _ p B τ hB hv := exFillMap_hold E κ p B τ hB hv
  within κ _ x hx idx ha := by
    rw [List.mem_singleton.1 hx] at ha
    obtain ⟨_, h2⟩ := mem_access_ranges_partial E exFillCtx _ _ "A" _ κ exFillMap_range rfl (exFillMap_hold E κ) exFill_fns
      (exFillMap_static.lib "A" (by simp)) (exFillMap_static.stable "A" (by simp)) _ ha
    obtain ⟨p, l, τ, l1, s, l2, hb, hv, e, ht⟩ := ha
    rw [exFillMap_blocks, List.mem_singleton] at hb
    cases hb
    have hs : s = .tasklet "f" [] "A" [.sym "i"] := by
      have : s ∈ l1 ++ s :: l2 := by simp
      rw [← e] at this
      exact List.mem_singleton.1 this
    subst hs
    rcases ht with ⟨r, hr, _⟩ | ⟨_, rfl⟩
    · simp at hr
    · obtain ⟨lo, hi, h3, h4, h5⟩ := h2 0 _ rfl
      cases h3
      exact ⟨_, _, rfl, h4, trivial⟩

/-- the map can be offloaded -/
example (E : Env) (junk σ : St) (k : Ctl) (σ' : St) (hd : exFillProg.den E σ k σ') :
    (∃ τ', exFillProg.denWith E (exFillOff.run E exFillMap ["A"] junk) [0] σ k τ') ∧
    ∀ k' τ', exFillProg.denWith E (exFillOff.run E exFillMap ["A"] junk) [0] σ k' τ' → k' = k ∧ ∀ x, ¬ exFillOff.args.isLocal exFillMap x = true → τ' x = σ' x :=
  offload_partial E exFillOff _ exFillProg [0] exFillMap rfl rfl ["A"] exFillMap_can exFillMap_static junk σ (fun ρ _ => exFillMap_runs E ρ) k σ' hd
/-- it terminates -/
example : ∃ σ', exFillProg.den exEnv (fun _ _ => 2) .normal σ' ∧ σ' "A" [1] = 0 :=
  Seq.run_obs (E := exEnv) 60 (s := exFillProg) (x := "A") (j := [1]) (c := .normal) (v := 0) (by decide)

end Docc.IR
