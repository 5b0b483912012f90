import Verif.IR.FlopCost
import Verif.IR.AssumAnLemmas
import Verif.IR.UsersProps
import Verif.IR.LoopInfoProps
import Verif.Sym.SimplifyProps

/-
Lemmas about the FLOP analysis.
-/
namespace Docc.IR
open Docc.Sym

/-! ### conditions of the property -/

mutual
/-- no break, continue or return -/
def Node.jumpless : Node → Bool
  | .seq s => s.jumpless
  | .ifElse b => b.jumpless
  | .whileL s => s.jumpless
  | .loop _ _ _ _ _ s => s.jumpless
  | .block _ => true
  | _ => false
/-- the same for a sequence -/
def Seq.jumpless : Seq → Bool
  | .nil => true
  | .cons n _ r => n.jumpless && r.jumpless
/-- the same for branches -/
def Brs.jumpless : Brs → Bool
  | .nil => true
  | .cons _ s r => s.jumpless && r.jumpless
end

/-- there is something to count in the computation -/
def Stmt.counted : Stmt → Bool
  | .tasklet op _ _ _ => decide (fpFlops op ≠ 0)
  | .lib _ _ _ => true

mutual
/-- there is something to count in the node -/
def Node.counted : Node → Bool
  | .block l => l.any Stmt.counted
  | .seq s => s.counted
  | .ifElse b => b.counted
  | .whileL s => s.counted
  | .loop _ _ _ _ _ s => s.counted
  | _ => false
/-- the same for a sequence -/
def Seq.counted : Seq → Bool
  | .nil => false
  | .cons n _ r => n.counted || r.counted
/-- the same for branches -/
def Brs.counted : Brs → Bool
  | .nil => false
  | .cons _ s r => s.counted || r.counted
end

/-- the upper bound the assumptions analysis takes from the condition of a loop -/
def loopUpper (i : String) (cond : Cond) : Option Expr := (cnf cond).bind fun f => cnfToUpper f i

/-- a loop that counts up by one until a bound: its condition says exactly that the bound is not passed, its variable is not assigned
in the body, and the stride found is one -/
structure Counting (F : FlopEnv) (E : Env) (i : String) (cond : Cond) (upd : Expr) (s : Seq) : Prop where
  exact : ∀ ub, loopUpper i cond = some ub → ∀ σ : St, σ.defd E ub → (σ.cond E cond = true ↔ σ i [] ≤ σ.ev E ub)
  step : ∀ σ : St, σ.ev E upd = σ i [] + 1
  stride : F.stride i upd = .ok (.int 1)
  body : ¬ writes s.users i

mutual
/-- the loop variables -/
def Node.loopVars : Node → List String
  | .seq s => s.loopVars
  | .ifElse b => b.loopVars
  | .whileL s => s.loopVars
  | .loop _ i _ _ _ s => i :: s.loopVars
  | _ => []
/-- the same for a sequence -/
def Seq.loopVars : Seq → List String
  | .nil => []
  | .cons n _ r => n.loopVars ++ r.loopVars
/-- the same for branches -/
def Brs.loopVars : Brs → List String
  | .nil => []
  | .cons _ s r => s.loopVars ++ r.loopVars
end

mutual
/-- every loop counts up by one, has a variable of its own, and, where there is something to count, its range is not more than empty in
state `σ` (the bound is at least the initial value minus one) -/
def Node.Loops (F : FlopEnv) (E : Env) (σ : St) : Node → Prop
  | .seq s => s.Loops F E σ
  | .ifElse b => b.Loops F E σ
  | .whileL s => s.Loops F E σ
  | .loop _ i init cond upd s => Counting F E i cond upd s ∧ i ∉ s.loopVars ∧
      (s.counted = true → ∀ ub, loopUpper i cond = some ub → σ.ev E init ≤ σ.ev E ub + 1) ∧ s.Loops F E σ
  | _ => True
/-- the same for a sequence -/
def Seq.Loops (F : FlopEnv) (E : Env) (σ : St) : Seq → Prop
  | .nil => True
  | .cons n _ r => n.Loops F E σ ∧ r.Loops F E σ
/-- the same for branches -/
def Brs.Loops (F : FlopEnv) (E : Env) (σ : St) : Brs → Prop
  | .nil => True
  | .cons _ s r => s.Loops F E σ ∧ r.Loops F E σ
end

/-- no exact bounds are known for the symbol -/
def NoTight (A : Assums) (x : String) : Prop := ∀ a, A x = some a → a.tightLower = none ∧ a.tightUpper = none

/-! ### values -/

theorem vadd_fin {a b : V} {n : Int} (h : a.add b = .fin n) : ∃ x y, a = .fin x ∧ b = .fin y ∧ n = x + y := by
  cases a <;> cases b <;> simp_all [V.add]

theorem vmul_fin {a b : V} {n : Int} (h : a.mul b = .fin n) : ∃ x y, a = .fin x ∧ b = .fin y ∧ n = x * y := by
  cases a <;> cases b <;> simp_all [V.mul, V.scaleInf] <;> (split at h <;> first | cases h | (split at h <;> cases h))

theorem add2_fin {ρ : Val} {a b : Expr} {n : Int} (h : (Expr.add [a, b]).eval ρ = .fin n) :
    ∃ x y, a.eval ρ = .fin x ∧ b.eval ρ = .fin y ∧ n = x + y := by
  simp only [Expr.eval, Expr.evalL, List.foldr] at h
  obtain ⟨x, y, h1, h2, rfl⟩ := vadd_fin h
  obtain ⟨y', z, h3, h4, rfl⟩ := vadd_fin h2
  cases h4
  exact ⟨x, y', h1, h3, by omega⟩

theorem mul2_fin {ρ : Val} {a b : Expr} {n : Int} (h : (Expr.mul [a, b]).eval ρ = .fin n) :
    ∃ x y, a.eval ρ = .fin x ∧ b.eval ρ = .fin y ∧ n = x * y := by
  simp only [Expr.eval, Expr.evalL, List.foldr] at h
  obtain ⟨x, y, h1, h2, rfl⟩ := vmul_fin h
  obtain ⟨y', z, h3, h4, rfl⟩ := vmul_fin h2
  cases h4
  exact ⟨x, y', h1, h3, by rw [Int.mul_one]⟩

theorem cadd_fin {ρ : Val} {a b : Expr} {n : Int} (h : (cadd a b).eval ρ = .fin n) :
    ∃ x y, a.eval ρ = .fin x ∧ b.eval ρ = .fin y ∧ n = x + y := by
  unfold cadd at h
  split at h
  · simp only [Expr.eval] at h; cases h; exact ⟨_, _, rfl, rfl, rfl⟩
  · split at h
    · rename_i e; subst e; exact ⟨0, n, rfl, h, by omega⟩
    · split at h
      · rename_i e; subst e; exact ⟨n, 0, h, rfl, by omega⟩
      · exact add2_fin h

theorem cadd_atoms {a b : Expr} {x : String} (h : x ∈ a.atoms ∨ x ∈ b.atoms) : x ∈ (cadd a b).atoms := by
  unfold cadd
  split
  · simp [Expr.atoms] at h
  · split
    · rename_i e; subst e; simpa [Expr.atoms] using h
    · split
      · rename_i e; subst e; simpa [Expr.atoms] using h
      · simpa [Expr.atoms, Expr.atomsL] using h

theorem cadd_zero : cadd (.int 0) (.int 0) = .int 0 := rfl

theorem cdiv_one (l : Expr) : cdiv l (.int 1) = l := by
  unfold cdiv sdiv
  rw [if_neg (by intro h; cases h), if_pos rfl]

/-! ### blocks -/

theorem replace_id {F : FlopEnv} {u : List User} {A : Assums} {e : Expr} (h : (F.replace u A e).2 = false) : (F.replace u A e).1 = e := by
  simp only [FlopEnv.replace] at h ⊢
  have : ∀ (l : List String) (r : Expr), l.any (isIndex A) = false → l.foldl (fun r x => match A x with
      | some a => if a.constant && a.map.isSome then r.subs (.sym x) (F.mid u a) else r
      | none => r) r = r := by
    intro l
    induction l with
    | nil => intros; rfl
    | cons x l ih =>
      intro r hl
      simp only [List.any_cons, Bool.or_eq_false_iff] at hl
      obtain ⟨h1, h2⟩ := hl
      rw [List.foldl_cons]
      unfold isIndex at h1
      split at h1
      · rename_i a ha
        simp only [ha, h1]
        exact ih _ h2
      · rename_i ha
        simp only [ha]
        exact ih _ h2
  exact this _ _ h

/-- what a block does not write and the program does not write at all keeps its value -/
def KeptBy (U : List User) (σ τ : St) : Prop := ∀ x, ¬ writes U x → τ x = σ x

theorem KeptBy.ev {E : Env} {U : List User} {σ τ : St} (h : KeptBy U σ τ) {e : Expr} (he : ∀ x ∈ e.atoms, ¬ writes U x) : τ.ev E e = σ.ev E e :=
  St.ev_congr E fun x hx => by rw [h x (he x hx)]

theorem KeptBy.defd {E : Env} {U : List User} {σ τ : St} (h : KeptBy U σ τ) {e : Expr} (he : ∀ x ∈ e.atoms, ¬ writes U x)
    (hd : σ.defd E e) : τ.defd E e := by
  obtain ⟨n, hn⟩ := hd
  exact ⟨n, by rw [← hn]; exact eval_congr_atoms e _ _ rfl fun x hx => by show τ x [] = σ x []; rw [h x (he x hx)]⟩

theorem KeptBy.step {U u : List User} {σ τ τ' : St} (h : KeptBy U σ τ) (hu : ∀ x, writes u x → writes U x) (hf : ∀ x, ¬ writes u x → τ' x = τ x) :
    KeptBy U σ τ' := fun x hx => by rw [hf x fun hw => hx (hu x hw), h x hx]

/-- the operations of the tasklets -/
def tasks : List Stmt → Int
  | [] => 0
  | .tasklet op _ _ _ :: r => fpFlops op + tasks r
  | .lib _ _ _ :: r => tasks r

theorem tasklets_eq : ∀ l : List Stmt, taskletFlops l = .int (tasks l)
  | [] => rfl
  | .tasklet op a b c :: r => by
    show cadd (.int (fpFlops op)) (taskletFlops r) = _
    rw [tasklets_eq r]; rfl
  | .lib op a b :: r => tasklets_eq r

theorem fpFlops_eq (op : String) : fpFlops op = opFlops op := by
  unfold fpFlops opFlops fpOps
  by_cases h : op = "fp_fma"
  · subst h; decide
  · rw [if_neg h, if_neg h]
    simp only [List.mem_cons, h, false_or]

theorem block_work {F : FlopEnv} {E : Env} {W : String → St → Int} (hW : ∀ op e, F.lib op = some e → ∀ σ : St, W op σ = σ.ev E e)
    {U : List User} {σ : St} : ∀ (l : List Stmt) (b : Expr) (m : Int), F.libFlops l = some b → b.eval (σ.val E) = .fin m →
      (∀ x ∈ b.atoms, ¬ writes U x) → (∀ x, writes (l.flatMap Stmt.users) x → writes U x) →
      ∀ τ, KeptBy U σ τ → blockWork E W l τ = tasks l + m
  | [], b, m, h, hm, _, _, τ, _ => by
    simp only [FlopEnv.libFlops, Option.some.injEq] at h
    subst h
    simp only [Expr.eval] at hm
    cases hm
    rfl
  | .tasklet op a o c :: r, b, m, h, hm, ha, hu, τ, hk => by
    simp only [FlopEnv.libFlops] at h
    have hu1 : ∀ x, writes ([Stmt.tasklet op a o c].flatMap Stmt.users) x → writes U x := fun x hx => hu x (by
      simp only [List.flatMap_cons, List.flatMap_nil, List.append_nil] at hx
      rw [List.flatMap_cons]; exact List.mem_append_left _ hx)
    have hk' : KeptBy U σ ((Stmt.tasklet op a o c).run E τ) := hk.step hu1 fun x hx => runBlock_frame E [.tasklet op a o c] τ x hx
    have := block_work hW r b m h hm ha (fun x hx => hu x (by rw [List.flatMap_cons]; exact List.mem_append_right _ hx)) _ hk'
    show opFlops op + blockWork E W r _ = fpFlops op + tasks r + m
    rw [this, fpFlops_eq]; omega
  | .lib op a o :: r, b, m, h, hm, ha, hu, τ, hk => by
    simp only [FlopEnv.libFlops] at h
    split at h
    · rename_i e1 e2 h1 h2
      cases h
      obtain ⟨x, y, hx, hy, rfl⟩ := cadd_fin hm
      have hu1 : ∀ x, writes ([Stmt.lib op a o].flatMap Stmt.users) x → writes U x := fun x hx => hu x (by
        simp only [List.flatMap_cons, List.flatMap_nil, List.append_nil] at hx
        rw [List.flatMap_cons]; exact List.mem_append_left _ hx)
      have hk' : KeptBy U σ ((Stmt.lib op a o).run E τ) := hk.step hu1 fun x hx => runBlock_frame E [.lib op a o] τ x hx
      have := block_work hW r e2 y h2 hy (fun z hz => ha z (cadd_atoms (.inr hz)))
        (fun x hx => hu x (by rw [List.flatMap_cons]; exact List.mem_append_right _ hx)) _ hk'
      show W op τ + blockWork E W r _ = tasks r + (x + y)
      rw [this, hW op e1 h1, hk.ev fun z hz => ha z (cadd_atoms (.inl hz)), St.ev_of_eval hx]; omega
    · cases h

/-! ### exact bounds -/

theorem foldLower_tight (l : List Expr) : ∀ a : Assum, (l.foldl Assum.addLowerBound a).tightLower = a.tightLower ∧
    (l.foldl Assum.addLowerBound a).tightUpper = a.tightUpper := by
  induction l with
  | nil => exact fun _ => ⟨rfl, rfl⟩
  | cons e r ih =>
    intro a
    rw [List.foldl_cons, (ih _).1, (ih _).2, Assum.addLowerBound]
    split <;> exact ⟨rfl, rfl⟩

theorem foldUpper_tight (l : List Expr) : ∀ a : Assum, (l.foldl Assum.addUpperBound a).tightLower = a.tightLower ∧
    (l.foldl Assum.addUpperBound a).tightUpper = a.tightUpper := by
  induction l with
  | nil => exact fun _ => ⟨rfl, rfl⟩
  | cons e r ih =>
    intro a
    rw [List.foldl_cons, (ih _).1, (ih _).2, Assum.addUpperBound]
    split <;> exact ⟨rfl, rfl⟩

/-- the exact bounds recorded for a symbol (none without an entry) -/
def tights (A : Assums) (x : String) : Option Expr × Option Expr := match A x with
  | some a => (a.tightLower, a.tightUpper)
  | none => (none, none)

theorem noTight_iff {A : Assums} {x : String} : NoTight A x ↔ tights A x = (none, none) := by
  unfold NoTight tights
  cases h : A x with
  | none => simp
  | some a => simp

theorem tights_upd {A : Assums} {x : String} {f : Assum → Assum} (hf : ∀ a, (f a).tightLower = a.tightLower ∧ (f a).tightUpper = a.tightUpper)
    (y : String) : tights (Sym.upd A x f) y = tights A y := by
  unfold tights Sym.upd
  by_cases h : y = x
  · subst h
    rw [if_pos rfl]
    cases h2 : A y with
    | none => simp [(hf _).1, (hf _).2]
    | some a => simp [(hf _).1, (hf _).2]
  · rw [if_neg h]

theorem tights_upd_other {A : Assums} {x y : String} {f : Assum → Assum} (h : y ≠ x) : tights (Sym.upd A x f) y = tights A y := by
  unfold tights Sym.upd; rw [if_neg h]

theorem tights_updAll {f : Assum → Assum} (hf : ∀ a, (f a).tightLower = a.tightLower ∧ (f a).tightUpper = a.tightUpper) (y : String)
    (xs : List String) : ∀ A, tights (Sym.updAll A xs f) y = tights A y := by
  unfold Sym.updAll
  induction xs with
  | nil => intro; rfl
  | cons x r ih => intro A; rw [List.foldl_cons, ih, tights_upd hf]

theorem tights_base (C : Ctx) (i : String) (cond : Cond) (upd : Expr) (s : Seq) (y : String) : tights (C.bodyBase i cond upd s) y = (none, none) := by
  unfold Ctx.bodyBase
  rw [tights_upd (foldUpper_tight _), tights_upd (foldLower_tight _), tights_upd (by intro a; exact ⟨rfl, rfl⟩),
    tights_updAll (by intro a; exact ⟨rfl, rfl⟩), tights_updAll (by intro a; exact ⟨rfl, rfl⟩)]
  rfl

theorem tights_init (C : Ctx) (i : String) (init : Expr) (A : Assums) (y : String) :
    tights (C.bodyInit i init A) y = if y = i then (some init, (tights A y).2) else tights A y := by
  have key : ∀ B : Assums, (∀ y, tights B y = if y = i then (some init, (tights A y).2) else tights A y) →
      ∀ y, tights (match init with
        | .sym y => if (C.indexBounds i).1 = [] then B else Sym.upd B y fun a => (C.indexBounds i).1.foldl Assum.addLowerBound a
        | _ => B) y = if y = i then (some init, (tights A y).2) else tights A y := by
    intro B hB y
    split
    · split
      · exact hB y
      · rw [tights_upd (foldLower_tight _)]; exact hB y
    · exact hB y
  refine key _ (fun y => ?_) y
  by_cases h : y = i
  · subst h
    rw [if_pos rfl]
    unfold tights Sym.upd
    rw [if_pos rfl]
    cases h2 : A y with
    | none => simp [Assum.addLowerBound]
    | some a => simp only [Option.getD_some]; unfold Assum.addLowerBound; split <;> rfl
  · rw [if_neg h, tights_upd_other h]

theorem tights_upper (C : Ctx) (AT : Assums) (i : String) (init upd ub : Expr) (A : Assums) (y : String) :
    tights (C.bodyUpper AT i init upd ub A) y = tights A y ∨ y = i ∧ tights (C.bodyUpper AT i init upd ub A) y = ((tights A y).1, some ub) := by
  have h3 : ∀ B : Assums, ∀ y, tights (Sym.updAll (match ub with
      | .sym y => if (C.indexBounds i).2 = [] then B else Sym.upd B y fun a => (C.indexBounds i).2.foldl Assum.addUpperBound a
      | _ => B) ub.atoms fun a => { a.addLowerBound (.add [init, .int 1]) with lower := .add [init, .int 1] }) y = tights B y := by
    intro B y
    rw [tights_updAll (fun a => by dsimp only; rw [Assum.addLowerBound]; split <;> exact ⟨rfl, rfl⟩)]
    split
    · split
      · rfl
      · rw [tights_upd (foldUpper_tight _)]
    · rfl
  have h4 : tights (C.bodyUpper AT i init upd ub A) y = tights (if isContiguous C.eng AT upd i then
      Sym.upd (Sym.upd A i fun a => { a.addUpperBound ub with upper := ub }) i fun a => { a with tightUpper := some ub }
      else Sym.upd A i fun a => { a.addUpperBound ub with upper := ub }) y := h3 _ y
  rw [h4]
  have h1 : ∀ y, tights (Sym.upd A i fun a => { a.addUpperBound ub with upper := ub }) y = tights A y :=
    fun y => tights_upd (fun a => by dsimp only; rw [Assum.addUpperBound]; split <;> exact ⟨rfl, rfl⟩) y
  split
  · by_cases h : y = i
    · subst h
      refine .inr ⟨rfl, ?_⟩
      rw [← h1 y]
      generalize Sym.upd A y _ = B
      unfold tights Sym.upd
      rw [if_pos rfl]
      cases B y <;> rfl
    · exact .inl (by rw [tights_upd_other h, h1])
  · exact .inl (h1 y)

/-- the exact bounds the analysis records for a body belong to the loop variable, are the initial value and the bound of the condition -/
theorem tights_body (C : Ctx) (AT : Assums) (i : String) (init : Expr) (cond : Cond) (upd : Expr) (s : Seq) :
    (∀ y, y ≠ i → tights (C.body AT i init cond upd s) y = (none, none)) ∧
      (∀ t, (tights (C.body AT i init cond upd s) i).1 = some t → t = init) ∧
      ∀ t, (tights (C.body AT i init cond upd s) i).2 = some t → loopUpper i cond = some t := by
  unfold Ctx.body
  have hb : ∀ y, tights (C.bodyBase i cond upd s) y = (none, none) := tights_base C i cond upd s
  split
  · refine ⟨fun y _ => hb y, ?_, ?_⟩ <;> intro t ht <;> rw [hb] at ht <;> cases ht
  · have hi : ∀ y, tights (C.bodyInit i init (C.bodyBase i cond upd s)) y = if y = i then (some init, none) else (none, none) := by
      intro y; rw [tights_init, hb]
    have hbase : (∀ y, y ≠ i → tights (C.bodyInit i init (C.bodyBase i cond upd s)) y = (none, none)) ∧
        (∀ t, (tights (C.bodyInit i init (C.bodyBase i cond upd s)) i).1 = some t → t = init) ∧
        ∀ t, (tights (C.bodyInit i init (C.bodyBase i cond upd s)) i).2 = some t → loopUpper i cond = some t := by
      refine ⟨fun y hy => by rw [hi, if_neg hy], fun t ht => ?_, fun t ht => ?_⟩ <;> rw [hi, if_pos rfl] at ht <;> cases ht
      rfl
    split
    · exact hbase
    · rename_i f hf
      split
      · exact hbase
      · rename_i ub hub
        refine ⟨fun y hy => ?_, fun t ht => ?_, fun t ht => ?_⟩
        · rcases tights_upper C AT i init upd ub (C.bodyInit i init (C.bodyBase i cond upd s)) y with h | ⟨h, _⟩
          · rw [h, hi, if_neg hy]
          · exact absurd h hy
        · rcases tights_upper C AT i init upd ub (C.bodyInit i init (C.bodyBase i cond upd s)) i with h | ⟨_, h⟩ <;>
            rw [h, hi, if_pos rfl] at ht <;> cases ht <;> rfl
        · rcases tights_upper C AT i init upd ub (C.bodyInit i init (C.bodyBase i cond upd s)) i with h | ⟨_, h⟩ <;>
            rw [h, hi, if_pos rfl] at ht <;> cases ht
          simp [loopUpper, hf, hub]

theorem tights_propagate {B A : Assums} {x : String} (h : NoTight A x) : tights (propagate B A) x = tights B x := by
  unfold tights propagate
  cases hA : A x with
  | none => rfl
  | some o =>
    obtain ⟨h1, h2⟩ := h o hA
    cases hB : B x with
    | none => simp [h1, h2]
    | some a =>
      simp only [mergeAssum]
      rw [h1, h2]
      cases a.tightLower <;> cases a.tightUpper <;> rfl

theorem noTight_body {C : Ctx} {A AT : Assums} {i : String} {init : Expr} {cond : Cond} {upd : Expr} {s : Seq} {x : String} (h : NoTight A x)
    (hx : x ≠ i) : NoTight (propagate (C.body AT i init cond upd s) A) x := by
  rw [noTight_iff, tights_propagate h, (tights_body C AT i init cond upd s).1 x hx]

end Docc.IR
