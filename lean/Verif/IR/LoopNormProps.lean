import Verif.IR.LoopNorm
import Verif.IR.TilingProps
import Verif.Sym.SeriesProps
import Verif.Sym.DelinProps
import Verif.Sym.CNFProps

/-
C17: LoopNormalization.
-/
set_option linter.unusedSimpArgs false
namespace Docc.IR
open Docc.Sym

/-- Contract of the engine: polynomials have the value of the expression, coefficients do not mention the generators and mention
only symbols of the expression; simplification and canonical forms keep the truth value in every state and add no symbols. -/
structure LNE.Sound (L : LNE) : Prop where
  poly : ∀ ρ, L.P.Sound ρ
  len : ∀ e g p, L.P.poly e g = some p → ∀ t ∈ p, t.1.length = g.length
  free : ∀ e g p, L.P.poly e g = some p → ∀ t ∈ p, ∀ x ∈ t.2.atoms, x ∈ e.atoms ∧ x ∉ g
  normE : L.P.NormSound
  simp : ∀ E (σ : St) c, σ.cond E (L.simp c) = σ.cond E c
  norm : ∀ E (σ : St) c, σ.cond E (L.norm c) = σ.cond E c
  atoms : ∀ c x, x ∈ (L.norm c).boolSyms → x ∈ c.boolSyms

/-- The inequality `l != r` fails at exactly one value of the loop variable. -/
def Root (E : Env) (σ : St) (i : String) (l r : Expr) (v0 : Int) : Prop :=
  ∀ v, ∃ a b, l.eval ((σ.setS i v).val E) = .fin a ∧ r.eval ((σ.setS i v).val E) = .fin b ∧ (a = b ↔ v = v0)

theorem Root.swap {E : Env} {σ : St} {i : String} {l r : Expr} {v0 : Int} (h : Root E σ i l r v0) : Root E σ i r l v0 := by
  intro v
  obtain ⟨a, b, h1, h2, h3⟩ := h v
  exact ⟨b, a, h2, h1, by rw [← h3]; exact eq_comm⟩

theorem eval_setS_congr {E : Env} {σ τ : St} {i : String} {e : Expr} (h : ∀ x ∈ e.atoms, x ≠ i → σ x [] = τ x []) (v : Int) :
    e.eval ((σ.setS i v).val E) = e.eval ((τ.setS i v).val E) := by
  refine eval_congr_atoms e _ _ rfl fun x hx => ?_
  show (σ.setS i v) x [] = (τ.setS i v) x []
  by_cases hi : x = i
  · subst hi; rw [St.setS_same, St.setS_same]
  · rw [St.setS_other _ _ hi, St.setS_other _ _ hi]; exact h x hx hi

theorem Root.congr {E : Env} {σ τ : St} {i : String} {l r : Expr} {v0 : Int} (h : Root E σ i l r v0)
    (hl : ∀ x ∈ l.atoms, x ≠ i → σ x [] = τ x []) (hr : ∀ x ∈ r.atoms, x ≠ i → σ x [] = τ x []) : Root E τ i l r v0 := by
  intro v
  rw [← eval_setS_congr hl, ← eval_setS_congr hr]
  exact h v

theorem joinCnf_eval (v : Leaf) (f : CNF) : (joinCnf f).eval v = f.eval v := by
  have h1 : ∀ cl : List Cond, (Cond.or cl).eval v = cl.any fun c => c.eval v := by
    intro cl
    rw [Cond.eval]
    induction cl with
    | nil => rfl
    | cons c r ih => simp [Cond.evalAny, ih]
  rw [joinCnf, Cond.eval, CNF.eval]
  induction f with
  | nil => rfl
  | cons c r ih => simp [Cond.evalAll, ih, h1]

theorem eval_setS_free {E : Env} {σ : St} {i : String} {e : Expr} (h : i ∉ e.atoms) (v : Int) :
    e.eval ((σ.setS i v).val E) = e.eval (σ.val E) := by
  refine eval_congr_atoms e _ _ rfl fun x hx => ?_
  show (σ.setS i v) x [] = σ x []
  exact congrFun (St.setS_other _ _ fun he : x = i => h (he ▸ hx)) []

/-- the solved inequality: the quotient is the root -/
theorem solve_root {E : Env} {σ : St} {i : String} (hi : i ≠ constName) {L : LNE} (hL : L.Sound) {l r e : Expr} {D : Poly} {c : Affine}
    (hl : i ∉ l.atoms) (hp : L.P.poly r [i] = some D) (hc : affineCoefficients D [i] = some c)
    (he : sdiv (ssub l (c.at' constName)) (L.P.norm (c.at' i)) = .ok e) {v0 : Int} (hr : Root E σ i l r v0) :
    e.eval (σ.val E) = .fin v0 := by
  have hfree : ∀ s, i ∉ (c.at' s).atoms := fun s hs =>
    (affineCoefficients_free hc (fun x => x ∈ r.atoms ∧ x ∉ [i]) (hL.free _ _ _ hp) s i hs).2 (by simp)
  have key : ∀ v, ∃ a m k : Int, l.eval (σ.val E) = .fin a ∧ (c.at' i).eval (σ.val E) = .fin m ∧
      (c.at' constName).eval (σ.val E) = .fin k ∧ (a = m * v + k ↔ v = v0) := by
    intro v
    obtain ⟨a, b, h1, h2, h3⟩ := hr v
    obtain ⟨cv, hcv, hval⟩ := affine_coefficients_partial L.P _ (hL.poly _) r [i] (by simp) (by simpa using Ne.symm hi) D hp
      (hL.len _ _ _ hp) c hc b h2
    refine ⟨a, cv i, cv constName, ?_, ?_, ?_, ?_⟩
    · rw [← h1, eval_setS_free hl]
    · rw [← hcv i, eval_setS_free (hfree i)]
    · rw [← hcv constName, eval_setS_free (hfree _)]
    · rw [← h3, hval]
      simp [St.val, St.setS_same]
  obtain ⟨a, m, k, ha, hm, hk, h0⟩ := key v0
  obtain ⟨a', m', k', ha', hm', hk', h1⟩ := key (v0 + 1)
  rw [ha] at ha'; rw [hm] at hm'; rw [hk] at hk'
  simp only [V.fin.injEq] at ha' hm' hk'
  subst ha' hm' hk'
  have h0 : a = m * v0 + k := h0.2 rfl
  have hm0 : m ≠ 0 := by
    rintro rfl
    have := h1.1 (by rw [h0]; simp)
    omega
  rw [div_value _ _ _ _ _ _ (eval_ssub ha hk) (hL.normE _ _ _ hm) hm0 he]
  congr 1
  have : a - k = m * v0 := by omega
  rw [this, Int.mul_tdiv_cancel_left _ hm0]

/-- an inequality with a root, rewritten, keeps its value on the near side of the root -/
theorem lnNe_ok {E : Env} {σ : St} {i : String} (hi : i ≠ constName) {L : LNE} (hL : L.Sound) {st : Int} {l r : Expr} {c : Cond}
    (h : lnNe L st i l r = .ok c)
    (hr : ¬ (i ∈ l.atoms ↔ i ∈ r.atoms) → ∃ v0, Root E σ i l r v0 ∧ (st = 1 → σ i [] ≤ v0) ∧ (st = -1 → v0 ≤ σ i [])) :
    σ.cond E c = σ.cond E (.ne l r) := by
  have key : ∀ a b : Expr, i ∉ a.atoms → ¬ (i ∈ l.atoms ↔ i ∈ r.atoms) → (∀ v0, Root E σ i l r v0 → Root E σ i a b v0) →
      lnSolve L st i (.ne l r) a b = .ok c → σ.cond E c = σ.cond E (.ne l r) := by
    intro a b ha hin hroot hs
    unfold lnSolve at hs
    split at hs
    · simp only [Res.ok.injEq] at hs; rw [hs]
    rename_i D hp
    split at hs
    · simp at hs
    rename_i cf hcf
    obtain ⟨v0, h1, h2, h3⟩ := hr hin
    cases hq : sdiv (ssub a (cf.at' constName)) (L.P.norm (cf.at' i)) with
    | ub => rw [hq] at hs; simp [Res.bind] at hs
    | null => rw [hq] at hs; simp [Res.bind] at hs
    | ok e =>
      rw [hq] at hs
      have hev := solve_root hi hL ha hp hcf hq (hroot v0 h1)
      have he : σ.ev E e = v0 := by simp [St.ev, hev]
      have hne : σ.cond E (.ne l r) = !decide (σ i [] = v0) := by
        obtain ⟨x, y, hx, hy, hxy⟩ := h1 (σ i [])
        rw [Tile.setS_eta σ i _ rfl] at hx hy
        simp only [St.cond, Cond.eval, St.ev, hx, hy]
        congr 1
        rw [Bool.eq_iff_iff]
        simpa using hxy
      have hs1 : σ.ev E (.sym i) = σ i [] := by simp [St.ev, Expr.eval, St.val]
      rw [hne]
      simp only [Res.bind] at hs
      split at hs
      · simp only [Res.ok.injEq] at hs; subst hs
        simp only [St.cond, Cond.eval, he, hs1]
        have := h2 ‹_›
        rw [Bool.eq_iff_iff]; simp; omega
      · split at hs
        · simp only [Res.ok.injEq] at hs; subst hs
          simp only [St.cond, Cond.eval, he, hs1]
          have := h3 ‹_›
          rw [Bool.eq_iff_iff]; simp; omega
        · simp only [Res.ok.injEq] at hs; subst hs
          simp only [St.cond, Cond.eval, he, hs1]
          rw [Bool.eq_iff_iff]; simp
  unfold lnNe at h
  split at h <;> rename_i hir <;> split at h <;> rename_i hil
  · simp only [Res.ok.injEq] at h; rw [h]
  · exact key l r hil (fun h => hil (h.2 hir)) (fun _ h => h) h
  · exact key r l hir (fun h => hir (h.1 hil)) (fun _ h => h.swap) h
  · simp only [Res.ok.injEq] at h; rw [h]

/-- `i < max(init, b)` and `i < b` agree from the initial value upwards -/
theorem lnLt_ok {E : Env} {σ : St} {i : String} {init l r : Expr} {n : Int} (hn : init.eval (σ.val E) = .fin n) (hle : n ≤ σ i [])
    (hd : ∀ e, lnLt i init l r = .lt (.sym i) e → lnLt i init l r ≠ .lt l r → ∃ m, e.eval (σ.val E) = .fin m) :
    σ.cond E (lnLt i init l r) = σ.cond E (.lt l r) := by
  have hs1 : σ.ev E (.sym i) = σ i [] := by simp [St.ev, Expr.eval, St.val]
  by_cases hsame : lnLt i init l r = .lt l r
  · rw [hsame]
  have h2 := fun e => (hd e · hsame)
  clear hd
  unfold lnLt at hsame h2 ⊢
  split at hsame
  · rename_i a b
    simp only at h2 ⊢
    split at hsame
    · rename_i hl; subst hl
      simp only [if_true] at h2 ⊢
      split at hsame
      · rename_i ha; subst ha
        simp only [if_true] at h2 ⊢
        obtain ⟨m, hm⟩ := h2 b rfl
        have : σ.ev E (.max [a, b]) = max n m := by
          simp only [St.ev, Expr.eval, Expr.evalL, hn, hm, List.foldl_cons, List.foldl_nil, V.max]
          split <;> omega
        simp only [St.cond, Cond.eval, this, hs1, St.ev_of_eval hm]
        rw [Bool.eq_iff_iff]; simp; omega
      · rename_i ha
        simp only [ha, if_false] at h2 ⊢
        split at hsame
        · rename_i hb; subst hb
          simp only [if_true] at h2 ⊢
          obtain ⟨m, hm⟩ := h2 a rfl
          have : σ.ev E (.max [a, b]) = max m n := by
            simp only [St.ev, Expr.eval, Expr.evalL, hn, hm, List.foldl_cons, List.foldl_nil, V.max]
            split <;> omega
          simp only [St.cond, Cond.eval, this, hs1, St.ev_of_eval hm]
          rw [Bool.eq_iff_iff]; simp; omega
        · exact absurd rfl hsame
    · exact absurd rfl hsame
  · exact absurd rfl hsame

theorem lnClause_eval {L : LNE} {st : Int} {i : String} {init : Expr} (v : Leaf) {cl cl' : List Cond} (h : lnClause L st i init cl = .ok cl')
    (hl : ∀ c ∈ cl, ∀ c', lnLiteral L st i init c = .ok c' → c'.eval v = c.eval v) :
    cl'.any (fun c => c.eval v) = cl.any fun c => c.eval v := by
  induction cl generalizing cl' with
  | nil => simp only [lnClause, Res.ok.injEq] at h; subst h; rfl
  | cons c r ih =>
    obtain ⟨c', hc, h⟩ := Res.bind_ok h
    obtain ⟨r', hr, h⟩ := Res.bind_ok h
    simp only [Res.ok.injEq] at h; subst h
    simp only [List.any_cons]
    rw [ih hr fun c hc => hl c (List.mem_cons_of_mem _ hc), hl c (by simp) c' hc]

theorem lnCnf_eval {L : LNE} {st : Int} {i : String} {init : Expr} (v : Leaf) {f f' : CNF} (h : lnCnf L st i init f = .ok f')
    (hl : ∀ cl ∈ f, ∀ c ∈ cl, ∀ c', lnLiteral L st i init c = .ok c' → c'.eval v = c.eval v) : f'.eval v = f.eval v := by
  induction f generalizing f' with
  | nil => simp only [lnCnf, Res.ok.injEq] at h; subst h; rfl
  | cons c r ih =>
    obtain ⟨c', hc, h⟩ := Res.bind_ok h
    obtain ⟨r', hr, h⟩ := Res.bind_ok h
    simp only [Res.ok.injEq] at h; subst h
    have h1 := lnClause_eval v hc (hl c (by simp))
    have h2 := ih hr fun cl hcl => hl cl (List.mem_cons_of_mem _ hcl)
    simp only [CNF.eval, List.all_cons] at h2 ⊢
    rw [h1, h2]

/-- two loops whose conditions agree as long as an invariant holds -/
theorem Rel.iter_congr {I : St → Prop} {b b' : St → Bool} {u : St → St} {R : Rel} (hb : ∀ σ, I σ → b σ = b' σ)
    (hI : ∀ σ k σ1, I σ → b σ = true → R σ k σ1 → I (u σ1)) {σ : St} (h : I σ) (c : Ctl) (σ' : St) :
    Rel.iter b u R σ c σ' ↔ Rel.iter b' u R σ c σ' := by
  constructor
  · intro hr
    induction hr with
    | done h0 => exact .done (by rw [← hb _ h, h0])
    | step k h0 h1 h2 _ ih => exact .step k (by rw [← hb _ h, h0]) h1 h2 (ih (hI _ _ _ h h0 h1))
    | stop h0 h1 => exact .stop (by rw [← hb _ h, h0]) h1
    | ret d q h0 h1 => exact .ret d q (by rw [← hb _ h, h0]) h1
  · intro hr
    induction hr with
    | done h0 => exact .done (by rw [hb _ h, h0])
    | step k h0 h1 h2 _ ih =>
      rw [← hb _ h] at h0
      exact .step k h0 h1 h2 (ih (hI _ _ _ h h0 h1))
    | stop h0 h1 => exact .stop (by rw [hb _ h, h0]) h1
    | ret d q h0 h1 => exact .ret d q (by rw [hb _ h, h0]) h1

/-- What the rewriting of literals relies on, for a loop entered in state `σ` with stride `st`: an inequality that only one side's
use of the loop variable makes depend on it fails at exactly one value; if the stride is one in either direction, that inequality
is a clause of its own and the loop starts on the near side of the value.  A comparison with `max(init, b)` needs a positive
stride. -/
structure LitsOk (E : Env) (σ : St) (i : String) (init : Expr) (st : Int) (f : CNF) : Prop where
  start : ∃ n, init.eval (σ.val E) = .fin n
  ne : ∀ cl ∈ f, ∀ l r, .ne l r ∈ cl → ¬ (i ∈ l.atoms ↔ i ∈ r.atoms) → ∃ v0, Root E σ i l r v0 ∧
    (st = 1 → cl = [.ne l r] ∧ σ.ev E init ≤ v0) ∧ (st = -1 → cl = [.ne l r] ∧ v0 ≤ σ.ev E init)
  lt : ∀ cl ∈ f, ∀ a b, .lt (.sym i) (.max [a, b]) ∈ cl → a = init ∨ b = init →
    0 < st ∧ ∀ v, (σ.setS i v).defd E a ∧ (σ.setS i v).defd E b

theorem Root.unique {E : Env} {σ : St} {i : String} {l r : Expr} {v w : Int} (h1 : Root E σ i l r v) (h2 : Root E σ i l r w) : v = w := by
  obtain ⟨a, b, ha, hb, h⟩ := h1 v
  obtain ⟨a', b', ha', hb', h'⟩ := h2 v
  rw [ha] at ha'; rw [hb] at hb'
  simp only [V.fin.injEq] at ha' hb'
  subst ha' hb'
  exact h'.1 (h.2 rfl)

theorem Cond.ops_atoms (c : Cond) : ∀ e ∈ c.ops, ∀ x ∈ e.atoms, x ∈ c.atoms := by
  induction c using Cond.induct with
  | htt | hff | hatom x => simp [Cond.ops]
  | heq a b | hne a b | hle a b | hlt a b =>
    intro e he x hx
    simp only [Cond.ops, List.mem_cons, List.not_mem_nil, or_false] at he
    simp only [Cond.atoms, List.mem_append]
    rcases he with rfl | rfl
    · exact Or.inl hx
    · exact Or.inr hx
  | heqB a b iha ihb | hneB a b iha ihb =>
    intro e he x hx
    simp only [Cond.ops, List.mem_append] at he
    simp only [Cond.atoms, List.mem_append]
    rcases he with h | h
    · exact Or.inl (iha e h x hx)
    · exact Or.inr (ihb e h x hx)
  | hnot c ih => intro e he x hx; simp only [Cond.ops] at he; simp only [Cond.atoms]; exact ih e he x hx
  | hand l ih | hor l ih =>
    intro e he x hx
    simp only [Cond.ops, Cond.mem_opsL] at he
    obtain ⟨c, hc, he⟩ := he
    simp only [Cond.atoms, Cond.mem_atomsL]
    exact ⟨c, hc, ih c hc e he x hx⟩

theorem cnf_lit_atoms {c : Cond} {f : CNF} (h : cnf c = some f) {cl : List Cond} (hcl : cl ∈ f) {l : Cond} (hl : l ∈ cl) :
    ∀ e ∈ l.ops, ∀ x ∈ e.atoms, x ∈ c.atoms :=
  (cnf_ops (fun e => ∀ x ∈ e.atoms, x ∈ c.atoms) c f h (Cond.ops_atoms c) cl hcl).2 l hl

/-- Steps 1 and 2: the loop with the rewritten condition has the same behaviours from this state. -/
theorem lnCond_ok {E : Env} {σ : St} {i : String} (hi : i ≠ constName) {L : LNE} (hL : L.Sound) {st : Int} {l : LoopH} {f f2 : CNF}
    (hf : cnf l.cond = some f) (h2 : lnCnf L st i l.init f = .ok f2) (hst : ∀ τ : St, τ.ev E l.upd = τ i [] + st)
    (hii : i ∉ l.init.atoms) (hw : ∀ x ∈ l.body.written, x ≠ i ∧ x ∉ l.init.atoms ∧ x ∉ l.cond.atoms)
    (hok : LitsOk E σ i l.init st f) (c : Ctl) (σ' : St) :
    (LoopH.node i { l with cond := L.norm (joinCnf f2) }).den E σ c σ' ↔ (l.node i).den E σ c σ' := by
  unfold LoopH.node
  rw [Node.den, Node.den, Rel.upd_seq, Rel.upd_seq]
  simp only
  obtain ⟨n, hn⟩ := hok.start
  have hn' : σ.ev E l.init = n := St.ev_of_eval hn
  rw [hn']
  let I : St → Prop := fun τ => (∀ x, (x ∈ l.init.atoms ∨ x ∈ l.cond.atoms) → x ≠ i → τ x = σ x) ∧ (0 < st → n ≤ τ i []) ∧
    ∀ cl ∈ f, ∀ a b, .ne a b ∈ cl → ¬ (i ∈ a.atoms ↔ i ∈ b.atoms) → ∀ v0, Root E σ i a b v0 →
      (st = 1 → τ i [] ≤ v0) ∧ (st = -1 → v0 ≤ τ i [])
  have hat : ∀ cl ∈ f, ∀ lit ∈ cl, ∀ e ∈ lit.ops, ∀ x ∈ e.atoms, x ∈ l.cond.atoms := fun cl hcl lit hl => cnf_lit_atoms hf hcl hl
  have hev : ∀ τ, I τ → ∀ cl ∈ f, ∀ lit ∈ cl, ∀ c', lnLiteral L st i l.init lit = .ok c' → τ.cond E c' = τ.cond E lit := by
    intro τ hI cl hcl lit hlit c' hc'
    cases lit with
    | ne a b =>
      refine lnNe_ok hi hL hc' fun hx => ?_
      obtain ⟨v0, hr, _, _⟩ := hok.ne cl hcl a b hlit hx
      have h3 := hI.2.2 cl hcl a b hlit hx v0 hr
      refine ⟨v0, hr.congr ?_ ?_, h3⟩
      · intro x hxa hxi
        rw [hI.1 x (Or.inr (hat cl hcl _ hlit a (by simp [Cond.ops]) x hxa)) hxi]
      · intro x hxa hxi
        rw [hI.1 x (Or.inr (hat cl hcl _ hlit b (by simp [Cond.ops]) x hxa)) hxi]
    | lt a b =>
      simp only [lnLiteral, Res.ok.injEq] at hc'
      subst hc'
      by_cases hsame : lnLt i l.init a b = .lt a b
      · rw [hsame]
      have hshape : ∃ p q, a = .sym i ∧ b = .max [p, q] ∧ (p = l.init ∨ q = l.init) := by
        unfold lnLt at hsame
        split at hsame
        · rename_i p q
          split at hsame
          · split at hsame
            · exact ⟨p, q, ‹_›, rfl, Or.inl ‹_›⟩
            · split at hsame
              · exact ⟨p, q, ‹_›, rfl, Or.inr ‹_›⟩
              · exact absurd rfl hsame
          · exact absurd rfl hsame
        · exact absurd rfl hsame
      obtain ⟨p, q, rfl, rfl, hpq⟩ := hshape
      obtain ⟨hpos, hd⟩ := hok.lt cl hcl p q hlit hpq
      have hinit : l.init.eval (τ.val E) = .fin n := by
        rw [← hn]
        refine eval_congr_atoms _ _ _ rfl fun x hx => ?_
        show τ x [] = σ x []
        rw [hI.1 x (Or.inl hx) fun he => hii (he ▸ hx)]
      refine lnLt_ok hinit (hI.2.1 hpos) fun e he _ => ?_
      have hcong : ∀ e : Expr, (e = p ∨ e = q) → ∃ m, e.eval (τ.val E) = .fin m := by
        intro e he
        have hd' : (σ.setS i (τ i [])).defd E e := by rcases he with rfl | rfl; exacts [(hd _).1, (hd _).2]
        obtain ⟨m, hm⟩ := hd'
        refine ⟨m, ?_⟩
        rw [← hm, ← Tile.setS_eta τ i _ rfl]
        rw [show (τ.setS i (τ i [])) i [] = τ i [] from St.setS_same _ _ _]
        refine eval_setS_congr (fun x hx hxi => ?_) _
        rw [hI.1 x (Or.inr (hat cl hcl _ hlit (.max [p, q]) (by simp [Cond.ops]) x ?_)) hxi]
        simp only [Expr.atoms, Expr.atomsL, List.mem_append, List.append_nil]
        rcases he with rfl | rfl
        · exact Or.inl hx
        · exact Or.inr hx
      apply hcong
      unfold lnLt at he
      simp only [if_true] at he
      split at he
      · simp only [Cond.lt.injEq, true_and] at he; exact Or.inr he.symm
      · split at he
        · simp only [Cond.lt.injEq, true_and] at he; exact Or.inl he.symm
        · rcases hpq with h | h <;> exact absurd h ‹_›
    | _ => simp only [lnLiteral, Res.ok.injEq] at hc'; rw [hc']
  have hb : ∀ τ, I τ → τ.cond E l.cond = τ.cond E (L.norm (joinCnf f2)) := by
    intro τ hI
    rw [hL.norm]
    show l.cond.eval _ = (joinCnf f2).eval _
    rw [joinCnf_eval, ← cnf_sound _ _ hf, lnCnf_eval _ h2]
    exact fun cl hcl lit hlit c' hc' => hev τ hI cl hcl lit hlit c' hc'
  refine (Rel.iter_congr (I := I) hb ?_ ?_ c σ').symm
  · intro τ k τ1 hI hc hr
    have hk : ∀ x, (x ∈ l.init.atoms ∨ x ∈ l.cond.atoms ∨ x = i) → τ1 x = τ x := fun x hx =>
      l.body.keeps E x (fun hm => by
        obtain ⟨h1, h2, h3⟩ := hw x hm
        rcases hx with h | h | h
        · exact h2 h
        · exact h3 h
        · exact h1 h) hr
    have hnew : (τ1.setS i (τ1.ev E l.upd)) i [] = τ i [] + st := by
      rw [St.setS_same, hst, hk i (Or.inr (Or.inr rfl))]
    refine ⟨fun x hx hxi => ?_, fun hp => ?_, fun cl hcl a b hlit hx v0 hr0 => ?_⟩
    · rw [St.setS_other _ _ hxi, hk x (by rcases hx with h | h; exacts [Or.inl h, Or.inr (Or.inl h)])]
      exact hI.1 x hx hxi
    · rw [hnew]; have := hI.2.1 hp; omega
    · rw [hnew]
      have h3 := hI.2.2 cl hcl a b hlit hx v0 hr0
      obtain ⟨w, hrw, hw1, hw2⟩ := hok.ne cl hcl a b hlit hx
      have hunit : cl = [.ne a b] → τ i [] ≠ v0 := by
        intro hcl1 heq
        have hcf : CNF.eval ⟨fun e => τ.ev E e, fun x => τ x [] != 0⟩ f = true := by
          rw [cnf_sound _ _ hf]; exact hc
        simp only [CNF.eval, List.all_eq_true] at hcf
        have := hcf cl hcl
        rw [hcl1] at this
        simp only [List.any_cons, List.any_nil, Bool.or_false, Cond.eval] at this
        have hr1 : Root E τ i a b v0 := hr0.congr
          (fun x hxa hxi => by rw [hI.1 x (Or.inr (hat cl hcl _ hlit a (by simp [Cond.ops]) x hxa)) hxi])
          (fun x hxa hxi => by rw [hI.1 x (Or.inr (hat cl hcl _ hlit b (by simp [Cond.ops]) x hxa)) hxi])
        obtain ⟨p, q, hp, hq, hpq⟩ := hr1 (τ i [])
        rw [Tile.setS_eta τ i _ rfl] at hp hq
        rw [St.ev_of_eval hp, St.ev_of_eval hq, hpq.2 heq] at this
        simp at this
      refine ⟨fun hs => ?_, fun hs => ?_⟩
      · have h5 := hunit (hw1 hs).1
        have h6 := h3.1 hs
        omega
      · have h5 := hunit (hw2 hs).1
        have h6 := h3.2 hs
        omega
  · refine ⟨fun x _ hxi => by rw [St.setS_other _ _ hxi], fun _ => by rw [St.setS_same], fun cl hcl a b hlit hx v0 hr0 => ?_⟩
    obtain ⟨w, hrw, hw1, hw2⟩ := hok.ne cl hcl a b hlit hx
    have := hrw.unique hr0
    subst this
    rw [St.setS_same, ← hn']
    exact ⟨fun h => (hw1 h).2, fun h => (hw2 h).2⟩

mutual
/-- nothing stands behind a `Return` in its sequence (DeadCFGElimination removes such code) -/
def Node.noTail : Node → Bool
  | .seq s => s.noTail
  | .ifElse b => b.noTail
  | .whileL s => s.noTail
  | .loop _ _ _ _ _ s => s.noTail
  | _ => true
/-- the same for a sequence -/
def Seq.noTail : Seq → Bool
  | .nil => true
  | .cons n t r => match n, t, r with
    | .ret _ _, [], .nil => true
    | .ret _ _, _, _ => false
    | n, _, r => n.noTail && r.noTail
/-- the same for cases -/
def Brs.noTail : Brs → Bool
  | .nil => true
  | .cons _ s r => s.noTail && r.noTail
end

theorem Cond.boolSyms_atoms (c : Cond) : ∀ x ∈ c.boolSyms, x ∈ c.atoms := by
  induction c using Cond.induct with
  | htt | hff | heq a b | hne a b | hle a b | hlt a b => simp [Cond.boolSyms]
  | hatom x => simp [Cond.boolSyms, Cond.atoms]
  | heqB a b iha ihb | hneB a b iha ihb =>
    intro x hx
    simp only [Cond.boolSyms, List.mem_append] at hx
    simp only [Cond.atoms, List.mem_append]
    rcases hx with h | h
    · exact Or.inl (iha x h)
    · exact Or.inr (ihb x h)
  | hnot c ih => intro x hx; simp only [Cond.boolSyms] at hx; simp only [Cond.atoms]; exact ih x hx
  | hand l ih | hor l ih =>
    intro x hx
    simp only [Cond.boolSyms, Cond.mem_boolSymsL] at hx
    obtain ⟨c, hc, hx⟩ := hx
    simp only [Cond.atoms, Cond.mem_atomsL]
    exact ⟨c, hc, ih c hc x hx⟩

theorem Stmt.written_accessed (s : Stmt) (x : String) (h : x ∈ (match s with | .tasklet _ _ o _ => [o] | .lib _ _ w => w)) :
    x ∈ s.accessed := by
  cases s <;> simp only [Stmt.accessed, List.mem_append] <;> exact Or.inr h

mutual
/-- A variable with memlet uses only is not accessed, not written and not tested. -/
theorem Node.onlyMemlets (x : String) : (n : Node) → n.noTail = true → x ∉ n.otherUses →
    x ∉ n.accessed ∧ x ∉ n.written ∧ x ∉ n.boolSyms
  | .block l, _, h => by
    simp only [Node.otherUses] at h
    refine ⟨by simpa only [Node.accessed] using h, ?_, by simp [Node.boolSyms]⟩
    simp only [Node.written]
    intro hw
    obtain ⟨s, hs, hx⟩ := List.mem_flatMap.1 hw
    exact h (List.mem_flatMap.2 ⟨s, hs, s.written_accessed x hx⟩)
  | .seq s, ht, h => by
    simp only [Node.otherUses, Node.accessed, Node.written, Node.boolSyms, Node.noTail] at *
    exact s.onlyMemlets x ht h
  | .ifElse b, ht, h => by
    simp only [Node.otherUses, Node.accessed, Node.written, Node.boolSyms, Node.noTail] at *
    exact b.onlyMemlets x ht h
  | .whileL s, ht, h => by
    simp only [Node.otherUses, Node.accessed, Node.written, Node.boolSyms, Node.noTail] at *
    exact s.onlyMemlets x ht h
  | .loop _ i a c u s, ht, h => by
    simp only [Node.otherUses, Node.accessed, Node.written, Node.boolSyms, Node.noTail, List.mem_cons, List.mem_append, not_or] at *
    obtain ⟨h0, ⟨⟨h1, h2⟩, h3⟩, h4⟩ := h
    obtain ⟨h5, h6, h7⟩ := s.onlyMemlets x ht h4
    exact ⟨h5, ⟨h0, h6⟩, fun hb => h2 (Cond.boolSyms_atoms c x hb), h7⟩
  | .brk, _, _ => by simp [Node.accessed, Node.written, Node.boolSyms]
  | .cont, _, _ => by simp [Node.accessed, Node.written, Node.boolSyms]
  | .ret d q, _, h => by
    simp only [Node.otherUses] at h
    exact ⟨by simpa only [Node.accessed] using h, by simp [Node.written], by simp [Node.boolSyms]⟩
theorem Seq.onlyMemlets (x : String) : (s : Seq) → s.noTail = true → x ∉ s.otherUses →
    x ∉ s.accessed ∧ x ∉ s.written ∧ x ∉ s.boolSyms
  | .nil, _, _ => by simp [Seq.accessed, Seq.written, Seq.boolSyms]
  | .cons n t r, ht, h => by
    by_cases hret : ∃ d q, n = .ret d q
    · obtain ⟨d, q, rfl⟩ := hret
      cases t with
      | cons a t => simp [Seq.noTail] at ht
      | nil =>
        cases r with
        | cons a b c => simp [Seq.noTail] at ht
        | nil =>
          simp only [Seq.otherUses] at h
          simp only [Seq.accessed, Node.accessed, Seq.written, Node.written, Seq.boolSyms, Node.boolSyms, List.append_nil, List.map_nil]
          exact ⟨h, by simp, by simp⟩
    · have hu : (Seq.cons n t r).otherUses = n.otherUses ++ t.map (·.1) ++ t.flatMap (fun a => a.2.atoms) ++ r.otherUses := by
        cases n <;> first | rfl | exact absurd ⟨_, _, rfl⟩ hret
      have hn : (Seq.cons n t r).noTail = (n.noTail && r.noTail) := by
        cases n <;> first | rfl | exact absurd ⟨_, _, rfl⟩ hret
      rw [hu] at h
      rw [hn, Bool.and_eq_true] at ht
      simp only [List.mem_append, not_or] at h
      obtain ⟨⟨⟨h1, h2⟩, h3⟩, h4⟩ := h
      obtain ⟨a1, a2, a3⟩ := n.onlyMemlets x ht.1 h1
      obtain ⟨b1, b2, b3⟩ := r.onlyMemlets x ht.2 h4
      simp only [Seq.accessed, Seq.written, Seq.boolSyms, List.mem_append, not_or]
      exact ⟨⟨a1, b1⟩, ⟨⟨a2, h2⟩, b2⟩, a3, b3⟩
theorem Brs.onlyMemlets (x : String) : (b : Brs) → b.noTail = true → x ∉ b.otherUses →
    x ∉ b.accessed ∧ x ∉ b.written ∧ x ∉ b.boolSyms
  | .nil, _, _ => by simp [Brs.accessed, Brs.written, Brs.boolSyms]
  | .cons c s r, ht, h => by
    simp only [Brs.otherUses, Brs.accessed, Brs.written, Brs.boolSyms, Brs.noTail, List.mem_append, not_or, Bool.and_eq_true] at *
    obtain ⟨⟨h1, h2⟩, h3⟩ := h
    obtain ⟨a1, a2, a3⟩ := s.onlyMemlets x ht.1 h2
    obtain ⟨b1, b2, b3⟩ := r.onlyMemlets x ht.2 h3
    exact ⟨⟨a1, b1⟩, ⟨a2, b2⟩, ⟨fun hb => h1 (Cond.boolSyms_atoms c x hb), a3⟩, b3⟩
end

/-- the same outcomes, and final states that agree except for one variable -/
def SameOff (i : String) (σ : St) (R S : Rel) : Prop :=
  ∀ c, (∀ σ', R σ c σ' → ∃ τ', S σ c τ' ∧ ∀ z, z ≠ i → σ' z = τ' z) ∧ (∀ τ', S σ c τ' → ∃ σ', R σ c σ' ∧ ∀ z, z ≠ i → σ' z = τ' z)

theorem Subst.setI {E : Env} {i : String} {r : Expr} {σ τ : St} (h : ∀ z, z ≠ i → σ z = τ z) {v w : Int}
    (hr : r.eval ((τ.setS i w).val E) = .fin v) : Subst E i r (σ.setS i v) (τ.setS i w) := by
  refine ⟨fun z hz => ?_, by rw [St.setS_same]; exact hr⟩
  rw [St.setS_other _ _ hz, St.setS_other _ _ hz, h z hz]

/-- a loop whose states are related by a substitution -/
theorem loop_subst {E : Env} {i : String} {r : Expr} {a a' : Expr} {k k' : Cond} {u u' : Expr} {s : Seq} {σ : St}
    (ha : r.eval ((σ.setS i (σ.ev E a')).val E) = .fin (σ.ev E a))
    (hk : ∀ σ τ, Subst E i r σ τ → σ.cond E k = τ.cond E k')
    (hu : ∀ σ τ, Subst E i r σ τ → r.eval ((τ.setS i (τ.ev E u')).val E) = .fin (σ.ev E u))
    (hs : Rel.bis (Subst E i r) (s.den E) ((s.replace i r).den E)) :
    SameOff i σ ((Node.loop false i a k u s).den E) ((Node.loop false i a' k' u' (s.replace i r)).den E) := by
  have h0 : Subst E i r (σ.setS i (σ.ev E a)) (σ.setS i (σ.ev E a')) := Subst.setI (fun _ _ => rfl) ha
  have hb := Rel.iter_bis (u := fun σ => σ.setS i (σ.ev E u)) (u' := fun σ => σ.setS i (σ.ev E u')) hk
    (fun σ τ h => Subst.setI h.1 (hu σ τ h)) hs
  intro c
  rw [Node.den, Node.den, Rel.upd_seq, Rel.upd_seq]
  refine ⟨fun σ' h => ?_, fun τ' h => ?_⟩
  · obtain ⟨τ', h1, h2⟩ := hb.1 _ _ c σ' h0 h
    exact ⟨τ', h1, h2.1⟩
  · obtain ⟨σ', h1, h2⟩ := hb.2 _ _ c τ' h0 h
    exact ⟨σ', h1, h2.1⟩

theorem St.ev_int (E : Env) (σ : St) (n : Int) : σ.ev E (.int n) = n := by simp [St.ev, Expr.eval]
theorem St.ev_sym (E : Env) (σ : St) (x : String) : σ.ev E (.sym x) = σ x [] := by simp [St.ev, Expr.eval, St.val]

/-- Step 3: the shifted loop has the same behaviours, except for the final value of the loop variable. -/
theorem lnShift_ok {E : Env} {σ : St} {i : String} {L : LNE} (hL : L.Sound) {st : Int} {l l' : LoopH} {f : CNF}
    (hf : cnf l.cond = some f) (h : lnShift L i f l = some l') (hst : ∀ τ : St, τ.ev E l.upd = τ i [] + st) (hb : i ∉ l.cond.boolSyms)
    (ht : l.body.noTail = true) (hm : i ∉ l.body.otherUses)
    (hd : ∀ r, f = [[.lt (.sym i) r]] → i ∉ r.atoms → ∀ τ : St, τ.defd E r) :
    SameOff i σ ((l.node i).den E) ((l'.node i).den E) := by
  unfold lnShift at h
  split at h
  · rename_i n hn
    split at h
    · simp at h
    · simp only [Option.some.injEq] at h
      subst h
      obtain ⟨m1, m2, m3⟩ := l.body.onlyMemlets i ht hm
      have hr : ∀ (τ : St) (v : Int), (Expr.add [.sym i, .int n]).eval ((τ.setS i v).val E) = .fin (v + n) := by
        intro τ v
        refine eval_add2 ?_ rfl
        simp [Expr.eval, St.val, St.setS_same]
      have hval : ∀ σ τ, Subst E i (.add [.sym i, .int n]) σ τ → σ i [] = τ i [] + n := by
        intro σ τ h
        have h1 := h.2
        rw [← Tile.setS_eta τ i _ rfl, hr] at h1
        simpa using h1.symm
      unfold LoopH.node
      rw [hn]
      refine loop_subst ?_ ?_ ?_ (l.body.replace_bis E i _ m1 m2 m3 ?_)
      · rw [hr, St.ev_int, St.ev_int]; simp
      · intro σ τ hS
        have hsub : σ.cond E l.cond = τ.cond E (L.norm (l.cond.subs (.sym i) (.add [.sym i, .int n]))) := by
          rw [hL.norm]; exact hS.cond _ hb
        split
        · rename_i x r
          split
          · rename_i hx
            obtain ⟨rfl, hir⟩ := hx
            obtain ⟨v, hv⟩ := hd r rfl hir τ
            rw [hL.norm]
            have hc : σ.cond E l.cond = σ.cond E (.lt (.sym x) r) := by
              show l.cond.eval _ = Cond.eval _ _
              rw [← cnf_sound _ _ hf, leaf_eval]
            rw [hc]
            have h1 : σ.ev E r = v := by
              rw [← St.ev_of_eval hv]
              exact St.ev_congr E fun z hz => by rw [hS.1 z fun he : z = x => hir (he ▸ hz)]
            have h2 : τ.ev E (ssub r (.int n)) = v - n := St.ev_of_eval (eval_ssub hv rfl)
            simp only [St.cond, Cond.eval, St.ev_sym, h1, h2, hval σ τ hS]
            rw [Bool.eq_iff_iff]; simp; omega
          · exact hsub
        · exact hsub
      · intro σ τ hS
        rw [hr, hst, hst, hval σ τ hS]
        congr 1; omega
      · intro o ho hx
        simp only [Expr.atoms, Expr.atomsL, List.append_nil, List.mem_singleton] at hx
        exact m2 (hx ▸ ho)
  · simp at h

/-- Step 4: the reversed loop has the same behaviours, except for the final value of the loop variable. -/
theorem lnReverse_ok {E : Env} {σ : St} {i : String} {L : LNE} (hL : L.Sound) {st : Int} {l l' : LoopH} {f : CNF}
    (hf : cnf l.cond = some f) (h : lnReverse L st i f l = some l') (hst : ∀ τ : St, τ.ev E l.upd = τ i [] + st)
    (ht : l.body.noTail = true) (hm : i ∉ l.body.otherUses) (hii : i ∉ l.init.atoms) (hdi : ∀ τ : St, τ.defd E l.init)
    (hlhs : ∀ a, f = [[.lt a (.sym i)]] → i ∉ a.atoms ∧ ∀ τ : St, τ.defd E a)
    (hw : ∀ x ∈ l.body.written, x ∉ l.init.atoms ∧ x ∉ l.cond.atoms) :
    SameOff i σ ((l.node i).den E) ((l'.node i).den E) := by
  unfold lnReverse at h
  split at h
  · simp at h
  rename_i hs1
  have hs1 : st = -1 := by simpa using hs1
  subst hs1
  split at h
  · rename_i a x
    split at h
    · rename_i hx; subst hx
      simp only [Option.some.injEq] at h
      subst h
      obtain ⟨m1, m2, m3⟩ := l.body.onlyMemlets x ht hm
      obtain ⟨hia, hda⟩ := hlhs a rfl
      have hr : ∀ (τ : St) (v : Int), (ssub l.init (ssub (.sym x) (.add [a, .int 1]))).eval ((τ.setS x v).val E) =
          .fin (τ.ev E l.init - (v - (τ.ev E a + 1))) := by
        intro τ v
        refine eval_ssub ?_ (eval_ssub ?_ (eval_add2 ?_ rfl))
        · rw [eval_setS_free hii]; exact St.eval_of_defd (hdi τ)
        · simp [Expr.eval, St.val, St.setS_same]
        · rw [eval_setS_free hia]; exact St.eval_of_defd (hda τ)
      have hval : ∀ σ τ, Subst E x (ssub l.init (ssub (.sym x) (.add [a, .int 1]))) σ τ →
          σ x [] = τ.ev E l.init - (τ x [] - (τ.ev E a + 1)) := by
        intro σ τ h
        have h1 := h.2
        have h2 := hr τ (τ x [])
        rw [Tile.setS_eta τ x _ rfl] at h2
        rw [h2] at h1
        simpa using h1.symm
      have hev : ∀ (τ : St) (e : Expr), τ.defd E e → τ.ev E (.add [e, .int 1]) = τ.ev E e + 1 := fun τ e he =>
        St.ev_of_eval (eval_add2 (St.eval_of_defd he) rfl)
      unfold LoopH.node
      refine loop_subst ?_ ?_ ?_ (l.body.replace_bis E x _ m1 m2 m3 ?_)
      · rw [hr, hev _ _ (hda σ)]; congr 1; omega
      · intro σ τ hS
        rw [hL.norm]
        have hc : σ.cond E l.cond = σ.cond E (.lt a (.sym x)) := by
          show l.cond.eval _ = Cond.eval _ _
          rw [← cnf_sound _ _ hf, leaf_eval]
        rw [hc]
        have h1 : σ.ev E a = τ.ev E a :=
          St.ev_congr E fun z hz => by rw [hS.1 z fun he : z = x => hia (he ▸ hz)]
        simp only [St.cond, Cond.eval, St.ev_sym, h1, hev _ _ (hdi τ), hval σ τ hS]
        rw [Bool.eq_iff_iff]; simp; omega
      · intro σ τ hS
        have h2 : τ.ev E (.add [.sym x, .int 1]) = τ x [] + 1 := St.ev_of_eval (eval_add2 (by simp [Expr.eval, St.val]) rfl)
        rw [hr, hst, hval σ τ hS, h2]
        congr 1; omega
      · intro o ho hx
        simp only [ssub, Expr.atoms, Expr.atomsL, List.append_nil, List.nil_append, List.mem_append, List.mem_cons, List.not_mem_nil, or_false] at hx
        rcases hx with h | h | h
        · exact (hw o ho).1 h
        · exact m2 (h ▸ ho)
        · exact (hw o ho).2 (cnf_lit_atoms hf (cl := [.lt a (.sym x)]) (by simp) (l := .lt a (.sym x)) (by simp) a (by simp [Cond.ops]) o h)
    · simp at h
  · simp at h

/-- What shifting and reversing rely on: the loop variable is an integer, nothing stands behind a `Return`, the body does not change
the bounds, the bounds always have a value, and a lower bound does not mention the loop variable. -/
structure MoveOk (E : Env) (i : String) (l : LoopH) : Prop where
  bool : i ∉ l.cond.boolSyms
  tail : l.body.noTail = true
  init : i ∉ l.init.atoms
  keep : ∀ x ∈ l.body.written, x ∉ l.init.atoms ∧ x ∉ l.cond.atoms
  defI : ∀ τ : St, τ.defd E l.init
  defC : ∀ (τ : St), ∀ e ∈ l.cond.ops, τ.defd E e
  lower : ∀ a, cnf l.cond = some [[.lt a (.sym i)]] → i ∉ a.atoms

theorem lnMove_ok {E : Env} {σ : St} {i : String} {L : LNE} (hL : L.Sound) {st : Int} {l l' : LoopH} (h : lnMove L st i l = some l')
    (hst : ∀ τ : St, τ.ev E l.upd = τ i [] + st) (hok : MoveOk E i l) : SameOff i σ ((l.node i).den E) ((l'.node i).den E) := by
  unfold lnMove at h
  split at h
  · simp at h
  rename_i hm
  split at h
  · simp at h
  rename_i f hf
  have hops : ∀ cl ∈ f, ∀ c ∈ cl, ∀ e ∈ c.ops, e ∈ l.cond.ops := fun cl hcl c hc =>
    (cnf_ops (fun e => e ∈ l.cond.ops) l.cond f hf (fun _ h => h) cl hcl).2 c hc
  split at h
  · refine lnShift_ok hL hf h hst hok.bool hok.tail hm ?_
    rintro r rfl _ τ
    exact hok.defC τ r (hops [.lt (.sym i) r] (by simp) (.lt (.sym i) r) (by simp) r (by simp [Cond.ops]))
  · refine lnReverse_ok hL hf h hst hok.tail hm hok.init hok.defI ?_ hok.keep
    rintro a rfl
    exact ⟨hok.lower a hf, fun τ => hok.defC τ a (hops [.lt a (.sym i)] (by simp) (.lt a (.sym i)) (by simp) a (by simp [Cond.ops]))⟩

theorem toInt32_small {d : Int} (h : -2 ^ 31 ≤ d ∧ d < 2 ^ 31) : toInt32 d = d := by
  unfold toInt32
  omega

theorem SameOff.of_iff {i : String} {σ : St} {R S : Rel} (h : ∀ c σ', R σ c σ' ↔ S σ c σ') : SameOff i σ R S :=
  fun c => ⟨fun σ' hr => ⟨σ', (h c σ').1 hr, fun _ _ => rfl⟩, fun σ' hr => ⟨σ', (h c σ').2 hr, fun _ _ => rfl⟩⟩

theorem SameOff.of_left {i : String} {σ : St} {R R' S : Rel} (h : ∀ c σ', R σ c σ' ↔ R' σ c σ') (h2 : SameOff i σ R S) : SameOff i σ R' S := by
  intro c
  refine ⟨fun σ' hr => (h2 c).1 σ' ((h c σ').2 hr), fun τ' hs => ?_⟩
  obtain ⟨σ', h3, h4⟩ := (h2 c).2 τ' hs
  exact ⟨σ', (h c σ').1 h3, h4⟩

/-- What the pass relies on, for a for loop entered in state `σ`: its update adds a constant `d`, which is the one the pass computes;
the body changes neither the loop variable nor the symbols of its bounds; and the literals (`LitsOk`) and the loop with the rewritten
condition (`MoveOk`) are as required. -/
structure NormOk (L : LNE) (E : Env) (A : Assums) (σ : St) (i : String) (l : LoopH) (d : Int) : Prop where
  name : i ≠ constName
  step : ∀ τ : St, τ.ev E l.upd = τ i [] + d
  small : -2 ^ 31 ≤ d ∧ d < 2 ^ 31
  found : ∀ m k, affineIntCoeffs L.P A l.upd i = some (m, k) → k = d
  init : i ∉ l.init.atoms
  keep : ∀ x ∈ l.body.written, x ≠ i ∧ x ∉ l.init.atoms ∧ x ∉ l.cond.atoms
  lits : ∀ f, cnf l.cond = some f → LitsOk E σ i l.init d f
  move : ∀ f f2, cnf l.cond = some f → lnCnf L d i l.init f = .ok f2 → MoveOk E i { l with cond := L.norm (joinCnf f2) }

theorem lnStep1_ok {L : LNE} (hL : L.Sound) {E : Env} {i : String} {l : LoopH} {f : CNF} (hf : cnf l.cond = some f) :
    (LoopH.node i { l with cond := L.norm (joinCnf (f.map (·.map L.simp))) }).den E = (l.node i).den E := by
  have hc : (fun σ : St => σ.cond E (L.norm (joinCnf (f.map (·.map L.simp))))) = fun σ => σ.cond E l.cond := by
    funext σ
    rw [hL.norm]
    show (joinCnf _).eval _ = l.cond.eval _
    rw [joinCnf_eval, ← cnf_sound _ _ hf]
    simp only [CNF.eval, List.all_map, Function.comp_def, List.any_map]
    congr 1
    funext cl
    congr 1
    funext c
    exact hL.simp E σ c
  unfold LoopH.node
  rw [Node.den, Node.den]
  simp only
  rw [hc]

theorem loopNormalize_cases {L : LNE} {A : Assums} {i : String} {l l' : LoopH} {ap : Bool} (h : loopNormalize L A i l = .ok (l', ap)) :
    (l' = l) ∨ ∃ f, cnf l.cond = some f ∧ (l' = { l with cond := L.norm (joinCnf (f.map (·.map L.simp))) } ∨
      ∃ m k f2, affineIntCoeffs L.P A l.upd i = some (m, k) ∧ lnCnf L (toInt32 k) i l.init f = .ok f2 ∧
        (l' = { l with cond := L.norm (joinCnf f2) } ∨ lnMove L (toInt32 k) i { l with cond := L.norm (joinCnf f2) } = some l')) := by
  unfold loopNormalize at h
  split at h
  · simp only [Res.ok.injEq, Prod.mk.injEq] at h; exact Or.inl h.1.symm
  · rename_i f hf
    refine Or.inr ⟨f, hf, ?_⟩
    simp only at h
    split at h
    · simp only [Res.ok.injEq, Prod.mk.injEq] at h; exact Or.inl h.1.symm
    · rename_i m k hk
      split at h
      · simp at h
      split at h
      · simp only [Res.ok.injEq, Prod.mk.injEq] at h; exact Or.inl h.1.symm
      split at h
      · simp at h
      split at h
      · simp only [Res.ok.injEq, Prod.mk.injEq] at h; exact Or.inl h.1.symm
      obtain ⟨f2, h2, h⟩ := Res.bind_ok h
      refine Or.inr ⟨m, k, f2, hk, h2, ?_⟩
      split at h
      · rename_i l3 h3
        simp only [Res.ok.injEq, Prod.mk.injEq] at h
        exact Or.inr (h.1 ▸ h3)
      · simp only [Res.ok.injEq, Prod.mk.injEq] at h; exact Or.inl h.1.symm

/-- **C17** (partial): from a state that meets `NormOk`, the normalised loop has the same outcomes as the original and ends in states
that agree except for the loop variable — the body has run for the same original index values.  Missing: everything `NormOk` asks
and the pass does not check (see the `_violated` theorems), and the final value of the loop variable. -/
theorem loop_normalization_partial (L : LNE) (hL : L.Sound) (E : Env) (A : Assums) (i : String) (l l' : LoopH) (ap : Bool)
    (h : loopNormalize L A i l = .ok (l', ap)) (σ : St) (d : Int) (hok : NormOk L E A σ i l d) :
    SameOff i σ ((l.node i).den E) ((l'.node i).den E) := by
  rcases loopNormalize_cases h with rfl | ⟨f, hf, rfl | ⟨m, k, f2, hk, h2, h3⟩⟩
  · exact SameOff.of_iff fun _ _ => Iff.rfl
  · rw [lnStep1_ok hL hf]; exact SameOff.of_iff fun _ _ => Iff.rfl
  · have := hok.found m k hk
    subst this
    rw [toInt32_small hok.small] at h2 h3
    have hc := lnCond_ok hok.name hL hf h2 hok.step hok.init hok.keep (hok.lits f hf)
    rcases h3 with rfl | h3
    · exact SameOff.of_iff fun c σ' => (hc c σ').symm
    · exact SameOff.of_left hc (lnMove_ok hL h3 hok.step (hok.move f f2 hf h2))

/-- **C17** (partial, loop not moved): if the pass leaves the initial value and the update alone, the behaviours are exactly the
same, including the loop variable. -/
theorem loop_normalization_condition_partial (L : LNE) (hL : L.Sound) (E : Env) (A : Assums) (i : String) (l l' : LoopH) (ap : Bool)
    (h : loopNormalize L A i l = .ok (l', ap)) (σ : St) (d : Int) (hok : NormOk L E A σ i l d) (h1 : l'.init = l.init)
    (h2 : l'.upd = l.upd) (c : Ctl) (σ' : St) : (l'.node i).den E σ c σ' ↔ (l.node i).den E σ c σ' := by
  rcases loopNormalize_cases h with rfl | ⟨f, hf, rfl | ⟨m, k, f2, hk, hf2, h3⟩⟩
  · exact Iff.rfl
  · rw [lnStep1_ok hL hf]
  · have := hok.found m k hk
    subst this
    rw [toInt32_small hok.small] at hf2 h3
    rcases h3 with rfl | h3
    · exact lnCond_ok hok.name hL hf hf2 hok.step hok.init hok.keep (hok.lits f hf) c σ'
    · exfalso
      unfold lnMove at h3
      split at h3
      · simp at h3
      split at h3
      · simp at h3
      split at h3
      · unfold lnShift at h3
        split at h3
        · rename_i n hn
          split at h3
          · simp at h3
          · simp only [Option.some.injEq] at h3
            subst h3
            simp only at h1 hn
            rw [hn] at h1
            simp only [Expr.int.injEq] at h1
            exact absurd h1.symm ‹_›
        · simp at h3
      · unfold lnReverse at h3
        split at h3
        · simp at h3
        rename_i hk1
        split at h3
        · split at h3
          · simp only [Option.some.injEq] at h3
            subst h3
            have h5 := hok.step (fun _ _ => 0)
            simp only at h2
            rw [← h2, St.ev_of_eval (eval_add2 (x := 0) (y := 1) rfl rfl)] at h5
            simp only [ne_eq, Decidable.not_not] at hk1
            rw [hk1] at h5
            exact absurd h5 (by decide)
          · simp at h3
        · simp at h3

/-! ### examples and violations -/

/-- an engine that recognises `x`, `x + n` and `x*x` -/
def exLN : LNE := ⟨⟨fun e g => match e, g with
  | .sym x, [y] => if x = y then some [([1], .int 1)] else none
  | .add [.sym x, .int n], [y] => if x = y then some [([1], .int 1), ([0], .int n)] else none
  | .mul [.sym x, .sym z], [y] => if x = y ∧ z = y then some [([2], .int 1)] else none
  | _, _ => none, id, fun e => match e.intSum with | some n => .int n | none => e⟩, id, id⟩

theorem exLN_poly {e : Expr} {g : List String} {p : Poly} (h : exLN.P.poly e g = some p) :
    ∃ y, g = [y] ∧ ((e = .sym y ∧ p = [([1], .int 1)]) ∨ (∃ n, e = .add [.sym y, .int n] ∧ p = [([1], .int 1), ([0], .int n)]) ∨
      (e = .mul [.sym y, .sym y] ∧ p = [([2], .int 1)])) := by
  simp only [exLN] at h
  split at h
  · rename_i x y
    split at h
    · rename_i hxy; subst hxy
      simp only [Option.some.injEq] at h
      exact ⟨x, rfl, Or.inl ⟨rfl, h.symm⟩⟩
    · simp at h
  · rename_i x n y
    split at h
    · rename_i hxy; subst hxy
      simp only [Option.some.injEq] at h
      exact ⟨x, rfl, Or.inr (Or.inl ⟨n, rfl, h.symm⟩)⟩
    · simp at h
  · rename_i x z y
    split at h
    · rename_i hxy; obtain ⟨rfl, rfl⟩ := hxy
      simp only [Option.some.injEq] at h
      exact ⟨_, rfl, Or.inr (Or.inr ⟨rfl, h.symm⟩)⟩
    · simp at h
  · simp at h

theorem exLN_sound : exLN.Sound where
  poly ρ := by
    constructor
    · intro e n h; exact h
    · intro e g D n h hv
      obtain ⟨y, rfl, ⟨rfl, rfl⟩ | ⟨m, rfl, rfl⟩ | ⟨rfl, rfl⟩⟩ := exLN_poly h
      · simp [Expr.eval] at hv; simp [polyVal, Expr.eval, monoVal, hv]
      · simp [Expr.eval, Expr.evalL, V.add] at hv; simp [polyVal, Expr.eval, monoVal, hv]
      · simp [Expr.eval, Expr.evalL, V.mul] at hv; simp [polyVal, Expr.eval, monoVal, ← hv, Int.pow_succ]
  len e g p h := by
    obtain ⟨y, rfl, ⟨rfl, rfl⟩ | ⟨m, rfl, rfl⟩ | ⟨rfl, rfl⟩⟩ := exLN_poly h <;> simp
  free e g p h := by
    obtain ⟨y, rfl, ⟨rfl, rfl⟩ | ⟨m, rfl, rfl⟩ | ⟨rfl, rfl⟩⟩ := exLN_poly h <;> simp [Expr.atoms]
  normE := by
    intro ρ e n h
    simp only [exLN]
    split
    · rename_i k hk; rw [← h, intSum_eval ρ e k hk]; rfl
    · exact h
  simp E σ c := rfl
  norm E σ c := rfl
  atoms c x h := h

/-- `A[i] := B` -/
def exLNBody : Seq := .one (.block [.tasklet "assign" [("B", [])] "A" [.sym "i"]])
/-- `for (i = 2; i != N; i++) A[i] := B` -/
def exLNUp : LoopH := ⟨.int 2, .ne (.sym "i") (.sym "N"), .add [.sym "i", .int 1], exLNBody⟩
/-- `for (i = N; i > 0; i--) A[i] := B` -/
def exLNDown : LoopH := ⟨.sym "N", .lt (.int 0) (.sym "i"), .add [.sym "i", .int (-1)], exLNBody⟩

theorem exLN_found {E : Env} {n m k : Int} (h : affineIntCoeffs exLN.P (fun _ => none) (.add [.sym "i", .int n]) "i" = some (m, k)) : k = n := by
  have h0 := affineIntCoeffs_exact exLN.P ⟨fun _ => 0, E.fn⟩ (exLN_sound.poly _) exLN_sound.normE _ _ "i" (by decide)
    (fun D hD t ht => exLN_sound.len _ _ _ hD t ht) (by
      intro D c hD hc
      obtain ⟨y, hy, ⟨hh, _⟩ | ⟨a, hh, hp⟩ | ⟨hh, _⟩⟩ := exLN_poly hD
      · simp at hh
      · simp only [List.cons.injEq, and_true] at hy
        subst hy hp
        simp [affineCoefficients, affineCoefficients.go, pickSymbol, constName] at hc
        subst hc
        refine ⟨⟨0 + 1, by simp [Expr.intSum, Expr.intSumL]⟩, ⟨0 + a, by simp [Expr.intSum, Expr.intSumL, constName]⟩⟩
      · simp at hh) m k h n (by simp [Expr.eval, Expr.evalL, V.add])
  simp at h0
  exact h0.symm

theorem exLN_step (n : Int) (τ : St) : τ.ev exEnv (.add [.sym "i", .int n]) = τ "i" [] + n :=
  St.ev_of_eval (eval_add2 (by simp [Expr.eval, St.val]) rfl)

theorem loopNormalize_moved {L : LNE} {A : Assums} {i : String} {l l' : LoopH} {f2 : CNF} (f : CNF) (k : Int) (h1 : cnf l.cond = some f)
    (h2 : affineIntCoeffs L.P A l.upd i = some (1, k)) (h3 : fitsLong k = true) (h4 : toInt32 k ≠ 0)
    (h5 : lnCnf L (toInt32 k) i l.init f = .ok f2) (h6 : i ∉ l.body.otherUses) (h7 : cnf (L.norm (joinCnf f2)) = some f2)
    (h8 : (if toInt32 k > 0 then lnShift L i f2 { l with cond := L.norm (joinCnf f2) }
      else lnReverse L (toInt32 k) i f2 { l with cond := L.norm (joinCnf f2) }) = some l') :
    loopNormalize L A i l = .ok (l', true) := by
  have h9 : lnMove L (toInt32 k) i { l with cond := L.norm (joinCnf f2) } = some l' := by
    unfold lnMove
    rw [if_neg h6]
    simp only [h7]
    exact h8
  unfold loopNormalize
  rw [h1]
  simp only [h2, h3, h5, h4, Res.bind, h9, show fitsLong 1 = true by decide]
  simp

/-- the hypotheses of `loop_normalization_partial` hold for the upward loop and `N = 10`: it is shifted to zero -/
example (σ : St) (hN : σ "N" [] = 10) : NormOk exLN exEnv (fun _ => none) σ "i" exLNUp 1 ∧
    loopNormalize exLN (fun _ => none) "i" exLNUp =
      .ok (⟨.int 0, .lt (.sym "i") (ssub (ssub (.sym "N") (.int 0)) (.int 2)), .add [.sym "i", .int 1],
        .one (.block [.tasklet "assign" [("B", [])] "A" [.add [.sym "i", .int 2]]])⟩, true) := by
  refine ⟨⟨by decide, exLN_step 1, by decide, fun m k h => exLN_found (E := exEnv) h, by decide, by decide, ?_, ?_⟩,
    loopNormalize_moved [[.ne (.sym "i") (.sym "N")]] 1 (by simp [exLNUp, exLNDown, cnf, cnfL]) (by decide) (by decide) (by decide) rfl (by decide) (by simp [exLN, joinCnf, cnf, cnfL, lnLt]) rfl⟩
  · intro f hf
    have : f = [[.ne (.sym "i") (.sym "N")]] := by simpa [exLNUp, cnf] using hf.symm
    subst this
    refine ⟨⟨2, rfl⟩, ?_, ?_⟩
    · intro cl hcl l r hlr _
      simp only [List.mem_singleton] at hcl
      subst hcl
      simp only [List.mem_singleton, Cond.ne.injEq] at hlr
      obtain ⟨rfl, rfl⟩ := hlr
      refine ⟨10, fun v => ⟨v, 10, ?_, ?_, Iff.rfl⟩, fun _ => ⟨rfl, by simp [exLNUp, St.ev_int]⟩, fun h => absurd h (by decide)⟩
      · simp [Expr.eval, St.val, St.setS_same]
      · simp [Expr.eval, St.val, St.setS_other, hN]
    · intro cl hcl a b hlr
      simp only [List.mem_singleton] at hcl
      subst hcl
      simp at hlr
  · intro f f2 hf h2
    have : f = [[.ne (.sym "i") (.sym "N")]] := by simpa [exLNUp, cnf] using hf.symm
    subst this
    have : f2 = [[.lt (.sym "i") (ssub (.sym "N") (.int 0))]] := by
      have e : lnCnf exLN 1 "i" exLNUp.init [[.ne (.sym "i") (.sym "N")]] = .ok [[.lt (.sym "i") (ssub (.sym "N") (.int 0))]] := rfl
      rw [e] at h2
      simpa using h2.symm
    subst this
    refine ⟨by decide, by decide, by decide, by decide, fun τ => ⟨2, rfl⟩, fun τ e he => ?_, fun a ha => ?_⟩
    · have : e = .sym "i" ∨ e = ssub (.sym "N") (.int 0) := by
        simpa [exLN, joinCnf, Cond.ops, Cond.opsL] using he
      rcases this with rfl | rfl
      · exact ⟨_, rfl⟩
      · exact ⟨_, eval_ssub rfl rfl⟩
    · have e : cnf (exLN.norm (joinCnf [[.lt (.sym "i") (ssub (.sym "N") (.int 0))]])) = some [[.lt (.sym "i") (ssub (.sym "N") (.int 0))]] := by
        simp [exLN, joinCnf, cnf, cnfL]
      rw [e] at ha
      simp [ssub] at ha

/-- the hypotheses of `loop_normalization_partial` hold for the downward loop: it is reversed -/
example (σ : St) : NormOk exLN exEnv (fun _ => none) σ "i" exLNDown (-1) ∧
    loopNormalize exLN (fun _ => none) "i" exLNDown =
      .ok (⟨.add [.int 0, .int 1], .lt (.sym "i") (.add [.sym "N", .int 1]), .add [.sym "i", .int 1],
        .one (.block [.tasklet "assign" [("B", [])] "A" [ssub (.sym "N") (ssub (.sym "i") (.add [.int 0, .int 1]))]])⟩, true) := by
  refine ⟨⟨by decide, exLN_step (-1), by decide, fun m k h => exLN_found (E := exEnv) h, by decide, by decide, ?_, ?_⟩,
    loopNormalize_moved [[.lt (.int 0) (.sym "i")]] (-1) (by simp [exLNUp, exLNDown, cnf, cnfL]) (by decide) (by decide) (by decide) rfl (by decide) (by simp [exLN, joinCnf, cnf, cnfL, lnLt]) rfl⟩
  · intro f hf
    have : f = [[.lt (.int 0) (.sym "i")]] := by simpa [exLNDown, cnf] using hf.symm
    subst this
    refine ⟨⟨_, rfl⟩, ?_, ?_⟩
    · intro cl hcl l r hlr
      simp only [List.mem_singleton] at hcl
      subst hcl
      simp at hlr
    · intro cl hcl a b hlr
      simp only [List.mem_singleton] at hcl
      subst hcl
      simp at hlr
  · intro f f2 hf h2
    have : f = [[.lt (.int 0) (.sym "i")]] := by simpa [exLNDown, cnf] using hf.symm
    subst this
    have : f2 = [[.lt (.int 0) (.sym "i")]] := by
      have e : lnCnf exLN (-1) "i" exLNDown.init [[.lt (.int 0) (.sym "i")]] = .ok [[.lt (.int 0) (.sym "i")]] := rfl
      rw [e] at h2
      simpa using h2.symm
    subst this
    refine ⟨by decide, by decide, by decide, by decide, fun τ => ⟨_, rfl⟩, fun τ e he => ?_, fun a ha => ?_⟩
    · have : e = .int 0 ∨ e = .sym "i" := by
        simpa [exLN, joinCnf, Cond.ops, Cond.opsL] using he
      rcases this with rfl | rfl
      · exact ⟨_, rfl⟩
      · exact ⟨_, rfl⟩
    · have e : cnf (exLN.norm (joinCnf [[.lt (.int 0) (.sym "i")]])) = some [[.lt (.int 0) (.sym "i")]] := by
        simp [exLN, joinCnf, cnf, cnfL]
      rw [e] at ha
      simp at ha
      subst ha; decide

/-- The loop is accepted and changed, and some execution of the original leaves something in an array that no execution of the new
loop leaves there. -/
def NormBroken (l : LoopH) : Prop := ∃ (E : Env) (σ σ' : St) (l' : LoopH) (k : Int),
  loopNormalize exLN (fun _ => none) "i" l = .ok (l', true) ∧ (l.node "i").den E σ .normal σ' ∧
  ∀ c τ', (l'.node "i").den E σ c τ' → τ' "A" [k] ≠ σ' "A" [k]

/-- the initial state of the examples -/
def exLNst : St := fun x _ => if x = "B" then 1 else if x = "N" then 2 else 0

/-- **C17 fails** for an inequality that is not the only bound: `for (i = 5; i != 3 && i < 10; i++)` runs five times, the result
`for (...; i < 3 && i < 10; ...)` never. -/
theorem normalization_ne_violated :
    NormBroken ⟨.int 5, .and [.ne (.sym "i") (.int 3), .lt (.sym "i") (.int 10)], .add [.sym "i", .int 1], exLNBody⟩ := by
  obtain ⟨σ', h1, h2⟩ := Node.run_obs (E := exEnv) (σ := exLNst) 30 (x := "A") (j := [5]) (c := .normal) (v := 1)
    (s := LoopH.node "i" ⟨.int 5, .and [.ne (.sym "i") (.int 3), .lt (.sym "i") (.int 10)], .add [.sym "i", .int 1], exLNBody⟩) (by decide)
  refine ⟨exEnv, exLNst, σ', _, 5, 
    loopNormalize_moved [[.ne (.sym "i") (.int 3)], [.lt (.sym "i") (.int 10)]] 1 (by simp [cnf, cnfL]) (by decide) (by decide) (by decide) rfl (by decide) (by simp [exLN, joinCnf, cnf, cnfL, lnLt]) rfl, h1, ?_⟩
  intro c τ' h
  have := (Node.run_obs_all 30 (x := "A") (j := [5]) (c := .normal) (v := 0) (by decide) h).2
  rw [this, h2]; decide

/-- **C17 fails** when the body leaves the loop: `for (i = 5; i != 3; i++) { A[i] := B; break; }` writes `A[5]`, the result nothing. -/
theorem normalization_break_violated :
    NormBroken ⟨.int 5, .ne (.sym "i") (.int 3), .add [.sym "i", .int 1], exLNBody ++ .one .brk⟩ := by
  obtain ⟨σ', h1, h2⟩ := Node.run_obs (E := exEnv) (σ := exLNst) 30 (x := "A") (j := [5]) (c := .normal) (v := 1)
    (s := LoopH.node "i" ⟨.int 5, .ne (.sym "i") (.int 3), .add [.sym "i", .int 1], exLNBody ++ .one .brk⟩) (by decide)
  refine ⟨exEnv, exLNst, σ', _, 5, 
    loopNormalize_moved [[.ne (.sym "i") (.int 3)]] 1 (by simp [cnf, cnfL]) (by decide) (by decide) (by decide) rfl (by decide) (by simp [exLN, joinCnf, cnf, cnfL, lnLt]) rfl, h1, ?_⟩
  intro c τ' h
  have := (Node.run_obs_all 30 (x := "A") (j := [5]) (c := .normal) (v := 0) (by decide) h).2
  rw [this, h2]; decide

/-- **C17 fails** when the body changes the initial value's symbol: `for (i = N; i > 0; i--) { A[i] := B; N := 0; }` with `N = 2` runs
twice; reversed, `for (i = 1; i < N + 1; i++)` runs once. -/
theorem normalization_bound_violated :
    NormBroken ⟨.sym "N", .lt (.int 0) (.sym "i"), .add [.sym "i", .int (-1)],
      .cons (.block [.tasklet "assign" [("B", [])] "A" [.sym "i"]]) [("N", .int 0)] .nil⟩ := by
  obtain ⟨σ', h1, h2⟩ := Node.run_obs (E := exEnv) (σ := exLNst) 30 (x := "A") (j := [1]) (c := .normal) (v := 1)
    (s := LoopH.node "i" ⟨.sym "N", .lt (.int 0) (.sym "i"), .add [.sym "i", .int (-1)],
      .cons (.block [.tasklet "assign" [("B", [])] "A" [.sym "i"]]) [("N", .int 0)] .nil⟩) (by decide)
  refine ⟨exEnv, exLNst, σ', _, 1, 
    loopNormalize_moved [[.lt (.int 0) (.sym "i")]] (-1) (by simp [cnf, cnfL]) (by decide) (by decide) (by decide) rfl (by decide) (by simp [exLN, joinCnf, cnf, cnfL, lnLt]) rfl, h1, ?_⟩
  intro c τ' h
  have := (Node.run_obs_all 30 (x := "A") (j := [1]) (c := .normal) (v := 0) (by decide) h).2
  rw [this, h2]; decide

/-- **C17 fails** when the stride does not fit in 32 bits: `for (i = 1; i != 2^32; i += 2^32 - 1)` runs once; the stride is taken for −1
and the result runs never. -/
theorem normalization_stride_violated :
    NormBroken ⟨.int 1, .ne (.sym "i") (.int 4294967296), .add [.sym "i", .int 4294967295], exLNBody⟩ := by
  obtain ⟨σ', h1, h2⟩ := Node.run_obs (E := exEnv) (σ := exLNst) 30 (x := "A") (j := [1]) (c := .normal) (v := 1)
    (s := LoopH.node "i" ⟨.int 1, .ne (.sym "i") (.int 4294967296), .add [.sym "i", .int 4294967295], exLNBody⟩) (by decide)
  refine ⟨exEnv, exLNst, σ', _, 1, 
    loopNormalize_moved [[.ne (.sym "i") (.int 4294967296)]] 4294967295 (by simp [cnf, cnfL]) (by decide) (by decide) (by decide) rfl (by decide) (by simp [exLN, joinCnf, cnf, cnfL, lnLt]) rfl, h1, ?_⟩
  intro c τ' h
  have := (Node.run_obs_all 30 (x := "A") (j := [1]) (c := .normal) (v := 0) (by decide) h).2
  rw [this, h2]; decide

/-- **C17 fails** for the loops WhileToFor creates, whose initial value is the loop variable itself: `for (i = i; i > 0; i--) A[i] := B`
becomes `for (i = 1; i < i + 1; i++)`, which never terminates. -/
theorem normalization_init_violated : ∃ (E : Env) (σ σ' : St) (l l' : LoopH),
    loopNormalize exLN (fun _ => none) "i" l = .ok (l', true) ∧ (l.node "i").den E σ .normal σ' ∧ ∀ c τ', ¬ (l'.node "i").den E σ c τ' := by
  obtain ⟨σ', h1, _⟩ := Node.run_obs (E := exEnv) (σ := exLNst.setS "i" 2) 30 (x := "A") (j := [1]) (c := .normal) (v := 1)
    (s := LoopH.node "i" ⟨.sym "i", .lt (.int 0) (.sym "i"), .add [.sym "i", .int (-1)], exLNBody⟩) (by decide)
  refine ⟨exEnv, exLNst.setS "i" 2, σ', _, _, 
    loopNormalize_moved [[.lt (.int 0) (.sym "i")]] (-1) (by simp [cnf, cnfL]) (by decide) (by decide) (by decide) rfl (by decide) (by simp [exLN, joinCnf, cnf, cnfL, lnLt]) rfl, h1, ?_⟩
  intro c τ' h
  unfold LoopH.node at h
  rw [Node.den, Rel.upd_seq] at h
  generalize (exLNst.setS "i" 2).setS "i" _ = τ at h
  have hb : ∀ (τ : St) k τ1, (Seq.replace "i" (ssub (.sym "i") (ssub (.sym "i") (.add [.int 0, .int 1]))) exLNBody).den exEnv τ k τ1 → k = .normal := by
    intro τ k τ1 h
    rcases h with ⟨_, ⟨_, _⟩, ⟨_, ⟨_, _⟩, h, _⟩ | ⟨h, h', _⟩⟩ | ⟨h, h', _⟩
    · exact h
    · exact absurd h' h
    · exact absurd h' h
  have hc : ∀ τ : St, τ.cond exEnv (.lt (.sym "i") (.add [.sym "i", .int 1])) = true := by
    intro τ
    simp only [St.cond, Cond.eval, St.ev_sym, exLN_step, decide_eq_true_eq]
    omega
  induction h with
  | done h0 => exact Bool.noConfusion ((hc _).symm.trans h0)
  | step k h0 h1 h2 _ ih => exact ih
  | stop h0 h1 => exact absurd (hb _ _ _ h1) (by simp)
  | ret d q h0 h1 => exact absurd (hb _ _ _ h1) (by simp)

/-- **C17 fails** for the loop variable after the loop: `for (i = 2; i < 5; i++)` leaves `i = 5`, the shifted loop `i = 3`; the pass does
not ask whether the variable is read later. -/
theorem normalization_final_violated : ∃ (E : Env) (σ σ' : St) (l l' : LoopH),
    loopNormalize exLN (fun _ => none) "i" l = .ok (l', true) ∧ (l.node "i").den E σ .normal σ' ∧
    ∀ c τ', (l'.node "i").den E σ c τ' → τ' "i" [] ≠ σ' "i" [] := by
  obtain ⟨σ', h1, h2⟩ := Node.run_obs (E := exEnv) (σ := exLNst) 30 (x := "i") (j := []) (c := .normal) (v := 5)
    (s := LoopH.node "i" ⟨.int 2, .lt (.sym "i") (.int 5), .add [.sym "i", .int 1], exLNBody⟩) (by decide)
  refine ⟨exEnv, exLNst, σ', _, _, 
    loopNormalize_moved [[.lt (.sym "i") (.int 5)]] 1 (by simp [cnf, cnfL]) (by decide) (by decide) (by decide) rfl (by decide) (by simp [exLN, joinCnf, cnf, cnfL, lnLt]) rfl, h1, ?_⟩
  intro c τ' h
  have := (Node.run_obs_all 30 (x := "i") (j := []) (c := .normal) (v := 3) (by decide) h).2
  rw [this, h2]; decide

/-- **C17**: a condition that is not affine in the loop variable (`i*i != 9`) makes the pass dereference null pointers. -/
theorem normalization_ub : loopNormalize exLN (fun _ => none) "i"
    ⟨.int 0, .ne (.int 9) (.mul [.sym "i", .sym "i"]), .add [.sym "i", .int 1], exLNBody⟩ = .ub := by
  unfold loopNormalize
  have h1 : cnf (.ne (.int 9) (.mul [.sym "i", .sym "i"])) = some [[.ne (.int 9) (.mul [.sym "i", .sym "i"])]] := by simp [cnf]
  have h2 : affineIntCoeffs exLN.P (fun _ => none) (.add [.sym "i", .int 1]) "i" = some (1, 1) := by decide
  have h3 : lnCnf exLN (toInt32 1) "i" (.int 0) [[.ne (.int 9) (.mul [.sym "i", .sym "i"])]] = .ub := rfl
  simp only [h1, h2, h3, Res.bind, show fitsLong 1 = true by decide, show toInt32 1 ≠ 0 by decide]
  simp

end Docc.IR
