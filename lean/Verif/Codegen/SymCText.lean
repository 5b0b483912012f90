import Verif.Codegen.SymCProps
/-
C65, continued: conditions, precedence of the text, the property theorems, and where the claim fails.
-/
namespace Docc.Codegen
open Docc.C Docc.Sym

section
variable {K : Fmt} {env : String → CV K.F} {size : String → String → Int}

/-! ### conditions -/

/-- the values of operands and boolean symbols -/
def leafOf (ρ : Val) : Leaf := ⟨fun e => match e.eval ρ with | .fin n => n | _ => 0, fun x => ρ.sym x != 0⟩

/-- an operand: as for expressions, and it has a value -/
def OperOk (K : Fmt) (env : String → CV K.F) (S : SymKind) (ρ : Val) (e : Expr) : Prop :=
  Narrow ρ e ∧ (∀ x ∈ e.atoms, SymOk K env S ρ x) ∧ ∃ n, e.eval ρ = .fin n

mutual
/-- all operands are fine, boolean symbols are 0 or 1 -/
def CondOk (K : Fmt) (env : String → CV K.F) (S : SymKind) (ρ : Val) : Cond → Prop
  | .tt => True
  | .ff => True
  | .atom x => SymOk K env S ρ x ∧ (ρ.sym x = 0 ∨ ρ.sym x = 1)
  | .eq a b => OperOk K env S ρ a ∧ OperOk K env S ρ b
  | .ne a b => OperOk K env S ρ a ∧ OperOk K env S ρ b
  | .le a b => OperOk K env S ρ a ∧ OperOk K env S ρ b
  | .lt a b => OperOk K env S ρ a ∧ OperOk K env S ρ b
  | .eqB a b => CondOk K env S ρ a ∧ CondOk K env S ρ b
  | .neB a b => CondOk K env S ρ a ∧ CondOk K env S ρ b
  | .not c => CondOk K env S ρ c
  | .and l => l ≠ [] ∧ CondOkL K env S ρ l
  | .or l => l ≠ [] ∧ CondOkL K env S ρ l
/-- all members -/
def CondOkL (K : Fmt) (env : String → CV K.F) (S : SymKind) (ρ : Val) : List Cond → Prop
  | [] => True
  | c :: r => CondOk K env S ρ c ∧ CondOkL K env S ρ r
end

mutual
/-- the largest bound of an operand -/
def cbnd (ρ : Val) : Cond → Nat
  | .tt => 1
  | .ff => 1
  | .atom _ => 1
  | .eq a b => max (bnd ρ a) (bnd ρ b)
  | .ne a b => max (bnd ρ a) (bnd ρ b)
  | .le a b => max (bnd ρ a) (bnd ρ b)
  | .lt a b => max (bnd ρ a) (bnd ρ b)
  | .eqB a b => max (cbnd ρ a) (cbnd ρ b)
  | .neB a b => max (cbnd ρ a) (cbnd ρ b)
  | .not c => cbnd ρ c
  | .and l => cbndL ρ l
  | .or l => cbndL ρ l
/-- lists -/
def cbndL (ρ : Val) : List Cond → Nat
  | [] => 1
  | c :: r => max (cbnd ρ c) (cbndL ρ r)
end

theorem rel_key {o : BOp} (ho : BOp.isRel o = true) {m n : Int} {b : Bool} (hb : rel o m n = some b) {u w : CV K.F} (hs : SV u m) (hs' : SV w n) :
    binop K o u w = some (truth b) := by
  obtain ⟨t, rfl⟩ := sv_i hs
  obtain ⟨t', rfl⟩ := sv_i hs'
  obtain ⟨h1, h2, h3, h4⟩ := common_sv hs hs'
  cases o <;> simp [BOp.isRel] at ho <;> simp only [binop, h3, h4] <;> simp only [hb]

theorem GoodB.mono {x : XE} {b : Bool} {B C : Nat} (h : GoodB (K := K) (env := env) (size := size) x b B) (hc : B ≤ C) :
    GoodB (K := K) (env := env) (size := size) x b C := ⟨h.val, fun h' => h.defd (by omega)⟩

theorem GoodB.par {x : XE} {b : Bool} {B : Nat} (h : GoodB (K := K) (env := env) (size := size) x b B) :
    GoodB (K := K) (env := env) (size := size) (.par x) b B := ⟨h.val, h.defd⟩

theorem GoodB.rel {o : BOp} (ho : BOp.isRel o = true) {x y : XE} {p q : Bool} {B C : Nat}
    (hx : GoodB (K := K) (env := env) (size := size) x p B) (hy : GoodB (K := K) (env := env) (size := size) y q C) {b : Bool}
    (hb : Docc.C.rel o (if p then 1 else 0) (if q then 1 else 0) = some b) :
    GoodB (K := K) (env := env) (size := size) (.bin o x y) b (max B C) := by
  have hl : o ≠ .land ∧ o ≠ .lor := by cases o <;> simp [BOp.isRel] at ho <;> decide
  constructor
  · intro v hv
    rw [eval_ar hl.1 hl.2, Option.bind_eq_some_iff] at hv
    obtain ⟨u, hu, hv⟩ := hv
    rw [Option.bind_eq_some_iff] at hv
    obtain ⟨w, hw, hv⟩ := hv
    rw [rel_key ho hb (hx.val u hu).2 (hy.val w hw).2] at hv
    cases hv
    exact ⟨truth_isTrue b, truth_sv b⟩
  · intro hd
    obtain ⟨u, hu⟩ := hx.defd (by omega)
    obtain ⟨w, hw⟩ := hy.defd (by omega)
    rw [eval_ar hl.1 hl.2, hu, hw]
    simp only [Option.bind_some]
    rw [rel_key ho hb (hx.val u hu).2 (hy.val w hw).2]
    exact ⟨_, rfl⟩

theorem GoodB.not {x : XE} {p : Bool} {B : Nat} (hx : GoodB (K := K) (env := env) (size := size) x p B) :
    GoodB (K := K) (env := env) (size := size) (.not x) (!p) B := by
  constructor
  · intro v hv
    rw [XE.eval, Option.bind_eq_some_iff] at hv
    obtain ⟨u, hu, hv⟩ := hv
    rw [(hx.val u hu).1] at hv
    cases hv
    exact ⟨truth_isTrue _, truth_sv _⟩
  · intro hd
    obtain ⟨u, hu⟩ := hx.defd hd
    rw [XE.eval, hu, Option.bind_some, (hx.val u hu).1]
    exact ⟨_, rfl⟩

/-- `&&` and `||`: the right operand is evaluated if it matters -/
theorem GoodB.logic (isAnd : Bool) {x y : XE} {p q : Bool} {B C : Nat}
    (hx : GoodB (K := K) (env := env) (size := size) x p B) (hy : GoodB (K := K) (env := env) (size := size) y q C) :
    GoodB (K := K) (env := env) (size := size) (.bin (if isAnd then .land else .lor) x y) (if isAnd then p && q else p || q) (max B C) := by
  cases isAnd
  · simp only [Bool.false_eq_true, if_false]
    constructor
    · intro v hv
      rw [XE.eval, Option.bind_eq_some_iff] at hv
      obtain ⟨u, hu, hv⟩ := hv
      rw [(hx.val u hu).1, Option.bind_some] at hv
      cases p
      · simp only [Bool.false_eq_true, if_false] at hv
        rw [Option.bind_eq_some_iff] at hv
        obtain ⟨w, hw, hv⟩ := hv
        rw [(hy.val w hw).1] at hv
        cases hv
        exact ⟨truth_isTrue _, truth_sv _⟩
      · cases hv
        exact ⟨truth_isTrue _, truth_sv _⟩
    · intro hd
      obtain ⟨u, hu⟩ := hx.defd (by omega)
      obtain ⟨w, hw⟩ := hy.defd (by omega)
      rw [XE.eval, hu, Option.bind_some, (hx.val u hu).1, Option.bind_some]
      cases p
      · simp only [Bool.false_eq_true, if_false]
        rw [hw, Option.bind_some, (hy.val w hw).1]
        exact ⟨_, rfl⟩
      · exact ⟨_, rfl⟩
  · simp only [if_true]
    constructor
    · intro v hv
      rw [XE.eval, Option.bind_eq_some_iff] at hv
      obtain ⟨u, hu, hv⟩ := hv
      rw [(hx.val u hu).1, Option.bind_some] at hv
      cases p
      · cases hv
        exact ⟨truth_isTrue _, truth_sv _⟩
      · simp only [if_true] at hv
        rw [Option.bind_eq_some_iff] at hv
        obtain ⟨w, hw, hv⟩ := hv
        rw [(hy.val w hw).1] at hv
        cases hv
        exact ⟨truth_isTrue _, truth_sv _⟩
    · intro hd
      obtain ⟨u, hu⟩ := hx.defd (by omega)
      obtain ⟨w, hw⟩ := hy.defd (by omega)
      rw [XE.eval, hu, Option.bind_some, (hx.val u hu).1, Option.bind_some]
      cases p
      · exact ⟨_, rfl⟩
      · simp only [if_true]
        rw [hw, Option.bind_some, (hy.val w hw).1]
        exact ⟨_, rfl⟩

theorem oper_good {S : SymKind} {ρ : Val} {e : Expr} (h : OperOk K env S ρ e) :
    ∃ x, emit S e = some x ∧ Good K env size x ((leafOf ρ).ex e) (bnd ρ e) := by
  obtain ⟨h1, h2, n, h3⟩ := h
  obtain ⟨t, ht, hg⟩ := claim (size := size) e h1 h2 n h3
  refine ⟨finish t, by rw [emit, ht]; rfl, ?_⟩
  simp only [leafOf, h3]
  exact good_finish hg

theorem rel_oper {S : SymKind} {ρ : Val} {a b : Expr} {o : BOp} (ho : BOp.isRel o = true) {r : Bool} (ha : OperOk K env S ρ a) (hb : OperOk K env S ρ b)
    (hr : Docc.C.rel o ((leafOf ρ).ex a) ((leafOf ρ).ex b) = some r) :
    ∃ x y, emit S a = some x ∧ emit S b = some y ∧
      GoodB (K := K) (env := env) (size := size) (.bin o x y) r (max (bnd ρ a) (bnd ρ b)) := by
  obtain ⟨x, hx, gx⟩ := oper_good (size := size) ha
  obtain ⟨y, hy, gy⟩ := oper_good (size := size) hb
  exact ⟨x, y, hx, hy, good_rel ho gx gy hr (by omega) (by omega)⟩

theorem fold_logic (isAnd : Bool) {S : SymKind} {ρ : Val} : ∀ (l : List Cond)
    (_ : ∀ c ∈ l, CondOk K env S ρ c → ∃ x, emitC S c = some x ∧ GoodB (K := K) (env := env) (size := size) x (c.eval (leafOf ρ)) (cbnd ρ c))
    (_ : CondOkL K env S ρ l), ∃ xs, emitCL S l = some xs ∧ xs.length = l.length ∧ ∀ (acc : XE) (p : Bool) (B : Nat),
      GoodB (K := K) (env := env) (size := size) acc p B →
      GoodB (K := K) (env := env) (size := size) (xs.foldl (.bin (if isAnd then .land else .lor)) acc)
        (if isAnd then p && Cond.evalAll (leafOf ρ) l else p || Cond.evalAny (leafOf ρ) l) (max B (cbndL ρ l))
  | [], _, _ => ⟨[], rfl, rfl, fun acc p B h => by
      have : (if isAnd then p && Cond.evalAll (leafOf ρ) [] else p || Cond.evalAny (leafOf ρ) []) = p := by
        cases isAnd <;> simp [Cond.evalAll, Cond.evalAny]
      rw [this]
      exact h.mono (by omega)⟩
  | c :: r, ih, h => by
    obtain ⟨x, hx, gx⟩ := ih c List.mem_cons_self h.1
    obtain ⟨xs, hxs, hl, gxs⟩ := fold_logic isAnd r (fun c hc => ih c (List.mem_cons_of_mem _ hc)) h.2
    refine ⟨x :: xs, by rw [emitCL, hx, hxs]; rfl, by simp [hl], fun acc p B hp => ?_⟩
    have := gxs _ _ _ (hp.logic isAnd gx)
    rw [List.foldl_cons, cbndL]
    have e : (if isAnd then p && Cond.evalAll (leafOf ρ) (c :: r) else p || Cond.evalAny (leafOf ρ) (c :: r)) =
        (if isAnd then (if isAnd then p && c.eval (leafOf ρ) else p || c.eval (leafOf ρ)) && Cond.evalAll (leafOf ρ) r
          else (if isAnd then p && c.eval (leafOf ρ) else p || c.eval (leafOf ρ)) || Cond.evalAny (leafOf ρ) r) := by
      cases isAnd <;> simp [Cond.evalAll, Cond.evalAny, Bool.and_assoc, Bool.or_assoc]
    rw [e]
    exact this.mono (by omega)

theorem join_logic (isAnd : Bool) {S : SymKind} {ρ : Val} (l : List Cond) (hne : l ≠ [])
    (ih : ∀ c ∈ l, CondOk K env S ρ c → ∃ x, emitC S c = some x ∧ GoodB (K := K) (env := env) (size := size) x (c.eval (leafOf ρ)) (cbnd ρ c))
    (h : CondOkL K env S ρ l) : ∃ xs x, emitCL S l = some xs ∧ joinX (if isAnd then .land else .lor) xs = some x ∧
      GoodB (K := K) (env := env) (size := size) x (if isAnd then Cond.evalAll (leafOf ρ) l else Cond.evalAny (leafOf ρ) l) (cbndL ρ l) := by
  cases l with
  | nil => exact absurd rfl hne
  | cons c r =>
    obtain ⟨x, hx, gx⟩ := ih c List.mem_cons_self h.1
    obtain ⟨xs, hxs, hl, gxs⟩ := fold_logic (size := size) isAnd r (fun c hc => ih c (List.mem_cons_of_mem _ hc)) h.2
    exact ⟨x :: xs, _, by rw [emitCL, hx, hxs]; rfl, rfl, (gxs _ _ _ gx).par⟩

theorem claimC {S : SymKind} {ρ : Val} (c : Cond) : CondOk K env S ρ c →
    ∃ x, emitC S c = some x ∧ GoodB (K := K) (env := env) (size := size) x (c.eval (leafOf ρ)) (cbnd ρ c) := by
  induction c using Cond.induct with
  | htt => exact fun _ => ⟨_, rfl, fun v hv => (by cases hv; exact ⟨rfl, Or.inr ⟨rfl, Or.inr rfl⟩⟩), fun _ => ⟨_, rfl⟩⟩
  | hff => exact fun _ => ⟨_, rfl, fun v hv => (by cases hv; exact ⟨rfl, Or.inr ⟨rfl, Or.inl rfl⟩⟩), fun _ => ⟨_, rfl⟩⟩
  | hatom x =>
    intro ⟨⟨h1, h2, h3, hs⟩, hb⟩
    refine ⟨.sym x, by rw [emitC, printSym, h1, h2, h3]; rfl, fun v hv => ?_, fun _ => ⟨_, rfl⟩⟩
    cases hv
    obtain ⟨t, ht⟩ := sv_i hs
    rcases hb with hb | hb
    · have e : Cond.eval (leafOf ρ) (.atom x) = false := by simp [Cond.eval, leafOf, hb]
      rw [e]
      rw [hb] at hs ht
      exact ⟨by rw [ht]; rfl, hs⟩
    · have e : Cond.eval (leafOf ρ) (.atom x) = true := by simp [Cond.eval, leafOf, hb]
      rw [e]
      rw [hb] at hs ht
      exact ⟨by rw [ht]; rfl, hs⟩
  | heq a b =>
    intro ⟨ha, hb⟩
    obtain ⟨x, y, hx, hy, g⟩ := rel_oper (size := size) (o := .eq) rfl ha hb rfl
    exact ⟨_, by rw [emitC, hx, hy]; rfl, g.par⟩
  | hne a b =>
    intro ⟨ha, hb⟩
    obtain ⟨x, y, hx, hy, g⟩ := rel_oper (size := size) (o := .ne) rfl ha hb rfl
    exact ⟨_, by rw [emitC, hx, hy]; rfl, g.par⟩
  | hle a b =>
    intro ⟨ha, hb⟩
    obtain ⟨x, y, hx, hy, g⟩ := rel_oper (size := size) (o := .le) rfl ha hb rfl
    exact ⟨_, by rw [emitC, hx, hy]; rfl, g⟩
  | hlt a b =>
    intro ⟨ha, hb⟩
    obtain ⟨x, y, hx, hy, g⟩ := rel_oper (size := size) (o := .lt) rfl ha hb rfl
    exact ⟨_, by rw [emitC, hx, hy]; rfl, g⟩
  | heqB a b iha ihb =>
    intro ⟨ha, hb⟩
    obtain ⟨x, hx, gx⟩ := iha ha
    obtain ⟨y, hy, gy⟩ := ihb hb
    exact ⟨_, by rw [emitC, hx, hy]; rfl, (gx.rel (o := .eq) rfl gy (by
      rw [Cond.eval]; cases a.eval (leafOf ρ) <;> cases b.eval (leafOf ρ) <;> rfl)).par⟩
  | hneB a b iha ihb =>
    intro ⟨ha, hb⟩
    obtain ⟨x, hx, gx⟩ := iha ha
    obtain ⟨y, hy, gy⟩ := ihb hb
    exact ⟨_, by rw [emitC, hx, hy]; rfl, (gx.rel (o := .ne) rfl gy (by
      rw [Cond.eval]; cases a.eval (leafOf ρ) <;> cases b.eval (leafOf ρ) <;> rfl)).par⟩
  | hnot c ih =>
    intro h
    obtain ⟨x, hx, gx⟩ := ih h
    exact ⟨_, by rw [emitC, hx]; rfl, gx.not.par⟩
  | hand l ih =>
    intro ⟨hne, h⟩
    obtain ⟨xs, x, h1, h2, g⟩ := join_logic (size := size) true l hne ih h
    exact ⟨x, by rw [emitC, h1, Option.bind_some]; exact h2, g⟩
  | hor l ih =>
    intro ⟨hne, h⟩
    obtain ⟨xs, x, h1, h2, g⟩ := join_logic (size := size) false l hne ih h
    exact ⟨x, by rw [emitC, h1, Option.bind_some]; exact h2, g⟩

end

/-! ### the text is read as the expression -/

/-- a primary expression that is read back -/
def Prim (x : XE) : Prop := x.prec = 16 ∧ x.wf = true

/-- all factors are primary, except that a sum is one expression of lower precedence -/
def WfT (e : Expr) (t : Term) : Prop :=
  (∀ f ∈ t.2, Prim f) ∨ ((∃ l, e = .add l) ∧ ∃ x, t = (false, [x]) ∧ x.wf = true ∧ 12 ≤ x.prec)

theorem fold_mul_wf : ∀ (fs : List XE) (acc : XE), (∀ f ∈ fs, Prim f) → acc.wf = true → 13 ≤ acc.prec →
    (fs.foldl (.bin .mul) acc).wf = true ∧ 13 ≤ (fs.foldl (.bin .mul) acc).prec
  | [], acc, _, h1, h2 => ⟨h1, h2⟩
  | f :: r, acc, hf, h1, h2 => by
    have hp := hf f List.mem_cons_self
    refine fold_mul_wf r _ (fun g hg => hf g (List.mem_cons_of_mem _ hg)) ?_ (by simp [XE.prec, BOp.prec])
    simp [XE.wf, BOp.prec, hp.1, hp.2, h1, h2]

theorem finish_wf {t : Term} (h : ∀ f ∈ t.2, Prim f) : (finish t).wf = true ∧ 13 ≤ (finish t).prec := by
  obtain ⟨s, fs⟩ := t
  cases fs with
  | nil => cases s <;> decide
  | cons f r =>
    have hf := h f List.mem_cons_self
    refine fold_mul_wf r _ (fun g hg => h g (List.mem_cons_of_mem _ hg)) ?_ ?_
    · cases s
      · simpa using hf.2
      · simp [XE.wf, hf.1, hf.2]
    · cases s
      · simp [hf.1]
      · simp [XE.prec]

theorem WfT.finish {e : Expr} {t : Term} (h : WfT e t) : (finish t).wf = true ∧ 12 ≤ (finish t).prec := by
  rcases h with h | ⟨_, x, rfl, h1, h2⟩
  · have := finish_wf h
    exact ⟨this.1, by omega⟩
  · exact ⟨h1, h2⟩

theorem prim_par {x : XE} (h : x.wf = true) : Prim (.par x) := ⟨rfl, h⟩

theorem factor_prim {e : Expr} {t : Term} (h : WfT e t) (hlit : ∀ n, e = .int n → t = (decide (n < 0), [.lit n.natAbs]))
    (hone : (∀ l, e ≠ .mul l) → ∃ x, t.2 = [x]) (hsg : (∀ n, e ≠ .int n) → (∀ l, e ≠ .mul l) → t.1 = false) : Prim (factor e t) := by
  have key : (∀ l, e ≠ .add l) → (∀ l, e ≠ .mul l) → (∀ n, e ≠ .int n) → Prim (finish t) := by
    intro h1 h2 h3
    obtain ⟨x, hx⟩ := hone h2
    have hs := hsg h3 h2
    obtain ⟨s, fs⟩ := t
    simp only at hx hs
    subst hx hs
    rcases h with h | ⟨⟨l, rfl⟩, _⟩
    · exact h x List.mem_cons_self
    · exact absurd rfl (h1 l)
  cases e with
  | add l => exact prim_par h.finish.1
  | mul l => exact prim_par h.finish.1
  | int n =>
    rw [factor]
    split
    · exact prim_par h.finish.1
    · rename_i hn
      rw [hlit n rfl]
      simp only [hn, decide_false]
      exact ⟨rfl, rfl⟩
  | sym x => exact key (by simp) (by simp) (by simp)
  | inf b => exact key (by simp) (by simp) (by simp)
  | nan => exact key (by simp) (by simp) (by simp)
  | max l => exact key (by simp) (by simp) (by simp)
  | min l => exact key (by simp) (by simp) (by simp)
  | pow a b => exact key (by simp) (by simp) (by simp)
  | fn f l => exact key (by simp) (by simp) (by simp)

/-- the shape of a printed term -/
structure Shape (S : SymKind) (e : Expr) (t : Term) : Prop where
  wf : WfT e t
  lit : ∀ n, e = .int n → t = (decide (n < 0), [.lit n.natAbs])
  one : (∀ l, e ≠ .mul l) → ∃ x, t.2 = [x]
  sgn : (∀ n, e ≠ .int n) → (∀ l, e ≠ .mul l) → t.1 = false

theorem Shape.of {S : SymKind} {e : Expr} {x : XE} (h : Prim x) (h2 : ∀ n, e ≠ .int n) : Shape S e (false, [x]) :=
  ⟨Or.inl (by simpa using h), fun n hn => absurd hn (h2 n), fun _ => ⟨x, rfl⟩, fun _ _ => rfl⟩

/-- pointwise shapes of an argument list -/
inductive Shapes (S : SymKind) : List Expr → List Term → Prop
  | nil : Shapes S [] []
  | cons {e : Expr} {t : Term} {l : List Expr} {ts : List Term} : Shape S e t → Shapes S l ts → Shapes S (e :: l) (t :: ts)

theorem shapes_of {S : SymKind} : ∀ (l : List Expr), (∀ e ∈ l, ∀ t, term S e = some t → Shape S e t) → ∀ ts, termL S l = some ts → Shapes S l ts
  | [], _, ts, h => by cases h; exact .nil
  | e :: r, ih, ts, h => by
    rw [termL, Option.bind_eq_some_iff] at h
    obtain ⟨t, ht, h⟩ := h
    rw [Option.map_eq_some_iff] at h
    obtain ⟨ts', hts, rfl⟩ := h
    exact .cons (ih e List.mem_cons_self t ht) (shapes_of r (fun e he => ih e (List.mem_cons_of_mem _ he)) ts' hts)

theorem Shapes.factors {S : SymKind} {l : List Expr} {ts : List Term} (h : Shapes S l ts) : ∀ f ∈ List.zipWith factor l ts, Prim f := by
  induction h with
  | nil => simp
  | cons hs _ ih =>
    intro f hf
    rcases List.mem_cons.1 hf with rfl | hf
    · exact factor_prim hs.wf hs.lit hs.one hs.sgn
    · exact ih f hf

theorem Shapes.finishes {S : SymKind} {l : List Expr} {ts : List Term} (h : Shapes S l ts) : ∀ t ∈ ts, (finish t).wf = true := by
  induction h with
  | nil => simp
  | cons hs _ ih =>
    intro t ht
    rcases List.mem_cons.1 ht with rfl | ht
    · exact hs.wf.finish.1
    · exact ih t ht

theorem Shapes.addends {S : SymKind} {l : List Expr} {ts : List Term} (h : Shapes S l ts) :
    ∀ t ∈ List.zipWith addend l ts, ∀ f ∈ t.2, Prim f := by
  induction h with
  | nil => simp
  | @cons e t l ts hs _ ih =>
    intro u hu
    rcases List.mem_cons.1 hu with rfl | hu
    · rcases hs.wf with h | ⟨⟨l, rfl⟩, _⟩
      · have : addend e t = t ∨ addend e t = (false, [.par (finish t)]) := by cases e <;> simp [addend]
        rcases this with e' | e' <;> rw [e']
        · exact h
        · intro f hf
          simp only [List.mem_singleton] at hf
          subst hf
          exact prim_par hs.wf.finish.1
      · intro f hf
        simp only [addend, List.mem_singleton] at hf
        subst hf
        exact prim_par hs.wf.finish.1
    · exact ih u hu

theorem fold_add_wf : ∀ (ts : List Term) (acc : XE), (∀ t ∈ ts, ∀ f ∈ t.2, Prim f) → acc.wf = true → 12 ≤ acc.prec →
    (ts.foldl (fun acc t => .bin (if t.1 then .sub else .add) acc (finish (false, t.2))) acc).wf = true ∧
    12 ≤ (ts.foldl (fun acc t => XE.bin (if t.1 then .sub else .add) acc (finish (false, t.2))) acc).prec
  | [], acc, _, h1, h2 => ⟨h1, h2⟩
  | t :: r, acc, hf, h1, h2 => by
    obtain ⟨w1, w2⟩ := finish_wf (t := (false, t.2)) (hf t List.mem_cons_self)
    have hp : (if t.1 then BOp.sub else BOp.add).prec = 12 := by split <;> rfl
    refine fold_add_wf r _ (fun g hg => hf g (List.mem_cons_of_mem _ hg)) ?_ (by simp [XE.prec, hp])
    simp only [XE.wf, hp, h1, w1, Bool.and_true, Bool.and_eq_true, decide_eq_true_eq]
    omega

theorem sum_wf {ts : List Term} (h : ∀ t ∈ ts, ∀ f ∈ t.2, Prim f) : (sumX ts).wf = true ∧ 12 ≤ (sumX ts).prec := by
  cases ts with
  | nil => decide
  | cons t r =>
    obtain ⟨w1, w2⟩ := finish_wf (h t List.mem_cons_self)
    exact fold_add_wf r _ (fun g hg => h g (List.mem_cons_of_mem _ hg)) w1 (by omega)

theorem mac_wf (m : Bool) : ∀ (xs : List XE) (x : XE), (∀ y ∈ xs, y.wf = true) → macX m xs = some x → x.wf = true ∧ (xs.length = 1 ∨ Prim x)
  | [], x, _, h => by cases h
  | [a], x, hw, h => by cases h; exact ⟨hw _ List.mem_cons_self, Or.inl rfl⟩
  | a :: b :: r, x, hw, h => by
    rw [macX, Option.map_eq_some_iff] at h
    · obtain ⟨y, hy, rfl⟩ := h
      have := mac_wf m (b :: r) y (fun z hz => hw z (List.mem_cons_of_mem _ hz)) hy
      have w : (XE.mac m a y).wf = true := by simp [XE.wf, hw a List.mem_cons_self, this.1]
      exact ⟨w, Or.inr ⟨rfl, w⟩⟩
    · simp

mutual
/-- SymEngine's canonical form, as far as it matters here: minima and maxima have at least two arguments -/
def Canon : Expr → Prop
  | .add l => CanonL l
  | .mul l => CanonL l
  | .max l => 2 ≤ l.length ∧ CanonL l
  | .min l => 2 ≤ l.length ∧ CanonL l
  | .pow b e => Canon b ∧ Canon e
  | .fn _ l => CanonL l
  | _ => True
/-- all members -/
def CanonL : List Expr → Prop
  | [] => True
  | e :: r => Canon e ∧ CanonL r
end

theorem canonL_iff (l : List Expr) : CanonL l ↔ ∀ e ∈ l, Canon e := by
  induction l with
  | nil => simp [CanonL]
  | cons a r ih => simp [CanonL, ih]

theorem termL_length {S : SymKind} : ∀ (l : List Expr) (ts : List Term), termL S l = some ts → ts.length = l.length
  | [], ts, h => by cases h; rfl
  | e :: r, ts, h => by
    rw [termL, Option.bind_eq_some_iff] at h
    obtain ⟨t, ht, h⟩ := h
    rw [Option.map_eq_some_iff] at h
    obtain ⟨ts', hts, rfl⟩ := h
    simp [termL_length r ts' hts]

theorem fn_prim {name : String} {l : List Expr} {ts : List Term} {x : XE} (hw : ∀ t ∈ ts, (finish t).wf = true) (h : fnX name l ts = some x) :
    Prim x := by
  unfold fnX at h
  split at h
  · split at h
    · cases h
      rename_i a b
      refine prim_par ?_
      simp [XE.wf, XE.prec, BOp.prec, hw]
    · cases h
  · split at h
    · split at h
      · cases h
        refine prim_par ?_
        simp [XE.wf, XE.prec, BOp.prec, hw]
      · cases h
    · split at h
      · split at h
        · cases h
          refine prim_par ?_
          simp [XE.wf, XE.prec, hw]
        · cases h
      · split at h
        · split at h
          · cases h
            refine prim_par ?_
            simp [XE.wf, XE.prec, hw]
          · cases h
        · split at h
          · split at h
            · cases h; exact ⟨rfl, rfl⟩
            · cases h
          · cases h

theorem term_shape {S : SymKind} (e : Expr) : Canon e → ∀ t, term S e = some t → Shape S e t := by
  induction e using Expr.induct with
  | hint n =>
    intro _ t h
    cases h
    exact ⟨Or.inl (by intro f hf; simp only [List.mem_singleton] at hf; subst hf; exact ⟨rfl, rfl⟩),
      fun m hm => (by cases hm; rfl), fun _ => ⟨_, rfl⟩, fun h => absurd rfl (h n)⟩
  | hsym x =>
    intro _ t h
    cases h
    refine Shape.of ?_ (by simp)
    rw [printSym]
    split
    · exact ⟨rfl, rfl⟩
    · split
      · exact ⟨rfl, rfl⟩
      · split
        · exact ⟨rfl, rfl⟩
        · exact ⟨rfl, rfl⟩
  | hinf b => intro _ t h; cases h
  | hnan => intro _ t h; cases h
  | hadd l ih =>
    intro hc t h
    rw [Canon, canonL_iff] at hc
    rw [term, Option.map_eq_some_iff] at h
    obtain ⟨ts, hts, rfl⟩ := h
    have hs := shapes_of l (fun e he => ih e he (hc e he)) ts hts
    obtain ⟨w1, w2⟩ := sum_wf hs.addends
    exact ⟨Or.inr ⟨⟨l, rfl⟩, _, rfl, w1, w2⟩, fun n hn => (by cases hn), fun _ => ⟨_, rfl⟩, fun _ _ => rfl⟩
  | hmul l ih =>
    intro hc t h
    rw [Canon, canonL_iff] at hc
    rw [term, Option.map_eq_some_iff] at h
    obtain ⟨ts, hts, rfl⟩ := h
    have hs := shapes_of l (fun e he => ih e he (hc e he)) ts hts
    refine ⟨Or.inl ?_, fun n hn => (by cases hn), fun hk => absurd rfl (hk l), fun _ hk => absurd rfl (hk l)⟩
    have hf := hs.factors
    rw [mulTerm.eq_def]
    split
    · rename_i c es t' ts'
      intro f hf'
      simp only [List.mem_append] at hf'
      rcases hf' with hf' | hf'
      · split at hf'
        · cases hf'
        · simp only [List.mem_singleton] at hf'; subst hf'; exact ⟨rfl, rfl⟩
      · exact hf f (by rw [List.zipWith_cons_cons]; exact List.mem_cons_of_mem _ hf')
    · exact hf
  | hmax l ih =>
    intro hc t h
    rw [Canon, canonL_iff] at hc
    rw [term, Option.bind_eq_some_iff] at h
    obtain ⟨ts, hts, h⟩ := h
    rw [Option.map_eq_some_iff] at h
    obtain ⟨x, hx, rfl⟩ := h
    have hs := shapes_of l (fun e he => ih e he (hc.2 e he)) ts hts
    refine Shape.of ((mac_wf true _ x ?_ hx).2.resolve_left ?_) (by simp)
    · intro y hy
      obtain ⟨t, ht, rfl⟩ := List.mem_map.1 hy
      exact hs.finishes t ht
    · rw [List.length_map, termL_length l ts hts]; omega
  | hmin l ih =>
    intro hc t h
    rw [Canon, canonL_iff] at hc
    rw [term, Option.bind_eq_some_iff] at h
    obtain ⟨ts, hts, h⟩ := h
    rw [Option.map_eq_some_iff] at h
    obtain ⟨x, hx, rfl⟩ := h
    have hs := shapes_of l (fun e he => ih e he (hc.2 e he)) ts hts
    refine Shape.of ((mac_wf false _ x ?_ hx).2.resolve_left ?_) (by simp)
    · intro y hy
      obtain ⟨t, ht, rfl⟩ := List.mem_map.1 hy
      exact hs.finishes t ht
    · rw [List.length_map, termL_length l ts hts]; omega
  | hpow b e ih1 ih2 =>
    intro hc t h
    rw [Canon] at hc
    rw [term, Option.bind_eq_some_iff] at h
    obtain ⟨t1, h1, h⟩ := h
    rw [Option.map_eq_some_iff] at h
    obtain ⟨t2, h2, rfl⟩ := h
    have w1 := (ih1 hc.1 t1 h1).wf.finish.1
    have w2 := (ih2 hc.2 t2 h2).wf.finish.1
    refine Shape.of ?_ (by simp)
    rw [powX.eq_def]
    split
    · exact prim_par (by simp [XE.wf, XE.prec, BOp.prec, w1])
    · exact ⟨rfl, by simp [XE.wf, w1, w2]⟩
  | hfn f l ih =>
    intro hc t h
    rw [Canon, canonL_iff] at hc
    rw [term, Option.bind_eq_some_iff] at h
    obtain ⟨ts, hts, h⟩ := h
    rw [Option.map_eq_some_iff] at h
    obtain ⟨x, hx, rfl⟩ := h
    have hs := shapes_of l (fun e he => ih e he (hc e he)) ts hts
    exact Shape.of (fn_prim hs.finishes hx) (by simp)

mutual
/-- canonical conditions: canonical operands; `Not` is not applied to `<=` and `<` -/
def CanonC : Cond → Prop
  | .eq a b => Canon a ∧ Canon b
  | .ne a b => Canon a ∧ Canon b
  | .le a b => Canon a ∧ Canon b
  | .lt a b => Canon a ∧ Canon b
  | .eqB a b => CanonC a ∧ CanonC b
  | .neB a b => CanonC a ∧ CanonC b
  | .not c => CanonC c ∧ (∀ a b, c ≠ .le a b) ∧ (∀ a b, c ≠ .lt a b)
  | .and l => CanonCL l
  | .or l => CanonCL l
  | _ => True
/-- all members -/
def CanonCL : List Cond → Prop
  | [] => True
  | c :: r => CanonC c ∧ CanonCL r
end

theorem canonCL_iff (l : List Cond) : CanonCL l ↔ ∀ c ∈ l, CanonC c := by
  induction l with
  | nil => simp [CanonCL]
  | cons a r ih => simp [CanonCL, ih]

/-- symbolic.cpp:73 `Not` only builds canonical conditions -/
theorem canonC_neg (c : Cond) (h : CanonC c) : CanonC c.neg := by
  have hl : ∀ l : List Cond, (∀ c ∈ l, CanonC c → CanonC c.neg) → CanonCL l → CanonCL (Cond.negL l) := by
    intro l
    induction l with
    | nil => intro _ _; exact trivial
    | cons c r ih =>
      intro h1 h2
      exact ⟨h1 c List.mem_cons_self h2.1, ih (fun c hc => h1 c (List.mem_cons_of_mem _ hc)) h2.2⟩
  induction c using Cond.induct with
  | htt => exact trivial
  | hff => exact trivial
  | hatom x => exact ⟨trivial, by simp, by simp⟩
  | heq a b => exact h
  | hne a b => exact h
  | hle a b => exact ⟨h.2, h.1⟩
  | hlt a b => exact ⟨h.2, h.1⟩
  | heqB a b _ _ => exact h
  | hneB a b _ _ => exact h
  | hnot c _ => exact h.1
  | hand l ih => exact hl l ih h
  | hor l ih => exact hl l ih h

theorem emit_shape {S : SymKind} {e : Expr} {x : XE} (hc : Canon e) (h : emit S e = some x) : x.wf = true ∧ 12 ≤ x.prec := by
  rw [emit, Option.map_eq_some_iff] at h
  obtain ⟨t, ht, rfl⟩ := h
  exact (term_shape e hc t ht).wf.finish

theorem rel_wf {o : BOp} (ho : BOp.isRel o = true) {x y : XE} (hx : x.wf = true ∧ 12 ≤ x.prec) (hy : y.wf = true ∧ 12 ≤ y.prec) :
    (XE.bin o x y).wf = true ∧ o.prec ≤ 10 := by
  have : o.prec ≤ 10 := by cases o <;> simp [BOp.isRel] at ho <;> decide
  refine ⟨?_, this⟩
  simp only [XE.wf, hx.1, hy.1, Bool.and_true, Bool.and_eq_true, decide_eq_true_eq]
  omega

theorem join_wf (o : BOp) (ho : o.prec < 10) {xs : List XE} {x : XE} (h : ∀ y ∈ xs, y.wf = true ∧ 10 ≤ y.prec) (hj : joinX o xs = some x) :
    x.wf = true ∧ x.prec = 16 := by
  cases xs with
  | nil => cases hj
  | cons a r =>
    cases hj
    refine ⟨?_, rfl⟩
    have : ∀ (r : List XE) (acc : XE), (∀ y ∈ r, y.wf = true ∧ 10 ≤ y.prec) → acc.wf = true → o.prec ≤ acc.prec → (r.foldl (.bin o) acc).wf = true := by
      intro r
      induction r with
      | nil => intro acc _ h _; exact h
      | cons b r ih =>
        intro acc hr h1 h2
        have hb := hr b List.mem_cons_self
        refine ih _ (fun y hy => hr y (List.mem_cons_of_mem _ hy)) ?_ (by simp [XE.prec])
        simp only [XE.wf, h1, hb.1, Bool.and_true, Bool.and_eq_true, decide_eq_true_eq]
        omega
    have ha := h a List.mem_cons_self
    exact this r a (fun y hy => h y (List.mem_cons_of_mem _ hy)) ha.1 (by omega)

theorem emitC_shape {S : SymKind} (c : Cond) : CanonC c → ∀ x, emitC S c = some x →
    x.wf = true ∧ 10 ≤ x.prec ∧ (((∀ a b, c ≠ .le a b) ∧ (∀ a b, c ≠ .lt a b)) → x.prec = 16) := by
  have two : ∀ {α : Type} {p q : Option α} {f : α → α → XE} {x : XE}, (p.bind fun a => q.map fun b => f a b) = some x →
      ∃ a b, p = some a ∧ q = some b ∧ x = f a b := by
    intro α p q f x h
    rw [Option.bind_eq_some_iff] at h
    obtain ⟨a, ha, h⟩ := h
    rw [Option.map_eq_some_iff] at h
    obtain ⟨b, hb, rfl⟩ := h
    exact ⟨a, b, ha, hb, rfl⟩
  have hl : ∀ l : List Cond, (∀ c ∈ l, CanonC c → ∀ x, emitC S c = some x →
      x.wf = true ∧ 10 ≤ x.prec ∧ (((∀ a b, c ≠ .le a b) ∧ (∀ a b, c ≠ .lt a b)) → x.prec = 16)) → CanonCL l →
      ∀ xs, emitCL S l = some xs → ∀ y ∈ xs, y.wf = true ∧ 10 ≤ y.prec := by
    intro l
    induction l with
    | nil => intro _ _ xs h; cases h; simp
    | cons c r ih =>
      intro h1 h2 xs h
      rw [emitCL, Option.bind_eq_some_iff] at h
      obtain ⟨a, ha, h⟩ := h
      rw [Option.map_eq_some_iff] at h
      obtain ⟨b, hb, rfl⟩ := h
      intro y hy
      rcases List.mem_cons.1 hy with rfl | hy
      · have := h1 c List.mem_cons_self h2.1 _ ha
        exact ⟨this.1, this.2.1⟩
      · exact ih (fun c hc => h1 c (List.mem_cons_of_mem _ hc)) h2.2 b hb y hy
  induction c using Cond.induct with
  | htt => intro _ x h; cases h; exact ⟨rfl, by decide, fun _ => rfl⟩
  | hff => intro _ x h; cases h; exact ⟨rfl, by decide, fun _ => rfl⟩
  | hatom x =>
    intro _ y h
    have := term_shape (S := S) (.sym x) trivial _ rfl
    rw [emitC, Option.some.injEq] at h
    subst h
    rcases this.wf with h | ⟨⟨l, h⟩, _⟩
    · have := h (printSym S x) List.mem_cons_self
      exact ⟨this.2, by rw [this.1]; decide, fun _ => this.1⟩
    · cases h
  | heq a b =>
    intro hc x h
    obtain ⟨p, q, hp, hq, rfl⟩ := two h
    exact ⟨(rel_wf (o := .eq) rfl (emit_shape hc.1 hp) (emit_shape hc.2 hq)).1, (by decide : 10 ≤ 16), fun _ => rfl⟩
  | hne a b =>
    intro hc x h
    obtain ⟨p, q, hp, hq, rfl⟩ := two h
    exact ⟨(rel_wf (o := .ne) rfl (emit_shape hc.1 hp) (emit_shape hc.2 hq)).1, (by decide : 10 ≤ 16), fun _ => rfl⟩
  | hle a b =>
    intro hc x h
    obtain ⟨p, q, hp, hq, rfl⟩ := two h
    exact ⟨(rel_wf (o := .le) rfl (emit_shape hc.1 hp) (emit_shape hc.2 hq)).1, (by decide : 10 ≤ 10), fun h => absurd rfl (h.1 a b)⟩
  | hlt a b =>
    intro hc x h
    obtain ⟨p, q, hp, hq, rfl⟩ := two h
    exact ⟨(rel_wf (o := .lt) rfl (emit_shape hc.1 hp) (emit_shape hc.2 hq)).1, (by decide : 10 ≤ 10), fun h => absurd rfl (h.2 a b)⟩
  | heqB a b iha ihb =>
    intro hc x h
    obtain ⟨p, q, hp, hq, rfl⟩ := two h
    have h1 := iha hc.1 p hp
    have h2 := ihb hc.2 q hq
    refine ⟨?_, (by decide : 10 ≤ 16), fun _ => rfl⟩
    simp only [XE.wf, BOp.prec, h1.1, h2.1, Bool.and_true, Bool.and_eq_true]
    exact ⟨decide_eq_true (by omega), decide_eq_true (by omega)⟩
  | hneB a b iha ihb =>
    intro hc x h
    obtain ⟨p, q, hp, hq, rfl⟩ := two h
    have h1 := iha hc.1 p hp
    have h2 := ihb hc.2 q hq
    refine ⟨?_, (by decide : 10 ≤ 16), fun _ => rfl⟩
    simp only [XE.wf, BOp.prec, h1.1, h2.1, Bool.and_true, Bool.and_eq_true]
    exact ⟨decide_eq_true (by omega), decide_eq_true (by omega)⟩
  | hnot c ih =>
    intro hc x h
    rw [emitC, Option.map_eq_some_iff] at h
    obtain ⟨p, hp, rfl⟩ := h
    have h1 := ih hc.1 p hp
    refine ⟨?_, (by decide : 10 ≤ 16), fun _ => rfl⟩
    simp [XE.wf, h1.1, h1.2.2 hc.2]
  | hand l ih =>
    intro hc x h
    rw [emitC, Option.bind_eq_some_iff] at h
    obtain ⟨xs, hxs, h⟩ := h
    have := join_wf .land (by decide) (hl l ih hc xs hxs) h
    exact ⟨this.1, by omega, fun _ => this.2⟩
  | hor l ih =>
    intro hc x h
    rw [emitC, Option.bind_eq_some_iff] at h
    obtain ⟨xs, hxs, h⟩ := h
    have := join_wf .lor (by decide) (hl l ih hc xs hxs) h
    exact ⟨this.1, by omega, fun _ => this.2⟩

end Docc.Codegen
