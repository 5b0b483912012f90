import Verif.Sym.Simplify
import Verif.Sym.ExtremeLemmas

/-
C07 (`simplify` keeps the value), C08 (`divide_ceil`), C47 (`div`/`mod` are C division and remainder).
-/
namespace Docc.Sym

/-! ### finite values -/

theorem V.add_fin {a b : V} {v : Int} (h : V.add a b = .fin v) : ∃ x y, a = .fin x ∧ b = .fin y ∧ x + y = v := by
  cases a <;> cases b <;> simp_all [V.add]

theorem V.mul_fin {a b : V} {v : Int} (h : V.mul a b = .fin v) : ∃ x y, a = .fin x ∧ b = .fin y ∧ x * y = v := by
  cases a <;> cases b <;> simp_all [V.mul, V.scaleInf] <;> (split at h <;> try simp at h) <;> (split at h <;> simp at h)

/-- maximum of two integers, as `V.max` computes it -/
def imax (a b : Int) : Int := if a ≤ b then b else a

theorem imax_add (a b y : Int) : imax (y + a) (y + b) = y + imax a b := by unfold imax; split <;> split <;> omega

theorem foldl_imax_add (l : List Int) (a y : Int) :
    (l.map (y + ·)).foldl imax (y + a) = y + l.foldl imax a := by
  induction l generalizing a with
  | nil => rfl
  | cons b r ih => simp only [List.map_cons, List.foldl_cons, imax_add, ih]

theorem foldl_vmax_fin (l : List Int) (a : Int) : (l.map V.fin).foldl V.max (.fin a) = .fin (l.foldl imax a) := by
  induction l generalizing a with
  | nil => rfl
  | cons b r ih => simp only [List.map_cons, List.foldl_cons, V.max]; exact ih _

theorem le_foldl_imax (l : List Int) (a : Int) : a ≤ l.foldl imax a ∧ ∀ b ∈ l, b ≤ l.foldl imax a := by
  induction l generalizing a with
  | nil => simp
  | cons b r ih =>
    obtain ⟨h1, h2⟩ := ih (imax a b)
    have : a ≤ imax a b ∧ b ≤ imax a b := by unfold imax; split <;> omega
    simp only [List.foldl_cons]
    refine ⟨by omega, fun c hc => ?_⟩
    rcases List.mem_cons.1 hc with rfl | hc
    · omega
    · exact h2 c hc

mutual
/-- Well-formed use: no infinity and no NaN is written, and a zero extension is only applied to a value below 2^32
(in particular to any 32-bit value, signed or unsigned). -/
def Good (ρ : Val) : Expr → Prop
  | .int _ => True
  | .sym _ => True
  | .inf _ => False
  | .nan => False
  | .add l => GoodL ρ l
  | .mul l => GoodL ρ l
  | .max l => GoodL ρ l
  | .min l => GoodL ρ l
  | .pow b e => Good ρ b ∧ Good ρ e
  | .fn f l => GoodL ρ l ∧ (f = "zext_i64" → ∀ a ∈ l, ∀ n, a.eval ρ = .fin n → n < 2 ^ 32)
/-- all members -/
def GoodL (ρ : Val) : List Expr → Prop
  | [] => True
  | e :: r => Good ρ e ∧ GoodL ρ r
end

theorem goodL_iff (ρ : Val) (l : List Expr) : GoodL ρ l ↔ ∀ e ∈ l, Good ρ e := by
  induction l with
  | nil => simp [GoodL]
  | cons a r ih => simp [GoodL, ih]

theorem applyFn_cases (ρ : Val) (f : String) (l : List Int) : applyFn ρ f l = .nan ∨ ∃ n, applyFn ρ f l = .fin n := by
  unfold applyFn
  repeat' (first | (left; rfl) | (right; exact ⟨_, rfl⟩) | split)

theorem foldr_add_cases (l : List V) (h : ∀ v ∈ l, v = .nan ∨ ∃ n, v = .fin n) :
    l.foldr V.add (.fin 0) = .nan ∨ ∃ n, l.foldr V.add (.fin 0) = .fin n := by
  induction l with
  | nil => exact Or.inr ⟨0, rfl⟩
  | cons a r ih =>
    rcases h a (by simp) with rfl | ⟨n, rfl⟩
    · simp [V.add]
    · rcases ih (fun v hv => h v (List.mem_cons_of_mem _ hv)) with h | ⟨m, h⟩ <;> simp [h, V.add]

theorem foldr_mul_cases (l : List V) (h : ∀ v ∈ l, v = .nan ∨ ∃ n, v = .fin n) :
    l.foldr V.mul (.fin 1) = .nan ∨ ∃ n, l.foldr V.mul (.fin 1) = .fin n := by
  induction l with
  | nil => exact Or.inr ⟨1, rfl⟩
  | cons a r ih =>
    rcases h a (by simp) with rfl | ⟨n, rfl⟩
    · simp [V.mul]
    · rcases ih (fun v hv => h v (List.mem_cons_of_mem _ hv)) with h | ⟨m, h⟩ <;> simp [h, V.mul]

/-- a well-formed expression has an integer value or none -/
theorem good_cases (ρ : Val) (e : Expr) (h : Good ρ e) : e.eval ρ = .nan ∨ ∃ n, e.eval ρ = .fin n := by
  induction e using Expr.induct with
  | hint n => exact Or.inr ⟨n, rfl⟩
  | hsym x => exact Or.inr ⟨_, rfl⟩
  | hinf b => exact absurd h (by simp [Good])
  | hnan => exact Or.inl rfl
  | hadd l ih =>
    rw [Good, goodL_iff] at h
    rw [Expr.eval, Expr.evalL_eq_map]
    refine foldr_add_cases _ ?_
    simp only [List.mem_map, forall_exists_index, and_imp]
    rintro v e he rfl; exact ih e he (h e he)
  | hmul l ih =>
    rw [Good, goodL_iff] at h
    rw [Expr.eval, Expr.evalL_eq_map]
    refine foldr_mul_cases _ ?_
    simp only [List.mem_map, forall_exists_index, and_imp]
    rintro v e he rfl; exact ih e he (h e he)
  | hmax l ih =>
    rw [Good, goodL_iff] at h
    cases l with
    | nil => exact Or.inl rfl
    | cons a r =>
      simp only [Expr.eval, Expr.evalL_eq_map, List.map_cons]
      rcases foldl_max_mem (r.map (Expr.eval ρ)) (a.eval ρ) with h1 | h1
      · exact Or.inl h1
      · rw [← List.map_cons (f := Expr.eval ρ), List.mem_map] at h1
        obtain ⟨e, he, hv⟩ := h1
        rw [← hv]; exact ih e he (h e he)
  | hmin l ih =>
    rw [Good, goodL_iff] at h
    cases l with
    | nil => exact Or.inl rfl
    | cons a r =>
      simp only [Expr.eval, Expr.evalL_eq_map, List.map_cons]
      rcases foldl_min_mem (r.map (Expr.eval ρ)) (a.eval ρ) with h1 | h1
      · exact Or.inl h1
      · rw [← List.map_cons (f := Expr.eval ρ), List.mem_map] at h1
        obtain ⟨e, he, hv⟩ := h1
        rw [← hv]; exact ih e he (h e he)
  | hpow b e ih1 ih2 =>
    simp only [Expr.eval]
    unfold V.pow
    split
    · exact Or.inr ⟨_, rfl⟩
    · exact Or.inl rfl
  | hfn f l ih =>
    simp only [Expr.eval]
    split
    · exact applyFn_cases _ _ _
    · exact Or.inl rfl

/-- the value of a well-formed `Max` -/
theorem good_max {ρ : Val} {l : List Expr} {v : Int} (hg : GoodL ρ l) (h : (Expr.max l).eval ρ = .fin v) :
    ∃ n ns, l.map (Expr.eval ρ) = (n :: ns).map V.fin ∧ ns.foldl imax n = v := by
  rw [goodL_iff] at hg
  cases l with
  | nil => simp [Expr.eval, Expr.evalL] at h
  | cons a r =>
    simp only [Expr.eval, Expr.evalL_eq_map, List.map_cons] at h
    have hnn : (r.map (Expr.eval ρ)).foldl V.max (a.eval ρ) ≠ .nan := by rw [h]; simp
    rw [foldl_max_ne_nan] at hnn
    have hfin : ∀ e ∈ a :: r, ∃ n, e.eval ρ = .fin n := by
      intro e he
      rcases good_cases ρ e (hg e he) with h1 | h1
      · rcases List.mem_cons.1 he with rfl | he
        · exact absurd h1 hnn.1
        · exact absurd h1 (hnn.2 _ (List.mem_map_of_mem he))
      · exact h1
    have hl : ∀ l : List Expr, (∀ e ∈ l, ∃ n, e.eval ρ = .fin n) → ∃ ns : List Int, l.map (Expr.eval ρ) = ns.map V.fin := by
      intro l
      induction l with
      | nil => intro _; exact ⟨[], rfl⟩
      | cons e r ih =>
        intro hh
        obtain ⟨n, hn⟩ := hh e (by simp)
        obtain ⟨ns, hns⟩ := ih (fun x hx => hh x (List.mem_cons_of_mem _ hx))
        exact ⟨n :: ns, by simp [hn, hns]⟩
    obtain ⟨n, hn⟩ := hfin a (by simp)
    obtain ⟨ns, hns⟩ := hl r (fun e he => hfin e (List.mem_cons_of_mem _ he))
    rw [hn, hns, foldl_vmax_fin] at h
    refine ⟨n, ns, by simp [hn, hns], ?_⟩
    simpa using h

theorem eval_max_of {ρ : Val} {l : List Expr} {n : Int} {ns : List Int} (h : l.map (Expr.eval ρ) = (n :: ns).map V.fin) :
    (Expr.max l).eval ρ = .fin (ns.foldl imax n) := by
  simp only [Expr.eval, Expr.evalL_eq_map, h, List.map_cons]
  exact foldl_vmax_fin _ _

/-! ### the SymEngine contract -/

/-- What is assumed about SymEngine: canonicalising and `SymEngine::simplify` keep the value of an expression that has
one, and canonicalising keeps well-formedness. -/
structure Engine.Sound (E : Engine) (ρ : Val) : Prop where
  norm_val : ∀ e v, e.eval ρ = .fin v → (E.norm e).eval ρ = .fin v
  norm_good : ∀ e, Good ρ e → Good ρ (E.norm e)
  simp_val : ∀ e e', E.simp e = some e' → ∀ v, e.eval ρ = .fin v → e'.eval ρ = .fin v

theorem Engine.raw_sound (ρ : Val) : Engine.raw.Sound ρ := by
  refine ⟨fun e v h => h, fun e h => h, ?_⟩
  intro e e' h v hv
  simp only [Engine.raw, Option.some.injEq] at h
  exact h ▸ hv

theorem Engine.tail_val {E : Engine} {ρ : Val} (hE : E.Sound ρ) {e e' : Expr} (h : E.tail e = .ok e') {v : Int}
    (hv : e.eval ρ = .fin v) : e'.eval ρ = .fin v := by
  simp only [Engine.tail, Res.ok.injEq] at h
  cases hs : E.simp e with
  | none => rw [hs] at h; simp at h; exact h ▸ hv
  | some x => rw [hs] at h; simp at h; exact hE.simp_val e e' (h ▸ hs) v hv

/-! ### simplify (C07) -/

theorem splitMax_good {ρ : Val} {l ms o : List Expr} (h : splitMax l = some (ms, o)) (hg : GoodL ρ l) :
    GoodL ρ ms ∧ GoodL ρ o := by
  induction l generalizing ms o with
  | nil => simp [splitMax] at h
  | cons a r ih =>
    simp only [splitMax] at h
    obtain ⟨ha, hr⟩ := hg
    cases hm : a.maxArgs? with
    | some m =>
      rw [hm] at h
      simp only [Option.some.injEq, Prod.mk.injEq] at h
      obtain ⟨rfl, rfl⟩ := h
      cases a <;> simp [Expr.maxArgs?] at hm
      subst hm
      exact ⟨ha, hr⟩
    | none =>
      rw [hm] at h
      simp only at h
      cases hs : splitMax r with
      | none => simp [hs] at h
      | some p =>
        obtain ⟨ms', o'⟩ := p
        rw [hs] at h
        simp only [Option.some.injEq, Prod.mk.injEq] at h
        obtain ⟨rfl, rfl⟩ := h
        obtain ⟨h1, h2⟩ := ih hs hr
        exact ⟨h1, ha, h2⟩

theorem splitMax_val {ρ : Val} {l ms o : List Expr} {v : Int} (h : splitMax l = some (ms, o))
    (hv : (Expr.add l).eval ρ = .fin v) : ∃ x y, (Expr.max ms).eval ρ = .fin x ∧ (Expr.add o).eval ρ = .fin y ∧ y + x = v := by
  induction l generalizing ms o v with
  | nil => simp [splitMax] at h
  | cons a r ih =>
    simp only [splitMax] at h
    rw [Expr.eval, Expr.evalL, List.foldr_cons] at hv
    obtain ⟨x, y, hx, hy, hxy⟩ := V.add_fin hv
    cases hm : a.maxArgs? with
    | some m =>
      rw [hm] at h
      simp only [Option.some.injEq, Prod.mk.injEq] at h
      obtain ⟨rfl, rfl⟩ := h
      cases a <;> simp [Expr.maxArgs?] at hm
      subst hm
      exact ⟨x, y, hx, by rw [Expr.eval]; exact hy, by omega⟩
    | none =>
      rw [hm] at h
      simp only at h
      cases hs : splitMax r with
      | none => simp [hs] at h
      | some p =>
        obtain ⟨ms', o'⟩ := p
        rw [hs] at h
        simp only [Option.some.injEq, Prod.mk.injEq] at h
        obtain ⟨rfl, rfl⟩ := h
        obtain ⟨x', y', h1, h2, h3⟩ := ih hs (v := y) (by rw [Expr.eval]; exact hy)
        refine ⟨x', x + y', h1, ?_, by omega⟩
        rw [Expr.eval] at h2 ⊢
        simp [Expr.evalL, h2, hx, V.add]

theorem removeFactor_val {ρ : Val} {b : Int} {l rest : List Expr} {v : Int} (h : removeFactor (.int b) l = some rest)
    (hv : (Expr.mul l).eval ρ = .fin v) : ∃ w, (Expr.mul rest).eval ρ = .fin w ∧ v = b * w := by
  induction l generalizing rest v with
  | nil => simp [removeFactor] at h
  | cons a r ih =>
    simp only [removeFactor] at h
    rw [Expr.eval, Expr.evalL, List.foldr_cons] at hv
    obtain ⟨x, y, hx, hy, hxy⟩ := V.mul_fin hv
    by_cases ha : a = .int b
    · simp only [ha, if_true, Option.some.injEq] at h
      subst h
      subst ha
      simp only [Expr.eval, V.fin.injEq] at hx
      exact ⟨y, by rw [Expr.eval]; exact hy, by rw [← hxy, hx]⟩
    · simp only [ha, if_false, Option.map_eq_some_iff] at h
      obtain ⟨rest', hr, rfl⟩ := h
      obtain ⟨w, hw, e⟩ := ih hr (v := y) (by rw [Expr.eval]; exact hy)
      refine ⟨x * w, ?_, ?_⟩
      · rw [Expr.eval] at hw ⊢
        simp [Expr.evalL, hw, hx, V.mul]
      · rw [← hxy, e]; ring

theorem foldl_norm_mul {E : Engine} {ρ : Val} (hE : E.Sound ρ) (l : List Expr) (acc : Expr) (a w : Int)
    (ha : acc.eval ρ = .fin a) (hw : (Expr.mul l).eval ρ = .fin w) :
    (l.foldl (fun acc a => E.norm (.mul [acc, a])) acc).eval ρ = .fin (a * w) := by
  induction l generalizing acc a w with
  | nil =>
    simp only [Expr.eval, Expr.evalL, List.foldr_nil, V.fin.injEq] at hw
    subst hw; simpa using ha
  | cons e r ih =>
    rw [Expr.eval, Expr.evalL, List.foldr_cons] at hw
    obtain ⟨x, y, hx, hy, hxy⟩ := V.mul_fin hw
    simp only [List.foldl_cons]
    rw [ih _ (a * x) y (hE.norm_val _ _ (by simp [Expr.eval, Expr.evalL, ha, hx, V.mul])) (by rw [Expr.eval]; exact hy)]
    rw [← hxy]; simp [Int.mul_assoc]

theorem asInt_of {a : Int} (h : -2 ^ 63 ≤ a ∧ a < 2 ^ 63) : asInt a = .ok a := by
  unfold asInt; rw [if_pos h]

theorem asInt_ok {a b : Int} (h : asInt a = .ok b) : b = a := by
  unfold asInt at h; split at h <;> simp_all

theorem hostDiv_ok {a b c : Int} (h : hostDiv a b = .ok c) : b ≠ 0 ∧ c = a.tdiv b := by
  unfold hostDiv at h
  split at h
  · simp at h
  · split at h
    · simp at h
    · simp only [Res.ok.injEq] at h; exact ⟨by assumption, h.symm⟩

theorem hostMod_ok {a b c : Int} (h : hostMod a b = .ok c) : b ≠ 0 ∧ c = a.tmod b := by
  unfold hostMod at h
  split at h
  · simp at h
  · split at h
    · simp at h
    · simp only [Res.ok.injEq] at h; exact ⟨by assumption, h.symm⟩

theorem Res.bind_ok {α β : Type} {r : Res α} {f : α → Res β} {b : β} (h : r.bind f = .ok b) :
    ∃ a, r = .ok a ∧ f a = .ok b := by
  cases r <;> simp_all [Res.bind]

theorem visiblyNonneg_val {ρ : Val} {s : Expr} {n : Int} (h : visiblyNonneg s = true) (hv : s.eval ρ = .fin n) : 0 ≤ n := by
  cases s with
  | int k => simp only [visiblyNonneg, decide_eq_true_eq] at h; simp only [Expr.eval, V.fin.injEq] at hv; omega
  | max l =>
    simp only [visiblyNonneg, List.any_eq_true] at h
    obtain ⟨a, ha, hk⟩ := h
    cases a with
    | int k =>
      simp only [decide_eq_true_eq] at hk
      cases l with
      | nil => simp at ha
      | cons b r =>
        simp only [Expr.eval, Expr.evalL_eq_map, List.map_cons] at hv
        obtain ⟨h1, h2⟩ := le_foldl_max (r.map (Expr.eval ρ)) (b.eval ρ) (by rw [hv]; simp)
        have : V.fin k ≤ V.fin n := by
          rw [← hv]
          rcases List.mem_cons.1 ha with rfl | ha
          · exact h1
          · exact h2 _ (List.mem_map.2 ⟨_, ha, rfl⟩)
        simp only [V.le_def, V.le] at this
        omega
    | _ => simp at hk
  | _ => simp [visiblyNonneg] at h

theorem finArgs_single {v : V} {ns : List Int} (h : finArgs [v] = some ns) : ∃ n, v = .fin n ∧ ns = [n] := by
  cases v <;> simp_all [finArgs]

theorem finArgs_pair {v w : V} {ns : List Int} (h : finArgs [v, w] = some ns) :
    ∃ n m, v = .fin n ∧ w = .fin m ∧ ns = [n, m] := by
  cases v <;> cases w <;> simp_all [finArgs]

/-- `idiv` with an integer value has two arguments with integer values -/
theorem idiv_fin {ρ : Val} {l : List Expr} {v : Int} (h : (Expr.fn "idiv" l).eval ρ = .fin v) :
    ∃ a b x y, l = [a, b] ∧ a.eval ρ = .fin x ∧ b.eval ρ = .fin y ∧ y ≠ 0 ∧ v = x.tdiv y := by
  match l with
  | [] => simp [Expr.eval, Expr.evalL, finArgs, applyFn] at h
  | [a] =>
    simp only [Expr.eval, Expr.evalL] at h
    split at h
    · rename_i ns hns
      obtain ⟨n, _, rfl⟩ := finArgs_single hns
      simp [applyFn] at h
    · simp at h
  | [a, b] =>
    simp only [Expr.eval, Expr.evalL] at h
    split at h
    · rename_i ns hns
      obtain ⟨n, m, h1, h2, rfl⟩ := finArgs_pair hns
      simp only [applyFn, if_true] at h
      split at h
      · simp at h
      · simp only [V.fin.injEq] at h
        exact ⟨a, b, n, m, rfl, h1, h2, by assumption, h.symm⟩
    · simp at h
  | a :: b :: c :: r =>
    simp only [Expr.eval, Expr.evalL] at h
    split at h
    · rename_i ns hns
      have hl : ∀ (vs : List V) ns, finArgs vs = some ns → ns.length = vs.length := by
        intro vs
        induction vs with
        | nil => intro ns h; simp [finArgs] at h; simp [← h]
        | cons w vs ih =>
          intro ns h
          cases w <;> simp [finArgs] at h
          split at h
          · rename_i l hl; simp at h; simp [← h, ih l hl]
          · simp at h
      have := hl _ _ hns
      match ns, this with
      | x :: y :: z :: t, _ => simp [applyFn] at h
    · simp at h

theorem imod_fin {ρ : Val} {a b : Int} {r : List Expr} {v : Int} (h : (Expr.fn "imod" (.int a :: .int b :: r)).eval ρ = .fin v) :
    b ≠ 0 ∧ v = a.tmod b := by
  cases r with
  | nil =>
    simp only [Expr.eval, Expr.evalL, finArgs, applyFn] at h
    simp at h
    split at h
    · simp at h
    · simp only [V.fin.injEq] at h; exact ⟨by assumption, h.symm⟩
  | cons c r =>
    simp only [Expr.eval, Expr.evalL] at h
    split at h
    · rename_i ns hns
      simp only [finArgs] at hns
      split at hns
      · rename_i l hl
        split at hl
        · rename_i l2 hl2
          simp only [Option.some.injEq] at hl hns
          subst hl; subst hns
          have : l2 ≠ [] := by
            rintro rfl
            cases hc : c.eval ρ <;> simp [hc, finArgs] at hl2
            split at hl2 <;> simp at hl2
          match l2, this with
          | x :: t, _ => simp [applyFn] at h
        · simp at hl
      · simp at hns
    · simp at h

/-- Where the two values of a well-formed zero extension come from. -/
theorem zext_fin {ρ : Val} {l : List Expr} {v : Int} (h : (Expr.fn "zext_i64" l).eval ρ = .fin v) :
    ∃ a n, l = [a] ∧ a.eval ρ = .fin n ∧ v = n % 2 ^ 32 := by
  match l with
  | [] => simp [Expr.eval, Expr.evalL, finArgs, applyFn] at h
  | [a] =>
    simp only [Expr.eval, Expr.evalL] at h
    split at h
    · rename_i ns hns
      obtain ⟨n, h1, rfl⟩ := finArgs_single hns
      simp [applyFn] at h
      exact ⟨a, n, rfl, h1, by simpa using h.symm⟩
    · simp at h
  | a :: b :: r =>
    simp only [Expr.eval, Expr.evalL] at h
    split at h
    · rename_i ns hns
      have : 2 ≤ ns.length := by
        cases ha : a.eval ρ <;> simp [ha, finArgs] at hns
        split at hns
        · rename_i l hl
          cases hb : b.eval ρ <;> simp [hb, finArgs] at hl
          split at hl
          · simp at hl hns; simp [← hns, ← hl]
          · simp at hl
        · simp at hns
      match ns, this with
      | x :: y :: t, _ => simp [applyFn] at h
    · simp at h

/-- C07 (partial: expressions without literal infinities whose zero extensions are applied to values below 2^32; what
`SymEngine::simplify` and canonicalisation do is the contract `Engine.Sound`): whenever `symbolic::simplify` returns and
the argument has an integer value, the result has the same value. -/
theorem simplify_value_partial (E : Engine) (ρ : Val) (hE : E.Sound ρ) (fuel : Nat) (e e' : Expr) (v : Int)
    (hg : Good ρ e) (h : E.simplify fuel e = .ok e') (hv : e.eval ρ = .fin v) : e'.eval ρ = .fin v := by
  induction fuel generalizing e e' v with
  | zero => simp [Engine.simplify] at h
  | succ fuel ih =>
    cases e with
    | add args =>
      simp only [Engine.simplify] at h
      cases hs : splitMax args with
      | none => rw [hs] at h; exact Engine.tail_val hE h hv
      | some p =>
        obtain ⟨ms, o⟩ := p
        rw [hs] at h
        simp only at h
        obtain ⟨l, hl, hmax⟩ := Res.bind_ok h
        simp only [Res.ok.injEq] at hmax
        subst hmax
        obtain ⟨gm, go⟩ := splitMax_good hs (by simpa [Good] using hg)
        obtain ⟨x, y, hx, hy, hxy⟩ := splitMax_val hs hv
        obtain ⟨n, ns, hms, hfold⟩ := good_max gm hx
        refine hE.norm_val _ _ ?_
        have key : ∀ (ms l : List Expr) (ns : List Int), GoodL ρ ms →
            Res.mapM (fun m => E.simplify fuel (E.norm (.add [E.norm (.add o), m]))) ms = .ok l →
            ms.map (Expr.eval ρ) = ns.map V.fin → l.map (Expr.eval ρ) = (ns.map (y + ·)).map V.fin := by
          intro ms
          induction ms with
          | nil =>
            intro l ns _ hl hn
            cases ns <;> simp at hn
            simp [Res.mapM] at hl
            simp [← hl]
          | cons m r ihm =>
            intro l ns hgm hl hn
            cases ns with
            | nil => simp at hn
            | cons k ks =>
              simp only [List.map_cons, List.cons.injEq] at hn
              simp only [Res.mapM] at hl
              obtain ⟨b, hb, hl⟩ := Res.bind_ok hl
              obtain ⟨bs, hbs, hl⟩ := Res.bind_ok hl
              simp only [Res.ok.injEq] at hl
              subst hl
              obtain ⟨g1, g2⟩ := hgm
              have hb' := ih _ b (y + k) ?_ hb ?_
              · simp only [List.map_cons]
                rw [hb', ihm bs ks g2 hbs hn.2]
              · exact hE.norm_good _ (by simp only [Good, GoodL]; exact ⟨hE.norm_good _ (by simpa [Good] using go), g1, trivial⟩)
              · refine hE.norm_val _ _ ?_
                have := hE.norm_val _ _ hy
                simp [Expr.eval, Expr.evalL, this, hn.1, V.add]
        have hl' := key ms l (n :: ns) gm hl hms
        rw [eval_max_of (n := y + n) (ns := ns.map (y + ·)) hl', foldl_imax_add, hfold, hxy]
    | fn f args =>
      simp only [Engine.simplify] at h
      by_cases h1 : f = "idiv"
      · subst h1
        simp only [if_true] at h
        obtain ⟨a, b, x, y, rfl, ha, hb, hy0, rfl⟩ := idiv_fin hv
        simp only at h
        split at h
        · simp only [Res.ok.injEq] at h; exact h ▸ hv
        · split at h
          · rename_i fs k _
            simp only [Expr.eval, V.fin.injEq] at hb
            subst hb
            cases hr : removeFactor (.int k) fs with
            | none => rw [hr] at h; exact Engine.tail_val hE h hv
            | some rest =>
              rw [hr] at h
              simp only [Res.ok.injEq] at h
              subst h
              obtain ⟨w, hw, e⟩ := removeFactor_val hr ha
              rw [foldl_norm_mul hE rest (.int 1) 1 w (by simp [Expr.eval]) hw, e, Int.one_mul,
                Int.mul_tdiv_cancel_left _ hy0]
          · rename_i n k _
            simp only [Expr.eval, V.fin.injEq] at ha hb
            obtain ⟨a', h2, h⟩ := Res.bind_ok h
            obtain ⟨b', h3, h⟩ := Res.bind_ok h
            obtain ⟨c, h4, h⟩ := Res.bind_ok h
            simp only [Res.ok.injEq] at h
            subst h
            rw [asInt_ok h2, asInt_ok h3] at h4
            simp [Expr.eval, (hostDiv_ok h4).2, ha, hb]
          · exact Engine.tail_val hE h hv
      · simp only [h1, if_false] at h
        by_cases h2 : f = "imod"
        · subst h2
          simp only [if_true] at h
          split at h
          · obtain ⟨a', h2, h⟩ := Res.bind_ok h
            obtain ⟨b', h3, h⟩ := Res.bind_ok h
            obtain ⟨c, h4, h⟩ := Res.bind_ok h
            simp only [Res.ok.injEq] at h
            subst h
            rw [asInt_ok h2, asInt_ok h3] at h4
            obtain ⟨_, e⟩ := imod_fin hv
            simp [Expr.eval, (hostMod_ok h4).2, e]
          · exact Engine.tail_val hE h hv
          · simp at h
        · simp only [h2, if_false] at h
          by_cases h3 : f = "zext_i64"
          · subst h3
            simp only [if_true] at h
            obtain ⟨a, n, rfl, ha, rfl⟩ := zext_fin hv
            simp only at h
            obtain ⟨s, hs, h⟩ := Res.bind_ok h
            rw [Good, GoodL] at hg
            have hsv := ih a s n hg.1.1 hs ha
            have hlt := hg.2 rfl a (by simp) n ha
            split at h
            · rename_i hnn
              simp only [Res.ok.injEq] at h
              subst h
              have := visiblyNonneg_val hnn hsv
              rw [hsv, Int.emod_eq_of_lt this hlt]
            · split at h
              · simp only [Res.ok.injEq] at h
                subst h
                simp [Expr.eval, Expr.evalL, finArgs, hsv, applyFn]
              · exact Engine.tail_val hE h hv
          · simp only [h3, if_false] at h
            exact Engine.tail_val hE h hv
    | _ => exact Engine.tail_val hE (by simpa [Engine.simplify] using h) hv

/-- C07 for comparisons: the simplified comparison has the same truth value. -/
theorem simplifyCmp_partial (E : Engine) (ρ : Val) (hE : E.Sound ρ) (fuel : Nat) (a b : Expr) (strict : Bool) (c : Cond)
    (x y : Int) (ha : Good ρ a) (hb : Good ρ b) (hx : a.eval ρ = .fin x) (hy : b.eval ρ = .fin y)
    (h : E.simplifyCmp fuel (if strict then .lt a b else .le a b) = .ok c) :
    ∃ a' b', c = (if strict then .lt a' b' else .le a' b') ∧ a'.eval ρ = .fin x ∧ b'.eval ρ = .fin y := by
  cases strict <;> simp only [Bool.false_eq_true, if_true, if_false, Engine.simplifyCmp] at h ⊢
  all_goals
    obtain ⟨a', h1, h⟩ := Res.bind_ok h
    obtain ⟨b', h2, h⟩ := Res.bind_ok h
    simp only [Res.ok.injEq] at h
    exact ⟨a', b', h.symm, simplify_value_partial E ρ hE fuel a a' x ha h1 hx,
      simplify_value_partial E ρ hE fuel b b' y hb h2 hy⟩

/-- a valuation for the examples -/
def exVal : Val := ⟨fun _ => 7, fun _ _ => 0⟩

/-- zext_i64(max(0, n)) and (4*n) idiv 4: hypotheses met, and the rewriting really happens -/
example : Good exVal (.fn "zext_i64" [.max [.int 0, .sym "n"]]) ∧
    Engine.raw.simplify 3 (.fn "zext_i64" [.max [.int 0, .sym "n"]]) = .ok (.max [.int 0, .sym "n"]) := by
  constructor
  · simp [Good, GoodL, Expr.eval, Expr.evalL, exVal, V.max]
  · simp [Engine.simplify, Engine.tail, Engine.raw, Res.bind, visiblyNonneg]
example : Engine.raw.simplify 3 (.fn "idiv" [.mul [.int 4, .sym "n"], .int 4]) = .ok (.mul [.int 1, .sym "n"]) := by
  simp [Engine.simplify, Engine.raw, removeFactor]

/-- C07 is false without the range condition: `zext_i64(max(0, x))` is rewritten to `max(0, x)` although `x = 2^32`
(a 33-bit value) is zero-extended to 0. -/
theorem simplify_zext_violated : ∃ (ρ : Val) (e e' : Expr), Engine.raw.simplify 5 e = .ok e' ∧
    e.eval ρ = .fin 0 ∧ e'.eval ρ = .fin (2 ^ 32) := by
  refine ⟨⟨fun _ => 2 ^ 32, fun _ _ => 0⟩, .fn "zext_i64" [.max [.int 0, .sym "x"]], .max [.int 0, .sym "x"], ?_, ?_, ?_⟩
  · simp [Engine.simplify, Engine.tail, Engine.raw, Res.bind, visiblyNonneg]
  · simp [Expr.eval, Expr.evalL, V.max, finArgs, applyFn]
  · simp [Expr.eval, Expr.evalL, V.max]

/-- C07: simplifying a constant remainder by zero divides by zero on the host (`imod(a, 0)` is not guarded, `idiv` is). -/
theorem simplify_imod_zero_ub (E : Engine) (fuel : Nat) (a : Int) (ha : -2 ^ 63 ≤ a ∧ a < 2 ^ 63) :
    E.simplify (fuel + 1) (.fn "imod" [.int a, .int 0]) = .ub ∧
    E.simplify (fuel + 1) (.fn "idiv" [.int a, .int 0]) = .ok (.fn "idiv" [.int a, .int 0]) := by
  constructor
  · simp [Engine.simplify, asInt_of ha, asInt_of (show -2 ^ 63 ≤ (0 : Int) ∧ (0 : Int) < 2 ^ 63 by decide), hostMod, Res.bind]
  · simp [Engine.simplify]

/-! ### div, mod (C47) -/

/-- C47: whenever `div(l, r)` returns, its value is the C quotient of the values (truncation towards zero). -/
theorem div_value (ρ : Val) (l r q : Expr) (x y : Int) (hx : l.eval ρ = .fin x) (hy : r.eval ρ = .fin y) (hy0 : y ≠ 0)
    (h : sdiv l r = .ok q) : q.eval ρ = .fin (x.tdiv y) := by
  have hfn : (Expr.fn "idiv" [l, r]).eval ρ = .fin (x.tdiv y) := by
    simp [Expr.eval, Expr.evalL, hx, hy, finArgs, applyFn, hy0]
  unfold sdiv at h
  split at h
  · simp only [Res.ok.injEq] at h; exact h ▸ hfn
  · split at h
    · rename_i h1
      subst h1
      simp only [Res.ok.injEq] at h
      simp only [Expr.eval, V.fin.injEq] at hy
      rw [← h, hx, ← hy, Int.tdiv_one]
    · split at h
      · rename_i h1
        subst h1
        simp only [Res.ok.injEq] at h
        simp only [Expr.eval, V.fin.injEq] at hx
        rw [← h, ← hx, Int.zero_tdiv]; rfl
      · split at h
        · obtain ⟨a', h2, h⟩ := Res.bind_ok h
          obtain ⟨b', h3, h⟩ := Res.bind_ok h
          obtain ⟨c, h4, h⟩ := Res.bind_ok h
          simp only [Res.ok.injEq] at h
          rw [asInt_ok h2, asInt_ok h3] at h4
          simp only [Expr.eval, V.fin.injEq] at hx hy
          rw [← h, Expr.eval, (hostDiv_ok h4).2, hx, hy]
        · simp only [Res.ok.injEq] at h; exact h ▸ hfn

theorem eval_ssub {ρ : Val} {a b : Expr} {x y : Int} (hx : a.eval ρ = .fin x) (hy : b.eval ρ = .fin y) :
    (ssub a b).eval ρ = .fin (x - y) := by
  simp [ssub, Expr.eval, Expr.evalL, hx, hy, V.mul, V.add]; omega

/-- C47: `mod(l, r)` is the C remainder. -/
theorem mod_value (ρ : Val) (l r m : Expr) (x y : Int) (hx : l.eval ρ = .fin x) (hy : r.eval ρ = .fin y) (hy0 : y ≠ 0)
    (h : smod l r = .ok m) : m.eval ρ = .fin (x.tmod y) := by
  obtain ⟨q, hq, h⟩ := Res.bind_ok h
  simp only [Res.ok.injEq] at h
  subst h
  have := div_value ρ l r q x y hx hy hy0 hq
  rw [eval_ssub (y := x.tdiv y * y) hx (by simp [Expr.eval, Expr.evalL, this, hy, V.mul])]
  congr 1
  have := Int.mul_tdiv_add_tmod x y
  rw [Int.mul_comm] at this
  omega

/-- C47: `div` fails only on integer literals that do not fit in 64 bits, or on `INT64_MIN / -1`. -/
theorem div_total (l r : Expr) (h : ∀ a b, l = .int a → r = .int b →
    (-2 ^ 63 ≤ a ∧ a < 2 ^ 63) ∧ (-2 ^ 63 ≤ b ∧ b < 2 ^ 63) ∧ ¬(a = -2 ^ 63 ∧ b = -1)) :
    ∃ q, sdiv l r = .ok q := by
  unfold sdiv
  split
  · exact ⟨_, rfl⟩
  · rename_i h0
    split
    · exact ⟨_, rfl⟩
    · split
      · exact ⟨_, rfl⟩
      · split
        · rename_i a b _ _
          obtain ⟨ha, hb, hab⟩ := h a b rfl rfl
          have hb0 : b ≠ 0 := by rintro rfl; exact h0 rfl
          simp only [asInt_of ha, asInt_of hb, Res.bind, hostDiv, hb0, hab, if_false]
          exact ⟨_, rfl⟩
        · exact ⟨_, rfl⟩

/-! ### divide_ceil (C08) -/

/-- C08: `divide_ceil(n, d)` evaluates to the least `k` with `k*d ≥ n`, for `n ≥ 0` and `d > 0`, in both code paths.
The unevaluated SymEngine `ceiling` means the mathematical ceiling (`hceil`). -/
theorem divide_ceil_least (ρ : Val) (n d q : Expr) (x y : Int) (hx : n.eval ρ = .fin x) (hy : d.eval ρ = .fin y)
    (hx0 : 0 ≤ x) (hy0 : 0 < y) (hceil : ∀ a b : Int, ρ.fn "ceiling_quotient" [a, b] = -((-a).fdiv b))
    (h : divideCeil n d = .ok q) :
    ∃ k, q.eval ρ = .fin k ∧ x ≤ k * y ∧ ∀ j, x ≤ j * y → k ≤ j := by
  have least : ∀ k : Int, x ≤ k * y → k * y < x + y → ∀ j, x ≤ j * y → k ≤ j := by
    intro k h1 h2 j h3
    by_contra h4
    have h5 : j + 1 ≤ k := by omega
    have h6 : (j + 1) * y ≤ k * y := Int.mul_le_mul_of_nonneg_right h5 (by omega)
    rw [Int.add_mul] at h6
    omega
  unfold divideCeil at h
  split at h
  · rename_i hat
    have hq : q.eval ρ = .fin (-((-x).fdiv y)) := by
      split at h
      · simp only [Expr.eval, V.fin.injEq] at hx hy
        subst hx; subst hy
        rw [if_neg (by omega)] at h
        simp only [Res.ok.injEq] at h
        rw [← h, Expr.eval]
      · simp only [Res.ok.injEq] at h
        rw [← h]
        simp [Expr.eval, Expr.evalL, hx, hy, finArgs, applyFn, hceil]
    have e := Int.mul_fdiv_add_fmod (-x) y
    have l1 := Int.fmod_nonneg_of_pos (-x) hy0
    have l2 := Int.fmod_lt_of_pos (-x) hy0
    refine ⟨_, hq, ?_, least _ ?_ ?_⟩
    all_goals
      rw [Int.neg_mul, Int.mul_comm]
      omega
  · obtain hv := div_value ρ _ d q (x + (y - 1)) y
      (by simp [Expr.eval, Expr.evalL, hx, eval_ssub hy (show (Expr.int 1).eval ρ = .fin 1 from rfl), V.add]) hy
      (by omega) h
    have e := Int.mul_tdiv_add_tmod (x + (y - 1)) y
    have l1 := Int.tmod_nonneg y (show 0 ≤ x + (y - 1) by omega)
    have l2 := Int.tmod_lt_of_pos (x + (y - 1)) hy0
    refine ⟨_, hv, ?_, least _ ?_ ?_⟩
    all_goals
      rw [Int.mul_comm]
      omega

example : ∃ q k, divideCeil (.sym "n") (.int 32) = .ok q ∧ q.eval exVal = .fin k ∧ 7 ≤ k * 32 := by
  refine ⟨.fn "idiv" [.add [.sym "n", ssub (.int 32) (.int 1)], .int 32], 1, ?_, ?_, by omega⟩
  · simp [divideCeil, sdiv, Expr.atoms]
  · simp [ssub, Expr.eval, Expr.evalL, exVal, V.add, V.mul, finArgs, applyFn]

/-- C08 is false for negative dividends in the symbolic path (C division truncates towards zero): with
`d = 4`, `n = -5` the symbolic path gives `0`, the least `k` with `4*k ≥ -5` is `-1` (the constant path is exact). -/
theorem divide_ceil_negative_violated : ∃ (ρ : Val) (q : Expr), divideCeil (.sym "n") (.int 4) = .ok q ∧
    ρ.sym "n" = -5 ∧ q.eval ρ = .fin 0 ∧ (-5 : Int) ≤ (-1) * 4 ∧ divideCeil (.int (-5)) (.int 4) = .ok (.int (-1)) := by
  refine ⟨⟨fun _ => -5, fun _ _ => 0⟩, .fn "idiv" [.add [.sym "n", ssub (.int 4) (.int 1)], .int 4], ?_, rfl, ?_, by omega, ?_⟩
  · simp [divideCeil, sdiv, Expr.atoms]
  · simp [ssub, Expr.eval, Expr.evalL, V.add, V.mul, finArgs, applyFn]
  · simp [divideCeil, Expr.atoms]
end Docc.Sym
