import Verif.Sym.Delin
import Verif.Sym.PolyProps
import Verif.Sym.SeriesProps
import Verif.Sym.ExtremeProps
import Verif.Sym.ExprProps

/-
C05: `delinearize` separates dimensions faithfully.
-/
namespace Docc.Sym

/-! ### contracts and specification -/

/-- What is assumed of SymEngine and `polynomial_div`: the dictionary of a polynomial has one exponent per generator and coefficients
over the other symbols of the expression; `expand`, `simplify` and canonicalisation keep values; a `Ge` that is true holds; the division identity. -/
structure DEngine.Sound (D : DEngine) : Prop where
  poly : ∀ ρ, D.P.Sound ρ
  len : ∀ e g p, D.P.poly e g = some p → ∀ t ∈ p, t.1.length = g.length
  free : ∀ e g p, D.P.poly e g = some p → ∀ t ∈ p, ∀ x ∈ t.2.atoms, x ∈ D.syms e ∧ x ∉ g
  norm : D.P.NormSound
  syms : ∀ e x, x ∈ D.syms e → x ∈ e.atoms
  nodup : ∀ e, (D.syms e).Nodup
  const : ∀ e, constName ∉ D.syms e
  order : ∀ l, (D.order l).Perm l
  ge : ∀ a b ρ, D.ge a b = true → a.eval ρ ≠ .nan → b.eval ρ ≠ .nan → b.eval ρ ≤ a.eval ρ
  simp : ∀ ρ e n, e.eval ρ = .fin n → (D.simp e).eval ρ = .fin n
  pdiv : ∀ ρ o s q r v w, D.pdiv o s = .ok (q, r) → o.eval ρ = .fin v → s.eval ρ = .fin w → 1 ≤ w →
    ∃ a b, q.eval ρ = .fin a ∧ r.eval ρ = .fin b ∧ v = a * w + b
  pdivFree : ∀ o s q r x, D.pdiv o s = .ok (q, r) → x ∈ q.atoms ∨ x ∈ r.atoms → x ∈ o.atoms ∨ x ∈ s.atoms

/-- the integer value of an expression (0 if it has none) -/
def Expr.toInt (ρ : Val) (e : Expr) : Int := match e.eval ρ with
  | .fin n => n
  | _ => 0

theorem Expr.toInt_eq {ρ : Val} {e : Expr} {n : Int} (h : e.eval ρ = .fin n) : e.toInt ρ = n := by simp [Expr.toInt, h]

/-- What the tests of `delinearize` leave open about one peeled dimension: the bounds it computes have values (no division by zero
and no function symbols other than in-range zero extensions), the largest stride is the stride of this state, and the rest is not
exactly one stride. -/
structure Peel.Ok (A : Assums) (ρ : Val) (p : Peel) : Prop where
  fnRem : FnOk (minimum [] A) (maximum [] A) ρ p.rem
  fnStride : FnOk (minimum [] A) (maximum [] A) ρ p.stride
  minRem : ∀ m, symMinimum [] A p.rem = .ok m → m.eval ρ ≠ .nan
  maxRem : ∀ m, symMaximum [] A p.rem = .ok m → m.eval ρ ≠ .nan
  minStride : ∀ m, symMinimum [] A p.stride = .ok m → m.eval ρ ≠ .nan
  maxStride : ∀ m, symMaximum [] A p.stride = .ok m → m.eval ρ = p.stride.eval ρ
  strict : p.rem.eval ρ ≠ p.stride.eval ρ

/-- `Σ stride * symbol` -/
def lin (ρ : Val) : List Peel → Int
  | [] => 0
  | p :: r => p.stride.toInt ρ * ρ.sym p.sym + lin ρ r

/-- `Σ stride * quotient` -/
def quots (ρ : Val) : List Peel → Int
  | [] => 0
  | p :: r => p.stride.toInt ρ * p.quot.toInt ρ + quots ρ r

/-- mixed radix: at every dimension the rest of the subscript lies in `[0, stride)` -/
def Radix (ρ : Val) : List Peel → Prop
  | [] => True
  | p :: r => (∃ w, p.stride.eval ρ = .fin w) ∧ (∃ w, p.quot.eval ρ = .fin w) ∧ 0 ≤ lin ρ r ∧ lin ρ r < p.stride.toInt ρ ∧ Radix ρ r

/-- value of a list of coefficients -/
def coeffSum (ρ : Val) (cs : List (String × Expr)) : Int := (cs.map fun c => c.2.toInt ρ * ρ.sym c.1).sum

theorem pickDim_mem {cs : List (String × Expr)} {c : String × Expr} (h : pickDim cs = some c) : c ∈ cs := by
  unfold pickDim at h
  have : ∀ (l : List (String × Expr)) (m : Option (String × Expr)), l.foldl (fun m c => match m with
    | none => some c
    | some b => if c.2.atoms.eraseDups.length > b.2.atoms.eraseDups.length then some c else some b) m = some c → c ∈ l ∨ m = some c := by
    intro l
    induction l with
    | nil => exact fun m h => .inr h
    | cons a r ih =>
      intro m h
      rcases ih _ h with h | h
      · exact .inl (List.mem_cons_of_mem _ h)
      · cases m with
        | none => simp only [Option.some.injEq] at h; exact .inl (h ▸ List.mem_cons_self ..)
        | some b =>
          simp only at h
          split at h
          · simp only [Option.some.injEq] at h; exact .inl (h ▸ List.mem_cons_self ..)
          · exact .inr h
  rcases this cs none h with h | h
  · exact h
  · simp at h

theorem pickDim_none {cs : List (String × Expr)} (h : pickDim cs = none) : cs = [] := by
  cases cs with
  | nil => rfl
  | cons a r =>
    exfalso
    unfold pickDim at h
    simp only [List.foldl_cons] at h
    have : ∀ (l : List (String × Expr)) (b : String × Expr), (l.foldl (fun m c => match m with
      | none => some c
      | some b => if c.2.atoms.eraseDups.length > b.2.atoms.eraseDups.length then some c else some b) (some b)) ≠ none := by
      intro l
      induction l with
      | nil => simp
      | cons a r ih => intro b; simp only [List.foldl_cons]; split <;> exact ih _
    exact this r a h

theorem coeffSum_pick {ρ : Val} {cs : List (String × Expr)} {x : String} {s : Expr} (h : (x, s) ∈ cs) (hn : (cs.map (·.1)).Nodup) :
    coeffSum ρ cs = s.toInt ρ * ρ.sym x + coeffSum ρ (cs.filter fun c => c.1 ≠ x) := by
  induction cs with
  | nil => simp at h
  | cons c r ih =>
    rw [List.map_cons, List.nodup_cons] at hn
    by_cases hc : c.1 = x
    · have hcs : c = (x, s) := by
        rcases List.mem_cons.1 h with h | h
        · exact h.symm
        · exact absurd (hc ▸ List.mem_map_of_mem (f := Prod.fst) h) hn.1
      have hr : r.filter (fun c => c.1 ≠ x) = r := by
        refine List.filter_eq_self.2 fun d hd => ?_
        simp only [decide_eq_true_eq]
        exact fun e => hn.1 (by rw [hc, ← e]; exact List.mem_map_of_mem (f := Prod.fst) hd)
      rw [List.filter_cons_of_neg (by simp [hc]), hr, hcs]
      simp [coeffSum]
    · rcases List.mem_cons.1 h with h | h
      · exact absurd (by rw [← h]) hc
      · have := ih h hn.2
        rw [List.filter_cons_of_pos (by simp [hc])]
        simp only [coeffSum, List.map_cons, List.sum_cons] at this ⊢
        omega

theorem V.fin_le {a b : Int} : V.fin a ≤ V.fin b ↔ a ≤ b := by simp [V.le_def, V.le]

/-- The peeling loop: value and radix of the result. -/
theorem peelDims_spec (D : DEngine) (hD : D.Sound) (A : Assums) (ρ : Val) (hA : A.Hold ρ)
    (hAf : AssumsFnOk (minimum [] A) (maximum [] A) ρ A) (fuel : Nat) (cs : List (String × Expr)) (rem off : Expr) (ps : List Peel)
    (h : peelDims D A fuel cs rem off = .ok (some ps)) (hn : (cs.map (·.1)).Nodup) (hcs : ∀ c ∈ cs, ∃ w, c.2.eval ρ = .fin w)
    (hrem : rem.eval ρ = .fin (coeffSum ρ cs)) (v : Int) (hoff : off.eval ρ = .fin v) (hok : ∀ p ∈ ps, p.Ok A ρ) :
    coeffSum ρ cs = lin ρ ps ∧ v = quots ρ ps ∧ Radix ρ ps := by
  induction fuel generalizing cs rem off ps v with
  | zero =>
    rw [peelDims] at h
    split at h
    · rename_i hp
      have := pickDim_none hp; subst this
      simp only [Res.ok.injEq] at h
      split at h
      · rename_i h0
        simp only [Option.some.injEq] at h; subst h
        have := hD.norm ρ off v hoff
        rw [h0] at this
        simp only [Expr.eval, V.fin.injEq] at this
        exact ⟨rfl, this.symm, trivial⟩
      · simp at h
    · simp at h
  | succ fuel ih =>
    rw [peelDims] at h
    split at h
    · rename_i hp
      have := pickDim_none hp; subst this
      simp only [Res.ok.injEq] at h
      split at h
      · rename_i h0
        simp only [Option.some.injEq] at h; subst h
        have := hD.norm ρ off v hoff
        rw [h0] at this
        simp only [Expr.eval, V.fin.injEq] at this
        exact ⟨rfl, this.symm, trivial⟩
      · simp at h
    · rename_i x s hp
      have hmem := pickDim_mem hp
      obtain ⟨w, hw⟩ := hcs _ hmem
      have hwi := Expr.toInt_eq hw
      simp only at hw hwi
      simp only at h
      split at h
      · simp at h
      · simp at h
      · split at h
        · simp at h
        · split at h
          · simp at h
          · simp at h
          · rename_i ls hls
            split at h
            · simp at h
            · rename_i hgs
              split at h
              · simp at h
              · simp at h
              · rename_i lr hlr
                split at h
                · simp at h
                · rename_i hgr
                  split at h
                  · rename_i us ur hus hur
                    split at h
                    · simp at h
                    · rename_i hgu
                      obtain ⟨⟨q, r⟩, hpd, h⟩ := Res.bind_ok h
                      obtain ⟨o, ho, h⟩ := Res.bind_ok h
                      cases o with
                      | none => simp at h
                      | some ps' =>
                        simp only [Option.map_some, Res.ok.injEq, Option.some.injEq] at h
                        subst h
                        have hpk := hok _ (List.mem_cons_self ..)
                        have hw1 : 1 ≤ w := by
                          have h1 := (extreme_values_sound_partial [] A ρ hA hAf s ls ls hpk.fnStride (by rw [hw]; simp)).1 hls
                            (hpk.minStride _ hls)
                          have h2 := hD.ge _ _ ρ (by simpa using hgs) (hpk.minStride _ hls) (by simp [Expr.eval])
                          have := V.le_trans h2 h1
                          rw [hw] at this
                          simpa [Expr.eval, V.fin_le] using this
                        have hpick := coeffSum_pick (ρ := ρ) hmem hn
                        have hrem' : (D.simp (ssub rem (.mul [s, .sym x]))).eval ρ = .fin (coeffSum ρ (cs.filter fun c => c.1 ≠ x)) := by
                          have h1 : (Expr.mul [s, .sym x]).eval ρ = .fin (w * ρ.sym x) := eval_mul2 hw (by simp [Expr.eval])
                          have := hD.simp ρ _ _ (eval_ssub hrem h1)
                          rw [this, hpick, hwi]
                          congr 1; omega
                        obtain ⟨a, b, hqa, hrb, hv⟩ := hD.pdiv ρ off s q r v w hpd hoff hw hw1
                        obtain ⟨e1, e2, e3⟩ := ih (cs.filter fun c => c.1 ≠ x) _ r ps' ho
                          (List.Nodup.sublist (List.Sublist.map _ List.filter_sublist) hn)
                          (fun c hc => hcs c (List.mem_of_mem_filter hc)) hrem' b hrb
                          (fun p hp => hok p (List.mem_cons_of_mem _ hp))
                        have hlow : 0 ≤ lin ρ ps' := by
                          have h1 := (extreme_values_sound_partial [] A ρ hA hAf _ lr lr hpk.fnRem
                            (by show (D.simp _).eval ρ ≠ .nan; rw [hrem']; simp)).1 hlr (hpk.minRem _ hlr)
                          have h2 := hD.ge _ _ ρ (by simpa using hgr) (hpk.minRem _ hlr) (by simp [Expr.eval])
                          have := V.le_trans h2 h1
                          simp only at this
                          rw [hrem', e1] at this
                          simpa [Expr.eval, V.fin_le] using this
                        have hhigh : lin ρ ps' < w := by
                          have h1 := (extreme_values_sound_partial [] A ρ hA hAf _ ur ur hpk.fnRem
                            (by show (D.simp _).eval ρ ≠ .nan; rw [hrem']; simp)).2 hur (hpk.maxRem _ hur)
                          have hus' := hpk.maxStride _ hus
                          have h2 := hD.ge _ _ ρ (by simpa using hgu) (by rw [hus']; simp only; rw [hw]; simp) (hpk.maxRem _ hur)
                          have := V.le_trans h1 h2
                          simp only at this hus'
                          rw [hus', hrem', e1, hw, V.fin_le] at this
                          have hs := hpk.strict
                          simp only at hs
                          rw [hrem', e1, hw] at hs
                          have : lin ρ ps' ≠ w := fun e => hs (by rw [e])
                          omega
                        refine ⟨?_, ?_, ⟨_, hw⟩, ⟨_, hqa⟩, hlow, ?_, e3⟩
                        · rw [hpick, e1]; rfl
                        · simp only [quots]
                          rw [hwi, Expr.toInt_eq hqa, ← e2, hv, Int.mul_comm]
                        · simp only; rw [hwi]; exact hhigh
                  · simp at h

/-- Strides and quotients of the peeled dimensions contain only symbols of the coefficients. -/
theorem peelDims_free (D : DEngine) (hD : D.Sound) (A : Assums) (Q : String → Prop) (fuel : Nat) (cs : List (String × Expr))
    (rem off : Expr) (ps : List Peel) (h : peelDims D A fuel cs rem off = .ok (some ps)) (hcs : ∀ c ∈ cs, ∀ x ∈ c.2.atoms, Q x)
    (hoff : ∀ x ∈ off.atoms, Q x) : ∀ p ∈ ps, (∀ x ∈ p.stride.atoms, Q x) ∧ ∀ x ∈ p.quot.atoms, Q x := by
  induction fuel generalizing cs rem off ps with
  | zero =>
    rw [peelDims] at h
    split at h
    · simp only [Res.ok.injEq] at h
      split at h
      · simp only [Option.some.injEq] at h; subst h; simp
      · simp at h
    · simp at h
  | succ fuel ih =>
    rw [peelDims] at h
    split at h
    · simp only [Res.ok.injEq] at h
      split at h
      · simp only [Option.some.injEq] at h; subst h; simp
      · simp at h
    · rename_i x s hp
      have hmem := pickDim_mem hp
      simp only at h
      split at h
      · simp at h
      · simp at h
      · split at h
        · simp at h
        · split at h
          · simp at h
          · simp at h
          · split at h
            · simp at h
            · split at h
              · simp at h
              · simp at h
              · split at h
                · simp at h
                · split at h
                  · split at h
                    · simp at h
                    · obtain ⟨⟨q, r⟩, hpd, h⟩ := Res.bind_ok h
                      obtain ⟨o, ho, h⟩ := Res.bind_ok h
                      cases o with
                      | none => simp at h
                      | some ps' =>
                        simp only [Option.map_some, Res.ok.injEq, Option.some.injEq] at h
                        subst h
                        have hfree : ∀ y, y ∈ q.atoms ∨ y ∈ r.atoms → Q y := by
                          intro y hy
                          rcases hD.pdivFree _ _ _ _ y hpd hy with h | h
                          · exact hoff y h
                          · exact hcs _ hmem y h
                        intro p hp
                        rcases List.mem_cons.1 hp with hp | hp
                        · subst hp; exact ⟨hcs _ hmem, fun y hy => hfree y (.inl hy)⟩
                        · exact ih _ _ _ _ ho (fun c hc => hcs c (List.mem_of_mem_filter hc)) (fun y hy => hfree y (.inr hy)) p hp
                  · simp at h

theorem affineCoefficients_free {p : Poly} {symbols : List String} {aff : Affine} (h : affineCoefficients p symbols = some aff)
    (Q : String → Prop) (hp : ∀ t ∈ p, ∀ x ∈ t.2.atoms, Q x) (s : String) : ∀ x ∈ (aff.at' s).atoms, Q x := by
  have key : ∀ (l : Poly) (f f' : String → Expr), affineCoefficients.go symbols l f = some f' → (∀ t ∈ l, ∀ x ∈ t.2.atoms, Q x) →
      (∀ s, ∀ x ∈ (f s).atoms, Q x) → ∀ s, ∀ x ∈ (f' s).atoms, Q x := by
    intro l
    induction l with
    | nil => intro f f' h _ hf; simp only [affineCoefficients.go, Option.some.injEq] at h; subst h; exact hf
    | cons t r ih =>
      obtain ⟨es, c⟩ := t
      intro f f' h hl hf
      simp only [affineCoefficients.go] at h
      split at h
      · simp at h
      · refine ih _ _ h (fun t ht => hl t (List.mem_cons_of_mem _ ht)) ?_
        intro s x hx
        split at hx
        · simp only [Expr.atoms, Expr.atomsL, List.append_nil, List.mem_append] at hx
          exact hx.elim (hf _ x) (hl _ (List.mem_cons_self ..) x)
        · exact hf s x hx
  unfold affineCoefficients at h
  split at h
  · rename_i f hf
    simp only [Option.some.injEq] at h; subst h
    exact key p _ _ hf hp (fun s x hx => by simp [Expr.atoms] at hx) s
  · simp at h

/-- two mixed-radix numbers with equal strides are equal only digit by digit -/
theorem radix_unique {ρ ρ' : Val} {ps : List Peel} (h1 : Radix ρ ps) (h2 : Radix ρ' ps)
    (hs : ∀ p ∈ ps, p.stride.eval ρ = p.stride.eval ρ') (he : lin ρ ps = lin ρ' ps) : ∀ p ∈ ps, ρ.sym p.sym = ρ'.sym p.sym := by
  induction ps with
  | nil => simp
  | cons p r ih =>
    obtain ⟨⟨w, hw⟩, _, a1, a2, a3⟩ := h1
    obtain ⟨_, _, b1, b2, b3⟩ := h2
    have hw' : p.stride.eval ρ' = .fin w := by rw [← hs p (List.mem_cons_self ..), hw]
    simp only [lin] at he
    rw [Expr.toInt_eq hw] at he a2
    rw [Expr.toInt_eq hw'] at he b2
    have hx : ρ.sym p.sym = ρ'.sym p.sym := by
      generalize ρ.sym p.sym = x at he ⊢
      generalize ρ'.sym p.sym = y at he ⊢
      have e1 : (w * x + lin ρ r) / w = x := by
        rw [Int.add_comm, Int.add_mul_ediv_left _ _ (by omega), Int.ediv_eq_zero_of_lt a1 a2]; omega
      have e2 : (w * y + lin ρ' r) / w = y := by
        rw [Int.add_comm, Int.add_mul_ediv_left _ _ (by omega), Int.ediv_eq_zero_of_lt b1 b2]; omega
      rw [← e1, ← e2, he]
    intro q hq
    rcases List.mem_cons.1 hq with hq | hq
    · subst hq; exact hx
    · refine ih a3 b3 (fun p hp => hs p (List.mem_cons_of_mem _ hp)) ?_ q hq
      rw [hx] at he; omega

/-- A subscript that is split has the value `Σ stride * dimension`, in mixed radix. -/
theorem delinPeel_spec (D : DEngine) (hD : D.Sound) (A : Assums) (e : Expr) (ps : List Peel) (h : delinPeel D A e = .ok (some ps))
    (ρ : Val) (hA : A.Hold ρ) (hAf : AssumsFnOk (minimum [] A) (maximum [] A) ρ A) (v : Int) (hv : e.eval ρ = .fin v)
    (hok : ∀ p ∈ ps, p.Ok A ρ) : v = lin ρ ps + quots ρ ps ∧ Radix ρ ps := by
  unfold delinPeel at h
  split at h
  · simp at h
  simp only at h
  split at h
  · simp at h
  split at h
  · simp at h
  rename_i p hp
  split at h
  · simp at h
  rename_i aff haff
  have hnd := (hD.nodup e).filter (varying A)
  have hcn : constName ∉ (D.syms e).filter (varying A) := fun h => hD.const e (List.mem_of_mem_filter h)
  obtain ⟨cv, hcv, hval⟩ := affine_coefficients_partial D.P ρ (hD.poly ρ) e _ hnd hcn p hp (hD.len _ _ _ hp) aff haff v hv
  have hperm := hD.order (((D.syms e).filter (varying A)).map fun s => (s, aff.at' s))
  have hsum : coeffSum ρ (D.order (((D.syms e).filter (varying A)).map fun s => (s, aff.at' s))) =
      (((D.syms e).filter (varying A)).map fun s => cv s * ρ.sym s).sum := by
    unfold coeffSum
    rw [(hperm.map _).sum_eq, List.map_map]
    congr 1
    refine List.map_congr_left fun s _ => ?_
    simp only [Function.comp]
    rw [Expr.toInt_eq (hcv s)]
  have hrem : (ssub e (aff.at' constName)).eval ρ = .fin (coeffSum ρ (D.order (((D.syms e).filter (varying A)).map fun s => (s, aff.at' s)))) := by
    rw [eval_ssub hv (hcv constName), hsum]; congr 1; omega
  obtain ⟨h1, h2, h3⟩ := peelDims_spec D hD A ρ hA hAf _ _ _ _ ps h
    (by
      refine (hperm.map (·.1)).nodup_iff.2 ?_
      rw [List.map_map]
      have : ((fun x : String × Expr => x.1) ∘ fun s => (s, aff.at' s)) = id := rfl
      rw [this, List.map_id]; exact hnd)
    (fun c hc => by
      obtain ⟨s, _, rfl⟩ := List.mem_map.1 (hperm.mem_iff.1 hc)
      exact ⟨_, hcv s⟩) hrem _ (hcv constName) hok
  refine ⟨?_, h3⟩
  rw [← h1, ← h2, hsum, hval]

/-- only non-varying symbols of the subscript occur in strides and quotients -/
theorem delinPeel_free (D : DEngine) (hD : D.Sound) (A : Assums) (e : Expr) (ps : List Peel) (h : delinPeel D A e = .ok (some ps)) :
    ∀ p ∈ ps, (∀ x ∈ p.stride.atoms, varying A x = false) ∧ ∀ x ∈ p.quot.atoms, varying A x = false := by
  unfold delinPeel at h
  split at h
  · simp at h
  simp only at h
  split at h
  · simp at h
  split at h
  · simp at h
  rename_i p hp
  split at h
  · simp at h
  rename_i aff haff
  have hQ : ∀ s, ∀ x ∈ (aff.at' s).atoms, varying A x = false := by
    refine affineCoefficients_free haff (fun x => varying A x = false) fun t ht x hx => ?_
    obtain ⟨h1, h2⟩ := hD.free _ _ _ hp t ht x hx
    rw [List.mem_filter, not_and] at h2
    simpa using h2 h1
  have hperm := hD.order (((D.syms e).filter (varying A)).map fun s => (s, aff.at' s))
  exact peelDims_free D hD A _ _ _ _ _ ps h (fun c hc x hx => by
      obtain ⟨s, _, rfl⟩ := List.mem_map.1 (hperm.mem_iff.1 hc)
      exact hQ s x hx) (hQ constName)

/-- **C05** (partial): two accesses through the same subscript, in states that agree on the constants, have the same linear address
only if they agree in every dimension — provided the largest stride is the actual stride and the rest never equals the stride
(`Peel.Ok`).  Missing: exactly these two conditions, which the tests of `delinearize` do not establish (`delinearize_bound_violated`,
`delinearize_pointwise_violated`), and two different subscripts (`delinearize_stride_violated`). -/
theorem delinearize_separates_partial (D : DEngine) (hD : D.Sound) (A : Assums) (e : Expr) (ps : List Peel)
    (h : delinPeel D A e = .ok (some ps)) (ρ ρ' : Val) (hA : A.Hold ρ) (hA' : A.Hold ρ')
    (hAf : AssumsFnOk (minimum [] A) (maximum [] A) ρ A) (hAf' : AssumsFnOk (minimum [] A) (maximum [] A) ρ' A)
    (hconst : ∀ x, varying A x = false → ρ.sym x = ρ'.sym x) (hfn : ρ.fn = ρ'.fn)
    (hok : ∀ p ∈ ps, p.Ok A ρ) (hok' : ∀ p ∈ ps, p.Ok A ρ')
    (v : Int) (hv : e.eval ρ = .fin v) (hv' : e.eval ρ' = .fin v) :
    delinDim D A e = .ok (ps.map Peel.dim) ∧ ∀ d ∈ ps.map Peel.dim, d.eval ρ = d.eval ρ' := by
  refine ⟨by simp [delinDim, h, Res.bind], fun d hd => ?_⟩
  obtain ⟨p, hp, rfl⟩ := List.mem_map.1 hd
  obtain ⟨e1, r1⟩ := delinPeel_spec D hD A e ps h ρ hA hAf v hv hok
  obtain ⟨e2, r2⟩ := delinPeel_spec D hD A e ps h ρ' hA' hAf' v hv' hok'
  have hfree := delinPeel_free D hD A e ps h
  have hs : ∀ p ∈ ps, p.stride.eval ρ = p.stride.eval ρ' := fun p hp =>
    eval_congr_atoms _ _ _ hfn fun x hx => hconst x ((hfree p hp).1 x hx)
  have hq : ∀ p ∈ ps, p.quot.eval ρ = p.quot.eval ρ' := fun p hp =>
    eval_congr_atoms _ _ _ hfn fun x hx => hconst x ((hfree p hp).2 x hx)
  have hquots : quots ρ ps = quots ρ' ps := by
    have : ∀ l : List Peel, (∀ p ∈ l, p ∈ ps) → quots ρ l = quots ρ' l := by
      intro l
      induction l with
      | nil => simp [quots]
      | cons p r ih =>
        intro hl
        simp only [quots, Expr.toInt]
        rw [hs p (hl p (List.mem_cons_self ..)), hq p (hl p (List.mem_cons_self ..)), ih fun p hp => hl p (List.mem_cons_of_mem _ hp)]
    exact this ps fun _ h => h
  have := radix_unique r1 r2 hs (by omega) p hp
  simp only [Peel.dim, Expr.eval, Expr.evalL]
  rw [this, hq p hp]

/-! ### violations and non-vacuity -/

/-- `c*i + j` -/
def exLin (c : Expr) : Expr := .add [.mul [c, .sym "i"], .sym "j"]

/-- what is left of `c*i + j` after the first and after the second dimension, before `simplify` -/
def exRem1 (c : Expr) : Expr := ssub (ssub (exLin c) (.int 0)) (.mul [.add [.int 0, c], .sym "i"])
/-- see `exRem1` -/
def exRem2 : Expr := ssub (.sym "j") (.mul [.add [.int 0, .int 1], .sym "j"])

/-- SymEngine on the subscripts `10*i + j`, `20*i + j` and `N*i + j`. -/
def exDelin : DEngine where
  P := ⟨fun e g => if g ≠ ["i", "j"] then none
    else if e = exLin (.int 10) then some [([1, 0], .int 10), ([0, 1], .int 1)]
    else if e = exLin (.int 20) then some [([1, 0], .int 20), ([0, 1], .int 1)]
    else if e = exLin (.sym "N") then some [([1, 0], .sym "N"), ([0, 1], .int 1)] else none,
    id, fun e => match e.intSum with | some n => .int n | none => e⟩
  syms e := if e = exLin (.int 10) ∨ e = exLin (.int 20) then ["i", "j"] else if e = exLin (.sym "N") then ["N", "i", "j"] else []
  order := id
  ge a b := match a.intSum, b.intSum with
    | some x, some y => decide (y ≤ x)
    | _, _ => decide (a = .add [.int 0, .inf true])
  simp e := if e = exRem1 (.int 10) ∨ e = exRem1 (.int 20) ∨ e = exRem1 (.sym "N") then .sym "j" else if e = exRem2 then .int 0 else e
  pdiv o _ := .ok (.int 0, o)

theorem exDelin_sound : exDelin.Sound where
  poly ρ := by
    constructor
    · intro e n h; exact h
    · intro e gens D n h hv
      simp only [exDelin] at h
      split at h
      · simp at h
      · rename_i hg
        have hg : gens = ["i", "j"] := by simpa using hg
        subst hg
        repeat' split at h
        all_goals first
          | (rename_i he; subst he; simp only [Option.some.injEq] at h; subst h
             simp [exLin, Expr.eval, Expr.evalL, V.add, V.mul] at hv
             simp [polyVal, Expr.eval, monoVal, hv])
          | simp at h
  len e g p h t ht := by
    simp only [exDelin] at h
    split at h
    · simp at h
    · rename_i hg
      have hg : g = ["i", "j"] := by simpa using hg
      subst hg
      repeat' split at h
      all_goals first
        | (simp only [Option.some.injEq] at h; subst h
           simp only [List.mem_cons, List.not_mem_nil, or_false] at ht
           rcases ht with rfl | rfl <;> rfl)
        | simp at h
  free e g p h t ht x hx := by
    simp only [exDelin] at h ⊢
    split at h
    · simp at h
    · rename_i hg
      have hg : g = ["i", "j"] := by simpa using hg
      subst hg
      repeat' split at h
      all_goals first
        | (rename_i he; subst he; simp only [Option.some.injEq] at h; subst h
           simp only [List.mem_cons, List.not_mem_nil, or_false] at ht
           rcases ht with rfl | rfl <;> simp [Expr.atoms] at hx <;> subst hx <;> decide)
        | simp at h
  norm := by
    intro ρ e n h
    simp only [exDelin]
    split
    · rename_i k hk; rw [← h, intSum_eval ρ e k hk]; rfl
    · exact h
  syms e x h := by
    simp only [exDelin] at h
    repeat' split at h
    · rename_i he
      rcases he with rfl | rfl <;> (revert h; revert x; decide)
    · rename_i he; subst he
      revert h; revert x; decide
    · simp at h
  nodup e := by simp only [exDelin]; repeat' split
                all_goals decide
  const e := by simp only [exDelin]; repeat' split
                all_goals decide
  order l := List.Perm.refl _
  ge a b ρ h ha hb := by
    simp only [exDelin] at h
    split at h
    · rename_i x y hx hy
      rw [intSum_eval ρ a x hx, intSum_eval ρ b y hy, V.fin_le]
      simpa using h
    · have : a = .add [.int 0, .inf true] := by simpa using h
      subst this
      cases hb' : b.eval ρ with
      | nan => exact absurd hb' hb
      | _ => simp [Expr.eval, Expr.evalL, V.add, V.le_def, V.le]
  simp ρ e n h := by
    simp only [exDelin]
    split
    · rename_i he
      rcases he with rfl | rfl | rfl <;>
      · simp [exRem1, exLin, ssub, Expr.eval, Expr.evalL, V.add, V.mul] at h ⊢
        omega
    · split
      · rename_i he; subst he
        simp [exRem2, ssub, Expr.eval, Expr.evalL, V.add, V.mul] at h ⊢
        omega
      · exact h
  pdiv ρ o s q r v w h hv hw h1 := by
    simp only [exDelin, Res.ok.injEq, Prod.mk.injEq] at h
    obtain ⟨rfl, rfl⟩ := h
    exact ⟨0, v, rfl, hv, by omega⟩
  pdivFree o s q r x h hx := by
    simp only [exDelin, Res.ok.injEq, Prod.mk.injEq] at h
    obtain ⟨rfl, rfl⟩ := h
    rcases hx with hx | hx
    · simp [Expr.atoms] at hx
    · exact .inl hx

/-- `i >= 0`, `0 <= j <= b`, and a constant `N >= 1` -/
def exDelinA (b : Int) : Assums := fun x => if x = "N" then some { lower := .int 1, constant := true }
  else if x = "i" then some { lower := .int 0 } else if x = "j" then some { lower := .int 0, upper := .int b } else none

/-- state with the given values of `i`, `j` and `N` -/
def exDelinV (i j n : Int) : Val := ⟨fun x => if x = "i" then i else if x = "j" then j else n, fun _ _ => 0⟩

theorem exDelinA_hold (b i j n : Int) (hi : 0 ≤ i) (hj : 0 ≤ j) (hb : j ≤ b) (hn : 1 ≤ n) : (exDelinA b).Hold (exDelinV i j n) := by
  intro x a ha
  simp only [exDelinA] at ha
  repeat' split at ha
  all_goals first
    | simp at ha; done
    | (rename_i hx; subst hx; simp only [Option.some.injEq] at ha; subst ha
       simp [Expr.eval, V.le_def, V.le, exDelinV, *])

/-- **C05 is false at the boundary**: with `0 <= j <= 10` the subscript `10*i + j` is split into `(i, j)` (the test is
`stride >= rest`, not `stride > rest`), and `(0, 10)` and `(1, 0)` are the same address. -/
theorem delinearize_bound_violated : exDelin.Sound ∧
    delinearize exDelin (exDelinA 10) [exLin (.int 10)] = .ok [.add [.sym "i", .int 0], .add [.sym "j", .int 0]] ∧
    ∃ ρ ρ' : Val, (exDelinA 10).Hold ρ ∧ (exDelinA 10).Hold ρ' ∧ ρ.sym "i" ≠ ρ'.sym "i" ∧
      (∀ x, varying (exDelinA 10) x = false → ρ.sym x = ρ'.sym x) ∧
      (exLin (.int 10)).eval ρ = .fin 10 ∧ (exLin (.int 10)).eval ρ' = .fin 10 := by
  refine ⟨exDelin_sound, by decide, exDelinV 0 10 1, exDelinV 1 0 1, exDelinA_hold _ _ _ _ (by decide) (by decide) (by decide) (by decide),
    exDelinA_hold _ _ _ _ (by decide) (by decide) (by decide) (by decide), by decide, ?_, by decide, by decide⟩
  intro x hx
  by_cases h1 : x = "i"
  · subst h1; simp [varying, exDelinA] at hx
  · by_cases h2 : x = "j"
    · subst h2; simp [varying, exDelinA] at hx
    · simp [exDelinV, h1, h2]

/-- **C05 is false for symbolic strides**: the largest stride is compared with the largest rest.  With `N >= 1` unbounded and
`0 <= j <= 9`, `N*i + j` is split into `(i, j)`, and for `N = 5` the accesses `(0, 5)` and `(1, 0)` are the same address. -/
theorem delinearize_pointwise_violated : exDelin.Sound ∧
    delinearize exDelin (exDelinA 9) [exLin (.sym "N")] = .ok [.add [.sym "i", .int 0], .add [.sym "j", .int 0]] ∧
    ∃ ρ ρ' : Val, (exDelinA 9).Hold ρ ∧ (exDelinA 9).Hold ρ' ∧ ρ.sym "i" ≠ ρ'.sym "i" ∧
      (∀ x, varying (exDelinA 9) x = false → ρ.sym x = ρ'.sym x) ∧
      (exLin (.sym "N")).eval ρ = .fin 5 ∧ (exLin (.sym "N")).eval ρ' = .fin 5 := by
  refine ⟨exDelin_sound, by decide, exDelinV 0 5 5, exDelinV 1 0 5, exDelinA_hold _ _ _ _ (by decide) (by decide) (by decide) (by decide),
    exDelinA_hold _ _ _ _ (by decide) (by decide) (by decide) (by decide), by decide, ?_, by decide, by decide⟩
  intro x hx
  by_cases h1 : x = "i"
  · subst h1; simp [varying, exDelinA] at hx
  · by_cases h2 : x = "j"
    · subst h2; simp [varying, exDelinA] at hx
    · simp [exDelinV, h1, h2]

/-- **C05 is false for two subscripts**: the strides are dropped, so `10*i + j` and `20*i + j` both become `(i, j)`; the accesses
`i = 2` through the first and `i = 1` through the second are the same address, with different dimensions. -/
theorem delinearize_stride_violated :
    delinearize exDelin (exDelinA 9) [exLin (.int 10)] = delinearize exDelin (exDelinA 9) [exLin (.int 20)] ∧
    delinearize exDelin (exDelinA 9) [exLin (.int 10)] = .ok [.add [.sym "i", .int 0], .add [.sym "j", .int 0]] ∧
    ∃ ρ ρ' : Val, (exDelinA 9).Hold ρ ∧ (exDelinA 9).Hold ρ' ∧ ρ.sym "i" ≠ ρ'.sym "i" ∧
      (exLin (.int 10)).eval ρ = .fin 20 ∧ (exLin (.int 20)).eval ρ' = .fin 20 :=
  ⟨by decide, by decide, exDelinV 2 0 1, exDelinV 1 0 1, exDelinA_hold _ _ _ _ (by decide) (by decide) (by decide) (by decide),
    exDelinA_hold _ _ _ _ (by decide) (by decide) (by decide) (by decide), by decide, by decide, by decide⟩

/-- the dimensions of `10*i + j` with `0 <= j <= 9` -/
def exPeels : List Peel := [⟨"i", .add [.int 0, .int 10], .sym "j", .int 0⟩, ⟨"j", .add [.int 0, .int 1], .int 0, .int 0⟩]

theorem exPeels_ok (i j : Int) (hj : 0 ≤ j) (hb : j ≤ 9) : ∀ p ∈ exPeels, p.Ok (exDelinA 9) (exDelinV i j 1) := by
  have m1 : symMinimum [] (exDelinA 9) (.sym "j") = .ok (.int 0) := by decide
  have m2 : symMaximum [] (exDelinA 9) (.sym "j") = .ok (.int 9) := by decide
  have m3 : symMinimum [] (exDelinA 9) (.add [.int 0, .int 10]) = .ok (.add [.int 0, .int 10]) := by decide
  have m4 : symMaximum [] (exDelinA 9) (.add [.int 0, .int 10]) = .ok (.add [.int 0, .int 10]) := by decide
  have m5 : symMinimum [] (exDelinA 9) (.add [.int 0, .int 1]) = .ok (.add [.int 0, .int 1]) := by decide
  have m6 : symMaximum [] (exDelinA 9) (.add [.int 0, .int 1]) = .ok (.add [.int 0, .int 1]) := by decide
  have m7 : symMinimum [] (exDelinA 9) (.int 0) = .ok (.int 0) := by decide
  have m8 : symMaximum [] (exDelinA 9) (.int 0) = .ok (.int 0) := by decide
  intro p hp
  simp only [exPeels, List.mem_cons, List.not_mem_nil, or_false] at hp
  rcases hp with rfl | rfl
  · refine ⟨by simp [FnOk, Expr.fns], by simp [FnOk, Expr.fns, Expr.fnsL], ?_, ?_, ?_, ?_, ?_⟩
    · simp only [m1]; rintro m ⟨⟩; simp [Expr.eval]
    · simp only [m2]; rintro m ⟨⟩; simp [Expr.eval]
    · simp only [m3]; rintro m ⟨⟩; simp [Expr.eval, Expr.evalL, V.add]
    · simp only [m4]; rintro m ⟨⟩; rfl
    · simp [Expr.eval, Expr.evalL, V.add, exDelinV]; omega
  · refine ⟨by simp [FnOk, Expr.fns], by simp [FnOk, Expr.fns, Expr.fnsL], ?_, ?_, ?_, ?_, ?_⟩
    · simp only [m7]; rintro m ⟨⟩; simp [Expr.eval]
    · simp only [m8]; rintro m ⟨⟩; simp [Expr.eval]
    · simp only [m5]; rintro m ⟨⟩; simp [Expr.eval, Expr.evalL, V.add]
    · simp only [m6]; rintro m ⟨⟩; rfl
    · simp [Expr.eval, Expr.evalL, V.add]

/-- the hypotheses of `delinearize_separates_partial` are met by `10*i + j` with `0 <= j <= 9`, in every state -/
example (i j : Int) (hi : 0 ≤ i) (hj : 0 ≤ j) (hb : j ≤ 9) : delinPeel exDelin (exDelinA 9) (exLin (.int 10)) = .ok (some exPeels) ∧
    (exDelinA 9).Hold (exDelinV i j 1) ∧ ∀ p ∈ exPeels, p.Ok (exDelinA 9) (exDelinV i j 1) :=
  ⟨by decide, exDelinA_hold _ _ _ _ hi hj hb (by decide), exPeels_ok i j hj hb⟩

end Docc.Sym
