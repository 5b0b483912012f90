import Verif.IR.FlopLemmas
import Verif.Sym.SeriesProps

/-
The FLOP analysis is exact for the programs it calls precise, under the conditions stated.
-/
namespace Docc.IR
open Docc.Sym

mutual
/-- nothing to count: the count is zero -/
theorem Node.uncounted {F : FlopEnv} (n : Node) (hs : n.jumpless = true) (hc : n.counted = false) {A : Assums × Assums} {u : List User} {e : Expr}
    (he : (n.flops F A u).e = some e) (hp : (n.flops F A u).precise = true) : e = .int 0 := by
  match n with
  | .block l =>
    rw [Node.counted] at hc
    have h2 : ∀ l : List Stmt, l.any Stmt.counted = false → tasks l = 0 ∧ F.libFlops l = some (.int 0) := by
      intro l
      induction l with
      | nil => intro _; exact ⟨rfl, rfl⟩
      | cons x r ih =>
        intro h
        simp only [List.any_cons, Bool.or_eq_false_iff] at h
        obtain ⟨h1, h2⟩ := h
        cases x with
        | lib _ _ _ => cases h1
        | tasklet op a o c =>
          simp only [Stmt.counted, decide_eq_false_iff_not, Classical.not_not] at h1
          simp only [tasks, FlopEnv.libFlops, h1, (ih h2).1, (ih h2).2]
          exact ⟨rfl, trivial⟩
    obtain ⟨h3, h4⟩ := h2 l hc
    simp only [Node.flops, FlopEnv.block, h4, tasklets_eq, h3, Option.some.injEq] at he
    rw [← he]; rfl
  | .seq s => rw [Node.flops] at he hp; exact s.uncounted hs hc he hp
  | .ifElse .nil => simp only [Node.flops, Option.some.injEq] at he; exact he.symm
  | .ifElse (.cons _ _ _) => simp [Node.flops] at hp
  | .whileL s => simp [Node.flops, FlopR.null] at he
  | .loop m i init cond upd s =>
    simp only [Node.flops] at he hp
    split at he
    · cases he
    · rename_i k hk
      simp only [hk, Bool.and_eq_true] at hp
      have := s.uncounted hs hc hk hp.1.1
      subst this
      simp only [FlopEnv.loopIn] at he
      split at he
      · cases he
      · split at he
        · cases he
        · split at he
          · cases he
          · cases he
          · simp only [cmul, if_pos, Option.some.injEq] at he; exact he.symm
  | .brk => simp only [Node.flops, Option.some.injEq] at he; exact he.symm
  | .cont => simp only [Node.flops, Option.some.injEq] at he; exact he.symm
  | .ret _ _ => simp only [Node.flops, Option.some.injEq] at he; exact he.symm
/-- the same for a sequence -/
theorem Seq.uncounted {F : FlopEnv} (s : Seq) (hs : s.jumpless = true) (hc : s.counted = false) {A : Assums × Assums} {u : List User} {e : Expr}
    (he : (s.flops F A u).e = some e) (hp : (s.flops F A u).precise = true) : e = .int 0 := by
  match s with
  | .nil => simp only [Seq.flops, Option.some.injEq] at he; exact he.symm
  | .cons n t r =>
    simp only [Seq.jumpless, Bool.and_eq_true] at hs
    simp only [Seq.counted, Bool.or_eq_false_iff] at hc
    simp only [Seq.flops] at he hp
    split at he
    · rename_i x y hx hy
      simp only [hx, hy, Bool.and_eq_true] at hp
      rw [n.uncounted hs.1 hc.1 hx hp.1, r.uncounted hs.2 hc.2 hy hp.2] at he
      cases he; rfl
    · cases he
end

/-- the number of iterations of a loop that counts up to `B` times the constant cost of the body -/
theorem iter_cost {b : St → Bool} {u : St → St} {R : CR} {K : St → Prop} {i : String} {B k : Int} (hb : ∀ τ, K τ → (b τ = true ↔ τ i [] ≤ B))
    (hR : ∀ τ c n τ', K τ → R τ c n τ' → c = .normal ∧ n = k ∧ K τ' ∧ τ' i [] = τ i [])
    (hu : ∀ τ, K τ → K (u τ) ∧ u τ i [] = τ i [] + 1) {σ : St} {c : Ctl} {n : Int} {σ' : St} (h : CR.iter b u R σ c n σ') (hK : K σ) :
    c = .normal ∧ n = (if σ i [] ≤ B + 1 then B + 1 - σ i [] else 0) * k ∧ K σ' := by
  induction h with
  | done h0 =>
    rename_i τ
    refine ⟨rfl, ?_, hK⟩
    have : ¬ τ i [] ≤ B := fun h => by rw [(hb _ hK).2 h] at h0; cases h0
    split
    · have : B + 1 - τ i [] = 0 := by omega
      rw [this]; omega
    · omega
  | step ct h0 h1 h2 _ ih =>
    rename_i τ τ1 c2 τ2 n1 n2 _
    obtain ⟨rfl, rfl, h3, h4⟩ := hR _ _ _ _ hK h1
    obtain ⟨h5, h6⟩ := hu _ h3
    obtain ⟨rfl, e, h7⟩ := ih h5
    refine ⟨rfl, ?_, h7⟩
    have h8 := (hb _ hK).1 h0
    rw [e, h6, h4, if_pos (by omega), if_pos (by omega)]
    have : B + 1 - τ i [] = 1 + (B + 1 - (τ i [] + 1)) := by omega
    rw [this, Int.add_mul, Int.one_mul]
  | stop h0 h1 => obtain ⟨h, _⟩ := hR _ _ _ _ hK h1; cases h
  | ret d q h0 h1 => obtain ⟨h, _⟩ := hR _ _ _ _ hK h1; cases h

/-- what a precise result for a loop looks like -/
theorem loopIn_precise {F : FlopEnv} {u : List User} {A AT : Assums} {i : String} {init : Expr} {cond : Cond} {upd k e : Expr}
    (hst : F.stride i upd = .ok (.int 1)) (he : (F.loopIn u A AT i init cond upd k).e = some e)
    (hp : (F.loopIn u A AT i init cond upd k).precise = true) :
    ∃ lo hi, tights A i = (some lo, some hi) ∧ e = cmul (.add [ssub hi lo, .int 1]) k ∧ F.paramExpr u lo = true ∧ F.paramExpr u hi = true := by
  simp only [FlopEnv.loopIn] at he hp
  split at he
  · cases he
  · rename_i a ha
    simp only [ha] at hp
    split at he
    · cases he
    · rename_i b pb hbd
      simp only [hbd, hst, Bool.and_eq_true, Bool.not_eq_true'] at hp
      obtain ⟨⟨h1, h2⟩, h3⟩ := hp
      simp only [hst, Option.some.injEq] at he
      rw [replace_id h3, cdiv_one] at he
      unfold tights
      simp only [ha]
      have hi : ∃ t, a.tightLower = some t ∧ (F.init u A a init).1 = t ∧ F.paramExpr u t = true := by
        unfold FlopEnv.init at h1 ⊢
        have hf : ∀ b : List Expr, ((if a.lowerBound = .inf false ∨ b = [] then ((F.replace u A init).1, false)
            else if F.paramExpr u (F.replace u A (.max b)).1 then ((F.replace u A (.max b)).1, false)
              else ((F.replace u A init).1, false) : Expr × Bool)).2 = false := by
          intro b; split
          · rfl
          · split <;> rfl
        split at h1
        · rw [hf] at h1; cases h1
        · rename_i t ht
          simp only at h1
          split at h1
          · rename_i hpe
            simp only [Bool.not_eq_true'] at h1
            refine ⟨t, ht, ?_, by rw [replace_id h1] at hpe; exact hpe⟩
            simp only [hpe, if_true]
            exact replace_id h1
          · rw [hf] at h1; cases h1
      have hb : ∃ t, a.tightUpper = some t ∧ b = t ∧ F.paramExpr u t = true := by
        unfold FlopEnv.bound at hbd
        have hf : ∀ o : Option Expr, ((match canonicalBound (isMonotonic F.ctx.eng AT upd i) i cond with
            | some b => (some (F.replace u A (ssub b (.int 1))).1, false)
            | none => (o, false) : Option Expr × Bool)).2 = false := by
          intro o; split <;> rfl
        have hg : ∀ o, ((if a.upperBound = .inf true ∨ F.choose u a.uppers = [] then (match canonicalBound (isMonotonic F.ctx.eng AT upd i) i cond with
            | some b => (some (F.replace u A (ssub b (.int 1))).1, false)
            | none => (o, false))
            else if F.paramExpr u (F.replace u A (.min (F.choose u a.uppers))).1 then (some (F.replace u A (.min (F.choose u a.uppers))).1, false)
              else (match canonicalBound (isMonotonic F.ctx.eng AT upd i) i cond with
                | some b => (some (F.replace u A (ssub b (.int 1))).1, false)
                | none => (some (F.replace u A (.min (F.choose u a.uppers))).1, false)) : Option Expr × Bool)).2 = false := by
          intro o; split
          · exact hf o
          · split
            · rfl
            · exact hf _
        cases ht : a.tightUpper with
        | none =>
          simp only [ht] at hbd
          have : (some b, pb).2 = false := by rw [← hbd]; exact hg none
          rw [show pb = false from this] at h2; cases h2
        | some t =>
          simp only [ht] at hbd
          by_cases hpe : F.paramExpr u (F.replace u A t).1 = true
          · rw [if_pos hpe] at hbd
            simp only [Prod.mk.injEq, Option.some.injEq] at hbd
            obtain ⟨rfl, rfl⟩ := hbd
            simp only [Bool.not_eq_true'] at h2
            exact ⟨t, rfl, replace_id h2, by rw [replace_id h2] at hpe; exact hpe⟩
          · rw [if_neg hpe] at hbd
            have : (some b, pb).2 = false := by rw [← hbd]; exact hg (some (F.replace u A t).1)
            rw [show pb = false from this] at h2; cases h2
      obtain ⟨t, ht, h4, h5⟩ := hi
      obtain ⟨t', ht', rfl, h6⟩ := hb
      exact ⟨t, b, by rw [ht, ht'], by rw [← he, h4], h5, h6⟩

theorem cmul_fin {ρ : Val} {a b : Expr} {n : Int} (h : (cmul a b).eval ρ = .fin n) :
    b = .int 0 ∧ n = 0 ∨ b ≠ .int 0 ∧ ∃ x y, a.eval ρ = .fin x ∧ b.eval ρ = .fin y ∧ n = x * y := by
  unfold cmul at h
  split at h
  · rename_i e; simp only [Expr.eval] at h; cases h; exact .inl ⟨e, rfl⟩
  · rename_i e; exact .inr ⟨e, mul2_fin h⟩

/-- the library nodes perform the operations their `flop()` tells -/
def FlopEnv.LibRight (F : FlopEnv) (E : Env) (W : String → St → Int) : Prop := ∀ op e, F.lib op = some e → ∀ σ : St, W op σ = σ.ev E e

mutual
/-- the induction: `σ` is the state the expression is evaluated in, `τ` the state the node starts in; both agree on what the program with
users `U` does not write -/
theorem Node.flops_exact {F : FlopEnv} {E : Env} {W : String → St → Int} (hW : F.LibRight E W) {U : List User} {σ : St} (n : Node)
    (hs : n.jumpless = true) (hl : n.Loops F E σ) {A : Assums × Assums} (hA : ∀ x ∈ n.loopVars, NoTight A.1 x) {u : List User} {e : Expr}
    (he : (n.flops F A u).e = some e) (hp : (n.flops F A u).precise = true) {v : Int} (hv : e.eval (σ.val E) = .fin v)
    (ha : ∀ x ∈ e.atoms, ¬ writes U x) (hu : ∀ x, writes n.users x → writes U x) {τ : St} (hk : KeptBy U σ τ) {c : Ctl} {k : Int} {τ' : St}
    (h : n.cost E W τ c k τ') : c = .normal ∧ k = v ∧ KeptBy U σ τ' := by
  match n with
  | .block l =>
    rw [Node.cost] at h
    obtain ⟨rfl, rfl, rfl⟩ := h
    have hk' : KeptBy U σ (runBlock E l τ) := hk.step hu fun x hx => runBlock_frame E l τ x hx
    refine ⟨rfl, ?_, hk'⟩
    simp only [Node.flops, FlopEnv.block] at he hp
    split at he
    · cases he
    · rename_i b hb
      simp only [hb, Bool.not_eq_true'] at hp
      rw [replace_id hp, tasklets_eq, Option.some.injEq] at he
      subst he
      obtain ⟨x, y, h1, h2, rfl⟩ := cadd_fin hv
      simp only [Expr.eval] at h1
      cases h1
      exact block_work hW l b y hb h2 (fun z hz => ha z (cadd_atoms (.inr hz))) hu τ hk
  | .seq s =>
    rw [Node.flops] at he hp
    rw [Node.cost] at h
    exact s.flops_exact hW hs hl hA he hp hv ha hu hk h
  | .ifElse .nil =>
    rw [Node.cost, Brs.cost] at h
    obtain ⟨rfl, rfl, rfl⟩ := h
    simp only [Node.flops, Option.some.injEq] at he
    subst he
    simp only [Expr.eval] at hv
    cases hv
    exact ⟨rfl, rfl, hk⟩
  | .ifElse (.cons _ _ _) => simp [Node.flops] at hp
  | .whileL s => simp [Node.flops, FlopR.null] at he
  | .loop m i init cond upd s =>
    rw [Node.Loops] at hl
    obtain ⟨hcnt, hfr, htr, hls⟩ := hl
    simp only [Node.flops] at he hp
    split at he
    · cases he
    · rename_i kc hkc
      simp only [hkc, Bool.and_eq_true] at hp
      obtain ⟨⟨hp1, _⟩, hp2⟩ := hp
      obtain ⟨lo, hi, htg, rfl, _⟩ := loopIn_precise hcnt.stride he hp2
      have hni : NoTight A.1 i := hA i (by rw [Node.loopVars]; exact List.mem_cons_self)
      rw [tights_propagate hni] at htg
      have ht := tights_body F.ctx A.2 i init cond upd s
      have e1 := ht.2.1 lo (by rw [htg])
      have e2 := ht.2.2 hi (by rw [htg])
      subst e1
      have hus : ∀ x, writes s.users x → writes U x := fun x hx => hu x (by
        simp only [writes, Node.users, List.mem_append] at hx ⊢; exact .inl (.inl (.inr hx)))
      have hui : writes U i := hu i (by simp [writes, Node.users])
      have hset : ∀ (τ : St) (w : Int), KeptBy U σ τ → KeptBy U σ (τ.setS i w) := fun τ w h x hx => by
        rw [St.setS_other _ _ (fun e : x = i => hx (e ▸ hui))]; exact h x hx
      have hstep : ∀ τ, KeptBy U σ τ → KeptBy U σ (τ.setS i (τ.ev E upd)) ∧ (τ.setS i (τ.ev E upd)) i [] = τ i [] + 1 :=
        fun τ h => ⟨hset _ _ h, by rw [St.setS_same, hcnt.step]⟩
      have hbody : ∀ (w : Int), kc.eval (σ.val E) = .fin w → (∀ x ∈ kc.atoms, ¬ writes U x) → ∀ τ c n τ', KeptBy U σ τ → s.cost E W τ c n τ' →
          c = .normal ∧ n = w ∧ KeptBy U σ τ' ∧ τ' i [] = τ i [] := by
        intro w hw hka τ c n τ' hK hc
        obtain ⟨h1, h2, h3⟩ := s.flops_exact hW hs hls
          (A := (propagate (F.ctx.body A.2 i lo cond upd s) A.1, propagate (F.ctx.body A.2 i lo cond upd s) A.2))
          (fun x hx => noTight_body (hA x (by rw [Node.loopVars]; exact List.mem_cons_of_mem _ hx)) fun e => hfr (e ▸ hx)) hkc hp1 hw hka hus hK hc
        refine ⟨h1, h2, h3, ?_⟩
        have hd : s.den E τ c τ' := by rw [← s.cost_erase E W]; exact ⟨_, hc⟩
        have := Seq.frame_inv E i (τ i) s hcnt.body τ c τ' rfl hd
        rw [show τ' i = τ i from this]
      rw [Node.cost] at h
      rcases h with ⟨τ1, a, b, ⟨_, rfl, rfl⟩, hit, rfl⟩ | ⟨hn, hc, _⟩
      · have hk1 := hset τ (τ.ev E lo) hk
        rcases cmul_fin hv with ⟨rfl, rfl⟩ | ⟨hne, x, w, hx, hw, rfl⟩
        · have hz : ∀ (B : Int) σ1 c n σ2, CR.iter (fun σ => σ.cond E cond) (fun σ => σ.setS i (σ.ev E upd)) (s.cost E W) σ1 c n σ2 → KeptBy U σ σ1 →
              c = .normal ∧ n = 0 ∧ KeptBy U σ σ2 := by
            intro B σ1 c n σ2 hi
            induction hi with
            | done _ => exact fun h => ⟨rfl, rfl, h⟩
            | step ct _ h1 _ _ ih =>
              intro h
              obtain ⟨rfl, rfl, h3, _⟩ := hbody 0 rfl (by simp [Expr.atoms]) _ _ _ _ h h1
              obtain ⟨rfl, rfl, h4⟩ := ih (hstep _ h3).1
              exact ⟨rfl, rfl, h4⟩
            | stop _ h1 => intro h; obtain ⟨h, _⟩ := hbody 0 rfl (by simp [Expr.atoms]) _ _ _ _ h h1; cases h
            | ret _ _ _ h1 => intro h; obtain ⟨h, _⟩ := hbody 0 rfl (by simp [Expr.atoms]) _ _ _ _ h h1; cases h
          obtain ⟨rfl, rfl, h3⟩ := hz 0 _ _ _ _ hit hk1
          exact ⟨rfl, rfl, h3⟩
        · obtain ⟨y, z, hy, hz, rfl⟩ := add2_fin hx
          simp only [Expr.eval] at hz
          cases hz
          obtain ⟨p, q, hp', hq, rfl⟩ := add2_fin hy
          obtain ⟨q1, q2, hq1, hq2, rfl⟩ := mul2_fin hq
          simp only [Expr.eval] at hq1
          cases hq1
          have hat : ∀ x, x ∈ lo.atoms ∨ x ∈ hi.atoms ∨ x ∈ kc.atoms → ¬ writes U x := fun x hx => ha x (by
            rw [cmul, if_neg hne]
            simp only [ssub, Expr.atoms, Expr.atomsL, List.mem_append]
            rcases hx with h | h | h <;> simp [h])
          have hcs : s.counted = true := by
            cases hc : s.counted with
            | true => rfl
            | false => exact absurd (s.uncounted hs hc hkc hp1) hne
          have htr' := htr hcs hi e2
          rw [St.ev_of_eval hq2, St.ev_of_eval hp'] at htr'
          have hB : ∀ τ, KeptBy U σ τ → (τ.cond E cond = true ↔ τ i [] ≤ p) := fun τ h => by
            rw [hcnt.exact hi e2 τ (h.defd (fun x hx => hat x (.inr (.inl hx))) ⟨_, hp'⟩), h.ev (fun x hx => hat x (.inr (.inl hx))), St.ev_of_eval hp']
          obtain ⟨rfl, rfl, h3⟩ := iter_cost hB (hbody w hw fun x hx => hat x (.inr (.inr hx))) hstep hit hk1
          refine ⟨rfl, ?_, h3⟩
          dsimp only
          have e0 : τ.setS i (τ.ev E lo) i [] = q2 := by
            rw [St.setS_same, hk.ev (fun x hx => hat x (.inl hx)), St.ev_of_eval hq2]
          simp only [e0, if_pos htr', Int.zero_add]
          congr 1
          omega
      · exact absurd hc hn
  | .brk => simp [Node.jumpless] at hs
  | .cont => simp [Node.jumpless] at hs
  | .ret _ _ => simp [Node.jumpless] at hs
/-- the same for a sequence -/
theorem Seq.flops_exact {F : FlopEnv} {E : Env} {W : String → St → Int} (hW : F.LibRight E W) {U : List User} {σ : St} (s : Seq)
    (hs : s.jumpless = true) (hl : s.Loops F E σ) {A : Assums × Assums} (hA : ∀ x ∈ s.loopVars, NoTight A.1 x) {u : List User} {e : Expr}
    (he : (s.flops F A u).e = some e) (hp : (s.flops F A u).precise = true) {v : Int} (hv : e.eval (σ.val E) = .fin v)
    (ha : ∀ x ∈ e.atoms, ¬ writes U x) (hu : ∀ x, writes s.users x → writes U x) {τ : St} (hk : KeptBy U σ τ) {c : Ctl} {k : Int} {τ' : St}
    (h : s.cost E W τ c k τ') : c = .normal ∧ k = v ∧ KeptBy U σ τ' := by
  match s with
  | .nil =>
    rw [Seq.cost] at h
    obtain ⟨rfl, rfl, rfl⟩ := h
    simp only [Seq.flops, Option.some.injEq] at he
    subst he
    simp only [Expr.eval] at hv
    cases hv
    exact ⟨rfl, rfl, hk⟩
  | .cons n t r =>
    simp only [Seq.jumpless, Bool.and_eq_true] at hs
    rw [Seq.Loops] at hl
    have hnr : n.isRet = false := by
      cases n <;> first | rfl | (simp [Node.jumpless] at hs)
    have husers : (Seq.cons n t r).users = n.users ++ transUsers t ++ r.users := by rw [Seq.users, hnr]; rfl
    rw [husers] at hu
    have hu1 : ∀ x, writes n.users x → writes U x := fun x hx => hu x (List.mem_append_left _ (List.mem_append_left _ hx))
    have hu2 : ∀ x, writes (transUsers t) x → writes U x := fun x hx => hu x (List.mem_append_left _ (List.mem_append_right _ hx))
    have hu3 : ∀ x, writes r.users x → writes U x := fun x hx => hu x (List.mem_append_right _ hx)
    simp only [Seq.flops] at he hp
    split at he
    · rename_i x y hx hy
      simp only [hx, hy, Bool.and_eq_true] at hp
      cases he
      obtain ⟨vx, vy, h1, h2, rfl⟩ := cadd_fin hv
      have hA1 : ∀ x ∈ n.loopVars, NoTight A.1 x := fun x hx => hA x (by rw [Seq.loopVars]; exact List.mem_append_left _ hx)
      have hA2 : ∀ x ∈ r.loopVars, NoTight A.1 x := fun x hx => hA x (by rw [Seq.loopVars]; exact List.mem_append_right _ hx)
      rw [Seq.cost] at h
      rcases h with ⟨τ1, a, b, hn, hr, rfl⟩ | ⟨hc, hn⟩
      · obtain ⟨_, rfl, hk1⟩ := n.flops_exact hW hs.1 hl.1 hA1 hx hp.1 h1 (fun z hz => ha z (cadd_atoms (.inl hz))) hu1 hk hn
        rcases hr with ⟨τ2, a, b, ⟨_, rfl, rfl⟩, hr, rfl⟩ | ⟨hc, hc', _⟩
        · have hk2 := hk1.step hu2 fun x hx => runTrans_frame E t τ1 x hx
          obtain ⟨rfl, rfl, hk3⟩ := r.flops_exact hW hs.2 hl.2 hA2 hy hp.2 h2 (fun z hz => ha z (cadd_atoms (.inr hz))) hu3 hk2 hr
          exact ⟨rfl, by dsimp only; omega, hk3⟩
        · exact absurd hc' hc
      · exact absurd (n.flops_exact hW hs.1 hl.1 hA1 hx hp.1 h1 (fun z hz => ha z (cadd_atoms (.inl hz))) hu1 hk hn).1 hc
    · cases he
end

/-- **C97** (partial): when the analysis calls its result precise, every terminating execution performs exactly the operations the
expression gives for the symbols at entry: floating point tasklets count one, fused multiply-adds two, library nodes what their `flop()`
tells.  Missing, see the `_violated` theorems: jumps and returns, loops whose range is less than empty, conditions that say more than the
bound, strides other than one, symbols of the expression assigned by the program, and loop variables that are reused inside or carry exact
bounds from outside. -/
theorem flops_precise_partial {F : FlopEnv} {E : Env} {W : String → St → Int} {A : Assums × Assums} {s : Seq} {e : Expr}
    (he : (s.flopRun F A).e = some e) (hp : (s.flopRun F A).precise = true) (hW : F.LibRight E W) (hs : s.jumpless = true) {σ : St}
    (hl : s.Loops F E σ) (hA : ∀ x ∈ s.loopVars, NoTight A.1 x) (hd : σ.defd E e) (ha : ∀ x ∈ e.atoms, ¬ writes s.users x)
    {c : Ctl} {n : Int} {σ' : St} (h : s.cost E W σ c n σ') : n = σ.ev E e := by
  obtain ⟨v, hv⟩ := hd
  rw [St.ev_of_eval hv]
  exact (s.flops_exact hW hs hl hA he hp hv ha (fun _ h => h) (fun _ _ => rfl) h).2.1

/-- computations without library nodes -/
def Node.plain : Node → Bool
  | .block l => l.all fun x => match x with
    | .tasklet _ _ _ _ => true
    | .lib _ _ _ => false
  | _ => false

/-- only blocks without library nodes -/
def Seq.plains : Seq → Bool
  | .nil => true
  | .cons n _ r => n.plain && r.plains

/-- blocks without library nodes, and loops over such blocks -/
def Seq.flatLoops : Seq → Bool
  | .nil => true
  | .cons (.block l) _ r => (Node.block l).plain && r.flatLoops
  | .cons (.loop _ _ _ _ _ s) _ r => s.plains && r.flatLoops
  | _ => false

theorem plain_int {F : FlopEnv} {A : Assums × Assums} {u : List User} {n : Node} (hn : n.plain = true) {e : Expr} (he : (n.flops F A u).e = some e) :
    ∃ k, e = .int k := by
  cases n with
  | block l =>
    have h : ∀ l : List Stmt, (Node.block l).plain = true → F.libFlops l = some (.int 0) := by
      intro l
      induction l with
      | nil => intro _; rfl
      | cons x r ih =>
        intro h
        simp only [Node.plain, List.all_cons, Bool.and_eq_true] at h
        cases x with
        | tasklet _ _ _ _ => exact ih h.2
        | lib _ _ _ => exact absurd h.1 (by simp)
    simp only [Node.flops, FlopEnv.block, h l hn, tasklets_eq, Option.some.injEq] at he
    have h0 : (F.replace (l.flatMap Stmt.users) A.1 (.int 0)).1 = .int 0 := rfl
    rw [h0] at he
    exact ⟨_, he.symm⟩
  | _ => cases hn

theorem plains_int {F : FlopEnv} {A : Assums × Assums} {u : List User} : ∀ (s : Seq), s.plains = true → ∀ {e : Expr}, (s.flops F A u).e = some e → ∃ k, e = .int k
  | .nil, _, e, he => by simp only [Seq.flops, Option.some.injEq] at he; exact ⟨0, he.symm⟩
  | .cons n t r, h, e, he => by
    simp only [Seq.plains, Bool.and_eq_true] at h
    simp only [Seq.flops] at he
    split at he
    · rename_i x y hx hy
      obtain ⟨a, rfl⟩ := plain_int h.1 hx
      obtain ⟨b, rfl⟩ := plains_int r h.2 hy
      cases he
      exact ⟨a + b, rfl⟩
    · cases he

/-- the counts of flat programs only contain symbols the analysis found to be parameters -/
theorem flat_params {F : FlopEnv} {E : Env} {σ : St} {A : Assums × Assums} {u : List User} : ∀ (s : Seq), s.Loops F E σ → s.flatLoops = true →
    ∀ {e : Expr}, (s.flops F A u).e = some e → (s.flops F A u).precise = true → ∀ x ∈ e.atoms, F.param u x = true
  | .nil, _, _, e, he, _, x, hx => by
    simp only [Seq.flops, Option.some.injEq] at he; subst he; simp [Expr.atoms] at hx
  | .cons n t r, hl, h, e, he, hp, x, hx => by
    rw [Seq.Loops] at hl
    simp only [Seq.flops] at he hp
    split at he
    · rename_i e1 e2 h1 h2
      simp only [h1, h2, Bool.and_eq_true] at hp
      cases he
      have hatoms : x ∈ e1.atoms ∨ x ∈ e2.atoms := by
        unfold cadd at hx
        split at hx
        · simp [Expr.atoms] at hx
        · split at hx
          · exact .inr hx
          · split at hx
            · exact .inl hx
            · simpa [Expr.atoms, Expr.atomsL] using hx
      cases n with
      | block l =>
        simp only [Seq.flatLoops, Bool.and_eq_true] at h
        obtain ⟨k, rfl⟩ := plain_int h.1 h1
        rcases hatoms with hx | hx
        · simp [Expr.atoms] at hx
        · exact flat_params r hl.2 h.2 h2 hp.2 x hx
      | loop m i init cond upd s =>
        simp only [Seq.flatLoops, Bool.and_eq_true] at h
        rcases hatoms with hx | hx
        · have hp1 := hp.1
          simp only [Node.flops] at h1 hp1
          split at h1
          · cases h1
          · rename_i k hk
            simp only [hk, Bool.and_eq_true] at hp1
            obtain ⟨k', rfl⟩ := plains_int s h.1 hk
            have hs1 : F.stride i upd = .ok (.int 1) := by
              have := hl.1; rw [Node.Loops] at this; exact this.1.stride
            obtain ⟨lo, hi, _, rfl, h5, h6⟩ := loopIn_precise hs1 h1 hp1.2
            unfold cmul at hx
            split at hx
            · simp [Expr.atoms] at hx
            · simp only [ssub, Expr.atoms, Expr.atomsL, List.mem_append] at hx
              simp only [FlopEnv.paramExpr, List.all_eq_true] at h5 h6
              rcases hx with ((hx | ⟨⟨⟩⟩ | hx | ⟨⟨⟩⟩) | ⟨⟨⟩⟩) | hx
              all_goals simp_all
        · exact flat_params r hl.2 h.2 h2 hp.2 x hx
      | _ => simp [Seq.flatLoops] at h
    · cases he

/-- **C97** (partial): for blocks without library nodes and loops over such blocks, with scalar symbols, it is the analysis that makes sure
that the program does not assign the symbols of the expression. -/
theorem flops_precise_flat_partial {F : FlopEnv} {E : Env} {W : String → St → Int} {A : Assums × Assums} {s : Seq} {e : Expr}
    (he : (s.flopRun F A).e = some e) (hp : (s.flopRun F A).precise = true) (hW : F.LibRight E W) (hs : s.jumpless = true) (hf : s.flatLoops = true) {σ : St}
    (hk : ∀ x, F.kind x = .scalar) (hl : s.Loops F E σ) (hA : ∀ x ∈ s.loopVars, NoTight A.1 x) (hd : σ.defd E e) {c : Ctl} {n : Int} {σ' : St}
    (h : s.cost E W σ c n σ') : n = σ.ev E e := by
  refine flops_precise_partial he hp hW hs hl hA hd (fun x hx => ?_) h
  have := flat_params s hl hf he hp x hx
  simp only [FlopEnv.param, hk, Bool.and_eq_true, Bool.not_eq_true', decide_eq_false_iff_not] at this
  exact this.2

theorem Seq.flops_ret (F : FlopEnv) (A : Assums × Assums) (d : String) (q : Bool) (u : List User) : ∀ s : Seq, (s ++ .one (.ret d q)).flops F A u = s.flops F A u
  | .nil => rfl
  | .cons n t r => by
    show Seq.flops F A (.cons n t (r ++ .one (.ret d q))) u = _
    rw [Seq.flops, Seq.flops, Seq.flops_ret F A d q u r]

theorem Seq.cost_ret {E : Env} {W : String → St → Int} {d : String} {q : Bool} : ∀ (s : Seq) {σ : St} {c : Ctl} {n : Int} {σ' : St},
    (s ++ .one (.ret d q)).cost E W σ c n σ' → ∃ c', s.cost E W σ c' n σ'
  | .nil, σ, c, n, σ', h => by
    have h : CR.seq (CR.exit (.ret d q)) (CR.seq (CR.upd (runTrans E []) fun _ => 0) (CR.upd id fun _ => 0)) σ c n σ' := h
    rcases h with ⟨_, _, _, ⟨h, _⟩, _⟩ | ⟨_, _, h1, h2⟩
    · cases h
    · exact ⟨.normal, by rw [Seq.cost]; exact ⟨rfl, h1, h2⟩⟩
  | .cons m t r, σ, c, n, σ', h => by
    have h : CR.seq (m.cost E W) (CR.seq (CR.upd (runTrans E t) fun _ => 0) ((r ++ .one (.ret d q)).cost E W)) σ c n σ' := h
    rcases h with ⟨σ1, a, b, h1, ⟨σ2, a2, b2, h2, h3, e2⟩ | ⟨hc, h2, _⟩, e⟩ | ⟨hc, h⟩
    · obtain ⟨c', h4⟩ := Seq.cost_ret r h3
      refine ⟨c', ?_⟩
      rw [Seq.cost]
      exact .inl ⟨σ1, a, b, h1, .inl ⟨σ2, a2, b2, h2, h4, e2⟩, e⟩
    · exact absurd h2 hc
    · exact ⟨c, by rw [Seq.cost]; exact .inr ⟨hc, h⟩⟩

/-- **C97** (partial): the same for a program that ends with a return. -/
theorem flops_precise_return_partial {F : FlopEnv} {E : Env} {W : String → St → Int} {A : Assums × Assums} {s : Seq} {d : String} {q : Bool} {e : Expr}
    (he : ((s ++ .one (.ret d q)).flopRun F A).e = some e) (hp : ((s ++ .one (.ret d q)).flopRun F A).precise = true) (hW : F.LibRight E W)
    (hs : s.jumpless = true) {σ : St} (hl : s.Loops F E σ) (hA : ∀ x ∈ s.loopVars, NoTight A.1 x) (hd : σ.defd E e)
    (ha : ∀ x ∈ e.atoms, ¬ writes s.users x) {c : Ctl} {n : Int} {σ' : St} (h : (s ++ .one (.ret d q)).cost E W σ c n σ') :
    n = σ.ev E e := by
  obtain ⟨v, hv⟩ := hd
  rw [St.ev_of_eval hv]
  rw [Seq.flopRun, Seq.flops_ret] at he hp
  obtain ⟨c', h⟩ := s.cost_ret h
  exact (s.flops_exact hW hs hl hA he hp hv ha (fun _ h => h) (fun _ _ => rfl) h).2.1

/-- The stride the analysis divides by is the step of the loop: the update adds it to the variable, whenever it has a value. -/
theorem stride_is_step {F : FlopEnv} {E : Env} {σ : St} (hE : F.ctx.eng.Sound (σ.val E)) (hN : F.ctx.eng.NormSound) {i : String} {upd s : Expr}
    (hi : i ≠ constName) (hlen : ∀ D, F.ctx.eng.poly upd [i] = some D → ∀ t ∈ D, t.1.length = 1) (h : F.stride i upd = .ok s) (hd : σ.defd E upd) :
    σ.ev E upd = σ i [] + σ.ev E s := by
  unfold FlopEnv.stride at h
  split at h
  · cases h
  · rename_i D hD
    split at h
    · cases h
    · rename_i c hc
      split at h
      · rename_i h1
        simp only [Res.ok.injEq] at h
        subst h
        obtain ⟨v, hv⟩ := hd
        obtain ⟨cv, hcv, hval⟩ := affine_coefficients_partial F.ctx.eng (σ.val E) hE upd [i] (by simp) (by simpa using Ne.symm hi) D hD
          (by simpa using hlen D hD) c hc v hv
        have e1 := hN (σ.val E) _ _ (hcv i)
        have e2 := hN (σ.val E) _ _ (hcv constName)
        rw [h1] at e1
        simp only [Expr.eval, V.fin.injEq] at e1
        rw [St.ev_of_eval hv, St.ev_of_eval e2, hval]
        simp only [List.map_cons, List.map_nil, List.sum_cons, List.sum_nil, ← e1]
        show 1 * σ i [] + 0 + _ = _
        omega
      · cases h

/-- counting operations does not change what a program does -/
theorem cost_erase (E : Env) (W : String → St → Int) (s : Seq) (σ : St) (c : Ctl) (σ' : St) :
    (∃ n, s.cost E W σ c n σ') ↔ s.den E σ c σ' := by
  rw [← s.cost_erase E W]; rfl

end Docc.IR
