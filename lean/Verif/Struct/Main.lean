import Verif.Struct.Correct
import Verif.IR.Jump

namespace Docc.Struct
open Docc.Sym Docc.IR

/-! ### loops -/

theorem loopAt_spec {M : Mach} {T : Trees} {c : Nat} {I : LoopInfo} (h : loopAt M T c = some I) :
    I.body = loopBody M T c ∧ (∃ k ∈ I.body, ∃ e ∈ M.outE k, e.1 ∉ T.back ∧ e.2.dst = I.exit) ∧ I.exit ∉ I.body ∧ (∀ k ∈ I.body, ∀ e ∈ M.outE k, e.1 ∉ T.back → e.2.dst ∉ I.body → e.1 ∈ I.exits) ∧
    (∀ x ∈ I.exits, ∃ k ∈ I.body, ∃ e ∈ M.outE k, e.1 = x ∧ x ∉ T.back ∧ e.2.dst ∉ I.body) := by
  unfold loopAt at h
  dsimp only at h
  generalize hb : loopBody M T c = body at h
  split at h
  · rename_i x hx
    simp only [Option.some.injEq] at h
    subst h
    dsimp only
    have hmem : x ∈ (((leaving M body).filter fun x => !T.back.contains x.1).map (·.2.dst)).eraseDups := by
      split at hx
      · split at hx
        · have : x ∈ List.filter (fun k => (M.at k).ret.isNone && !(M.at k).out.isEmpty)
            (((leaving M body).filter fun x => !T.back.contains x.1).map (·.2.dst)).eraseDups := by rw [hx]; simp
          exact (List.mem_filter.mp this).1
        · rw [hx]; simp
      · rw [hx]; simp
    rw [List.mem_eraseDups] at hmem
    simp only [List.mem_map, List.mem_filter, leaving, List.mem_flatMap] at hmem
    obtain ⟨e, ⟨⟨k, hk, he, hn⟩, hb'⟩, rfl⟩ := hmem
    refine ⟨rfl, ⟨k, hk, e, he, by simpa using hb', rfl⟩, by simpa using hn, ?_, ?_⟩
    · intro k hk e he hb' hd
      simp only [List.mem_map, List.mem_filter, leaving, List.mem_flatMap]
      exact ⟨e, ⟨⟨k, hk, he, by simpa using hd⟩, by simpa using hb'⟩, rfl⟩
    · intro y hy
      simp only [List.mem_map, List.mem_filter, leaving, List.mem_flatMap] at hy
      obtain ⟨e, ⟨⟨k, hk, he, hn⟩, hb'⟩, rfl⟩ := hy
      exact ⟨k, hk, e, he, rfl, by simpa using hb', by simpa using hn⟩
  · cases h

/-- a loop contains its header (the target of a back edge reaches the source) -/
def HeadersInside (M : Mach) (T : Trees) : Prop := ∀ c I, isHeader M T c = true → loopAt M T c = some I → c ∈ I.body

theorem loop_inside {M : Mach} {T : Trees} {c : Nat} {I : LoopInfo} (h : loopAt M T c = some I) (brks : List EdgeId) :
    Inside M T (I.exits ++ brks) (some ⟨c, I.body, I.exit⟩) (· ∈ I.body) where
  edge := by
    intro k hk _ e he hb hn
    by_cases hd : e.2.dst ∈ I.body
    · exact hd
    · exact absurd ((loopAt_spec h).2.2.2.1 k hk e he hb hd) (fun hx => hn (by simp [hx]))
  inner := by intro c' J _ _ _ _ hx; exact hx _ rfl

/-- the body of a loop ends with jumps only -/
theorem body_NN {E : Env} {M : Mach} {T : Trees} (hD : M.Deterministic E) (hH : HeadersInside M T) {c : Nat} {I : LoopInfo}
    (hh : isHeader M T c = true) (hI : loopAt M T c = some I) {brks : List EdgeId} {body : Seq} {ev : List Ev}
    (h : Reg M T (some I.exit) (I.exits ++ brks) (some ⟨c, I.body, I.exit⟩) (some c) body ev) (ho : ∀ x ∈ ev, x.Ok) :
    NN E (body.den E) :=
  falls_seq E _ (reg_complete hD h) (reg_falls h ho _ (loop_inside hI brks) c rfl (hH c I hh hI)
    (by intro x hx; cases hx; exact (loopAt_spec hI).2.2.1))

/-! ### where the machine is after the code -/

/-- The machine that is at the place where `k` leads returns `d`, within `n - p` steps. -/
def After (M : Mach) (E : Env) (d : String) (q : Bool) (τ : St) (L : Option LoopCtx) (exit : Option Nat) (p n : Nat) : Ctl → St → Prop
  | .normal, ρ => ∃ x n', exit = some x ∧ n' + p ≤ n ∧ M.EndsIn E d q τ n' x ρ
  | .brk, ρ => ∃ l n', L = some l ∧ n' + p ≤ n ∧ M.EndsIn E d q τ n' l.exit ρ
  | .cont, ρ => ∃ l n', L = some l ∧ n' + p ≤ n ∧ M.EndsIn E d q τ n' l.header ρ
  | .ret d' q', ρ => d' = d ∧ q' = q ∧ ρ = τ

theorem After.mono {M : Mach} {E : Env} {d : String} {q : Bool} {τ : St} {L : Option LoopCtx} {exit : Option Nat} {p n p' n' : Nat}
    {k : Ctl} {ρ : St} (h : After M E d q τ L exit p n k ρ) (hn : ∀ m, m + p ≤ n → m + p' ≤ n') :
    After M E d q τ L exit p' n' k ρ := by
  cases k with
  | normal => obtain ⟨x, m, h1, h2, h3⟩ := h; exact ⟨x, m, h1, hn _ h2, h3⟩
  | brk => obtain ⟨x, m, h1, h2, h3⟩ := h; exact ⟨x, m, h1, hn _ h2, h3⟩
  | cont => obtain ⟨x, m, h1, h2, h3⟩ := h; exact ⟨x, m, h1, hn _ h2, h3⟩
  | ret d' q' => exact h

theorem After.other {M : Mach} {E : Env} {d : String} {q : Bool} {τ : St} {L : Option LoopCtx} {exit exit' : Option Nat} {p n : Nat}
    {k : Ctl} {ρ : St} (h : After M E d q τ L exit p n k ρ) (hk : k ≠ .normal) : After M E d q τ L exit' p n k ρ := by
  cases k with
  | normal => exact absurd rfl hk
  | brk => exact h
  | cont => exact h
  | ret d' q' => exact h

/-- steps that are at least taken -/
def prog (cur exit : Option Nat) : Nat := if cur = exit then 0 else 1

theorem prog_le (cur exit : Option Nat) : prog cur exit ≤ 1 := by unfold prog; split <;> omega

theorem prog_one {cur exit : Option Nat} (h : cur ≠ exit) : prog cur exit = 1 := by simp [prog, h]

theorem step_one {M : Mach} {E : Env} {c : Nat} {e : EdgeId × MEdge} (he : M.outE c = [e]) (ht : e.2.cond = .tt) {d : String} {q : Bool} {τ : St}
    {n : Nat} {σ : St} : M.EndsIn E d q τ n c σ ↔ ∃ m, n = m + 1 ∧ M.EndsIn E d q τ m e.2.dst (runTrans E e.2.asg (runBlock E (M.at c).stmts σ)) := by
  have ho := out_one he
  constructor
  · intro h
    cases h with
    | ret h1 _ _ => rw [ho] at h1; cases h1
    | step h1 h2 =>
      obtain ⟨f, hf, _, rfl, rfl⟩ := h1
      rw [ho] at hf
      simp only [List.mem_singleton] at hf
      subst hf
      exact ⟨_, rfl, h2⟩
  · rintro ⟨m, rfl, h⟩
    refine .step ⟨e.2, by rw [ho]; simp, ?_, rfl, rfl⟩ h
    rw [ht]; rfl

mutual
/-- What the machine does, the code does. -/
theorem reg_fwd {E : Env} {M : Mach} {T : Trees} (hD : M.Deterministic E) (hH : HeadersInside M T) {d : String} {q : Bool} {τ : St} :
    ∀ {exit brks L cur s ev}, Reg M T exit brks L cur s ev → (∀ x ∈ ev, x.Ok) → ∀ c n σ, cur = some c → M.EndsIn E d q τ n c σ →
      ∃ k ρ, s.den E σ k ρ ∧ After M E d q τ L exit (prog cur exit) n k ρ
  | _, _, _, _, _, _, .stop, _, c, n, σ, hc, h =>
    ⟨.normal, σ, ⟨rfl, rfl⟩, c, n, hc, by simp [prog], h⟩
  | exit, brks, L, _, _, _, .loop (c := c) (I := I) (body := body) (r := r) hx hh _ hI h1 h2, ho, c', n, σ, hc, h => by
    cases hc
    have hnn := body_NN hD hH hh hI h1 (fun x hx' => ho x (by simp [hx']))
    have hne : (some c : Option Nat) ≠ some I.exit := by
      intro h'; cases h'; exact (loopAt_spec hI).2.2.1 (hH _ _ hh hI)
    rw [prog_one hx]
    -- the loop
    have hloop : ∀ n σ, M.EndsIn E d q τ n c σ → ∃ k ρ, Rel.forever (body.den E) σ k ρ ∧
        After M E d q τ L (some I.exit) 1 n k ρ ∧ (k = .normal ∨ ∃ d q, k = .ret d q) := by
      intro n
      induction n using Nat.strongRecOn with
      | ind n ih =>
        intro σ h
        obtain ⟨k, ρ, hb, ha⟩ := reg_fwd hD hH h1 (fun x hx' => ho x (by simp [hx'])) c n σ rfl h
        rw [prog_one hne] at ha
        cases k with
        | normal => exact absurd hb (hnn _ _)
        | brk =>
          obtain ⟨l, m, hl, hm, he⟩ := ha
          cases hl
          exact ⟨.normal, ρ, .stop hb, ⟨_, m, rfl, hm, he⟩, Or.inl rfl⟩
        | cont =>
          obtain ⟨l, m, hl, hm, he⟩ := ha
          cases hl
          obtain ⟨k2, ρ2, hf, ha2, hk2⟩ := ih m (by omega) ρ he
          exact ⟨k2, ρ2, .step .cont hb (Or.inr rfl) hf, ha2.mono (fun _ _ => by omega), hk2⟩
        | ret d' q' => exact ⟨_, ρ, .ret d' q' hb, ha, Or.inr ⟨_, _, rfl⟩⟩
    obtain ⟨k, ρ, hf, ha, hk⟩ := hloop n σ h
    rw [seq_den_cons]
    rcases hk with rfl | ⟨d', q', rfl⟩
    · obtain ⟨x, m, hx', hm, he⟩ := ha
      cases hx'
      obtain ⟨k2, ρ2, hr, ha2⟩ := reg_fwd hD hH h2 (fun x hx' => ho x (by simp [hx'])) _ m ρ rfl he
      exact ⟨k2, ρ2, Or.inl ⟨ρ, hf, hr⟩, ha2.mono (fun _ _ => by omega)⟩
    · exact ⟨_, ρ, Or.inr ⟨by simp, hf⟩, ha⟩
  | _, _, _, _, _, _, .sink (c := c) (d := d') (q := q') hx _ he hr, _, c', n, σ, hc, h => by
    cases hc
    rw [blockOf_den, one_exit_den E _ (.ret d' q') rfl (by simp)]
    refine ⟨_, _, ⟨rfl, rfl⟩, ?_⟩
    cases h with
    | ret h1 h2 h3 =>
      rw [h2] at hr
      simp only [Option.some.injEq, Prod.mk.injEq] at hr
      exact ⟨hr.1.symm, hr.2.symm, h3.symm⟩
    | step h1 _ =>
      obtain ⟨f, hf, _⟩ := h1
      rw [out_nil he] at hf; cases hf
  | _, _, _, _, _, _, .cont (c := c) (l := l) hx _ he ht hb, ho, c', n, σ, hc, h => by
    cases hc
    obtain ⟨m, rfl, h'⟩ := (step_one he ht).mp h
    rw [blockOf_den, one_exit_den E _ .cont rfl (by simp), prog_one hx]
    refine ⟨.cont, _, ⟨rfl, rfl⟩, l, m, rfl, by omega, ?_⟩
    have := ho _ (List.mem_singleton.mpr rfl)
    rw [Ev.Ok] at this
    rw [← this]; exact h'
  | _, _, _, _, _, _, .brk (c := c) (l := l) hx _ he ht hb _, ho, c', n, σ, hc, h => by
    cases hc
    obtain ⟨m, rfl, h'⟩ := (step_one he ht).mp h
    rw [blockOf_den, one_exit_den E _ .brk rfl (by simp), prog_one hx]
    refine ⟨.brk, _, ⟨rfl, rfl⟩, l, m, rfl, by omega, ?_⟩
    have := ho _ (List.mem_singleton.mpr rfl)
    rw [Ev.Ok] at this
    rw [← this]; exact h'
  | _, _, _, _, _, _, .next (c := c) hx _ he ht _ _ hr, ho, c', n, σ, hc, h => by
    cases hc
    obtain ⟨m, rfl, h'⟩ := (step_one he ht).mp h
    obtain ⟨k, ρ, h1, h2⟩ := reg_fwd hD hH hr ho _ m _ rfl h'
    rw [blockOf_den, prog_one hx]
    exact ⟨k, ρ, h1, h2.mono (fun _ _ => by omega)⟩
  | _, _, _, _, _, _, .branch (c := c) (m := mg) (bs := bs) hx _ hl hb hr, ho, c', n, σ, hc, h => by
    cases hc
    rw [blockOf_den, prog_one hx]
    show ∃ k ρ, (Seq.cons (.ifElse bs) [] _).den E (runBlock E (M.at c).stmts σ) k ρ ∧ _
    rw [seq_den_cons]
    cases h with
    | ret h1 _ _ => rw [outE_length, h1] at hl; simp at hl
    | @step m _ _ _ _ h1 h2 =>
      obtain ⟨e, he, ht, rfl, rfl⟩ := h1
      obtain ⟨x, hxm, rfl⟩ := out_mem he
      obtain ⟨k, ρ, hk, ha⟩ := regB_fwd hD hH hb (fun x hx' => ho x (by simp [hx'])) x hxm m (runBlock E (M.at c).stmts σ) ht
        (fun f hf hft => hD.unique c _ _ (mem_out hf) _ he hft ht) h2
      by_cases hkn : k = .normal
      · subst hkn
        by_cases hf : Brs.falls bs = true
        · rw [hf] at ho
          obtain ⟨y, m', hm, hle, hend⟩ := ha
          obtain ⟨k2, ρ2, hr2, ha2⟩ := reg_fwd hD hH hr (fun x hx' => ho x (by simp [hx'])) y m' ρ hm hend
          exact ⟨k2, ρ2, Or.inl ⟨ρ, hk, hr2⟩, ha2.mono (fun _ _ => by omega)⟩
        · exfalso
          have hc : Complete E (.ifElse bs) := by
            rw [Complete]
            refine ⟨regB_complete hD hb, fun σ hff => ?_⟩
            obtain ⟨e, he, ht⟩ := hD.total c σ (by rw [← outE_length]; exact hl)
            obtain ⟨x, hx, rfl⟩ := out_mem he
            rw [regB_allFalse hb hff x hx] at ht
            cases ht
          exact falls_node E _ hc (by simpa [Node.falls] using hf) _ _ hk
      · exact ⟨k, ρ, Or.inr ⟨hkn, hk⟩, (ha.other hkn).mono (fun _ _ => by omega)⟩
theorem regB_fwd {E : Env} {M : Mach} {T : Trees} (hD : M.Deterministic E) (hH : HeadersInside M T) {d : String} {q : Bool} {τ : St} :
    ∀ {m brks L es bs ev}, RegB M T m brks L es bs ev → (∀ x ∈ ev, x.Ok) → ∀ e ∈ es, ∀ n σ, σ.cond E e.2.cond = true →
      (∀ f ∈ es, σ.cond E f.2.cond = true → f.2 = e.2) → M.EndsIn E d q τ n e.2.dst (runTrans E e.2.asg σ) →
      ∃ k ρ, bs.den E σ k ρ ∧ After M E d q τ L m 0 n k ρ
  | _, _, _, _, _, _, .nil, _, e, he, _, _, _, _, _ => by cases he
  | _, _, _, _, _, _, .cont (l := l) (e := e') hb hr, ho, e, he, n, σ, ht, hu, h => by
    by_cases h0 : σ.cond E e'.2.cond = true
    · have h1 := hu e' (by simp) h0
      refine ⟨.cont, runTrans E e'.2.asg σ, ?_, l, n, rfl, by omega, ?_⟩
      · simp only [Brs.den, Rel.ite, h0, if_true]
        rw [blockOf_den, one_exit_den E _ .cont rfl (by simp)]
        exact ⟨rfl, rfl⟩
      · have := ho (.cont e'.2 l) (by simp)
        rw [Ev.Ok] at this
        rw [← this, h1]; exact h
    · rcases List.mem_cons.mp he with rfl | he
      · exact absurd ht h0
      · obtain ⟨k, ρ, h1, h2⟩ := regB_fwd hD hH hr (fun x hx => ho x (by simp [hx])) e he n σ ht (fun f hf => hu f (by simp [hf])) h
        exact ⟨k, ρ, by simp only [Brs.den, Rel.ite, h0]; exact h1, h2⟩
  | _, _, _, _, _, _, .brk (l := l) (e := e') hb _ hr, ho, e, he, n, σ, ht, hu, h => by
    by_cases h0 : σ.cond E e'.2.cond = true
    · have h1 := hu e' (by simp) h0
      refine ⟨.brk, runTrans E e'.2.asg σ, ?_, l, n, rfl, by omega, ?_⟩
      · simp only [Brs.den, Rel.ite, h0, if_true]
        rw [blockOf_den, one_exit_den E _ .brk rfl (by simp)]
        exact ⟨rfl, rfl⟩
      · have := ho (.brk e'.2 l) (by simp)
        rw [Ev.Ok] at this
        rw [← this, h1]; exact h
    · rcases List.mem_cons.mp he with rfl | he
      · exact absurd ht h0
      · obtain ⟨k, ρ, h1, h2⟩ := regB_fwd hD hH hr (fun x hx => ho x (by simp [hx])) e he n σ ht (fun f hf => hu f (by simp [hf])) h
        exact ⟨k, ρ, by simp only [Brs.den, Rel.ite, h0]; exact h1, h2⟩
  | _, _, _, _, _, _, .sub (e := e') hb _ hs hr, ho, e, he, n, σ, ht, hu, h => by
    by_cases h0 : σ.cond E e'.2.cond = true
    · have h1 := hu e' (by simp) h0
      rw [← h1] at h
      obtain ⟨k, ρ, h2, h3⟩ := reg_fwd hD hH hs (fun x hx => ho x (by simp [hx])) _ n _ rfl h
      refine ⟨k, ρ, ?_, h3.mono (fun _ _ => by omega)⟩
      simp only [Brs.den, Rel.ite, h0, if_true]
      rw [blockOf_den]
      exact h2
    · rcases List.mem_cons.mp he with rfl | he
      · exact absurd ht h0
      · obtain ⟨k, ρ, h1, h2⟩ := regB_fwd hD hH hr (fun x hx => ho x (by simp [hx])) e he n σ ht (fun f hf => hu f (by simp [hf])) h
        exact ⟨k, ρ, by simp only [Brs.den, Rel.ite, h0]; exact h1, h2⟩
end

theorem reg_none {M : Mach} {T : Trees} {exit brks L s ev} (h : Reg M T exit brks L none s ev) : exit = none ∧ s = .nil := by
  cases h; exact ⟨rfl, rfl⟩

mutual
/-- What the code does, the machine does. -/
theorem reg_bwd {E : Env} {M : Mach} {T : Trees} (hD : M.Deterministic E) (hH : HeadersInside M T) {d : String} {q : Bool} {τ : St} :
    ∀ {exit brks L cur s ev}, Reg M T exit brks L cur s ev → (∀ x ∈ ev, x.Ok) → ∀ c σ k ρ n, cur = some c → s.den E σ k ρ →
      After M E d q τ L exit 0 n k ρ → ∃ n, M.EndsIn E d q τ n c σ
  | _, _, _, _, _, _, .stop, _, c, σ, k, ρ, n, hc, h, ha => by
    obtain ⟨rfl, rfl⟩ := h
    obtain ⟨x, m, hx, _, he⟩ := ha
    rw [hx] at hc; cases hc
    exact ⟨m, he⟩
  | exit, brks, L, _, _, _, .loop (c := c) (I := I) (body := body) (r := r) hx hh _ hI h1 h2, ho, c', σ, k, ρ, n, hc, h, ha => by
    cases hc
    have hnn := body_NN hD hH hh hI h1 (fun x hx' => ho x (by simp [hx']))
    have hloop : ∀ σ k ρ, Rel.forever (body.den E) σ k ρ → (k = .normal → ∃ n, M.EndsIn E d q τ n I.exit ρ) →
        (∀ d' q', k = .ret d' q' → d' = d ∧ q' = q ∧ ρ = τ) → ∃ n, M.EndsIn E d q τ n c σ := by
      intro σ k ρ hf hn hr
      induction hf with
      | step k1 hb hk _ ih =>
        rcases hk with rfl | rfl
        · exact absurd hb (hnn _ _)
        · obtain ⟨m, hm⟩ := ih hn hr
          exact reg_bwd hD hH h1 (fun x hx' => ho x (by simp [hx'])) c _ _ _ m rfl hb ⟨_, m, rfl, by omega, hm⟩
      | stop hb =>
        obtain ⟨m, hm⟩ := hn rfl
        exact reg_bwd hD hH h1 (fun x hx' => ho x (by simp [hx'])) c _ _ _ m rfl hb ⟨_, m, rfl, by omega, hm⟩
      | ret d' q' hb =>
        exact reg_bwd hD hH h1 (fun x hx' => ho x (by simp [hx'])) c _ _ _ 0 rfl hb (hr d' q' rfl)
    rw [seq_den_cons] at h
    rcases h with ⟨ρ1, hf, hr⟩ | ⟨hk, hf⟩
    · refine hloop _ _ _ hf (fun _ => ?_) (fun _ _ h' => by cases h')
      exact reg_bwd hD hH h2 (fun x hx' => ho x (by simp [hx'])) _ _ _ _ n rfl hr ha
    · refine hloop _ _ _ hf (fun h' => absurd h' hk) (fun d' q' h' => ?_)
      subst h'; exact ha
  | _, _, _, _, _, _, .sink (c := c) (d := d') (q := q') hx _ he hr, _, c', σ, k, ρ, n, hc, h, ha => by
    cases hc
    rw [blockOf_den, one_exit_den E _ (.ret d' q') rfl (by simp)] at h
    obtain ⟨rfl, rfl⟩ := h
    obtain ⟨rfl, rfl, h3⟩ := ha
    exact ⟨0, .ret (out_nil he) hr h3.symm⟩
  | _, _, _, _, _, _, .cont (c := c) (l := l) hx _ he ht hb, ho, c', σ, k, ρ, n, hc, h, ha => by
    cases hc
    rw [blockOf_den, one_exit_den E _ .cont rfl (by simp)] at h
    obtain ⟨rfl, rfl⟩ := h
    obtain ⟨l', m, hl, _, hm⟩ := ha
    cases hl
    have := ho _ (List.mem_singleton.mpr rfl)
    rw [Ev.Ok] at this
    rw [← this] at hm
    exact ⟨m + 1, (step_one he ht).mpr ⟨m, rfl, hm⟩⟩
  | _, _, _, _, _, _, .brk (c := c) (l := l) hx _ he ht hb _, ho, c', σ, k, ρ, n, hc, h, ha => by
    cases hc
    rw [blockOf_den, one_exit_den E _ .brk rfl (by simp)] at h
    obtain ⟨rfl, rfl⟩ := h
    obtain ⟨l', m, hl, _, hm⟩ := ha
    cases hl
    have := ho _ (List.mem_singleton.mpr rfl)
    rw [Ev.Ok] at this
    rw [← this] at hm
    exact ⟨m + 1, (step_one he ht).mpr ⟨m, rfl, hm⟩⟩
  | _, _, _, _, _, _, .next (c := c) hx _ he ht _ _ hr, ho, c', σ, k, ρ, n, hc, h, ha => by
    cases hc
    rw [blockOf_den] at h
    obtain ⟨m, hm⟩ := reg_bwd hD hH hr ho _ _ _ _ n rfl h ha
    exact ⟨m + 1, (step_one he ht).mpr ⟨m, rfl, hm⟩⟩
  | _, _, _, _, _, _, .branch (L := L) (c := c) (m := mg) (bs := bs) (r := r) (er := er) hx _ hl hb hr, ho, c', σ, k, ρ, n, hc, h, ha => by
    cases hc
    rw [blockOf_den] at h
    have h : (Seq.cons (.ifElse bs) [] r).den E (runBlock E (M.at c).stmts σ) k ρ := h
    rw [seq_den_cons] at h
    have hC : Complete E (.ifElse bs) := by
      rw [Complete]
      refine ⟨regB_complete hD hb, fun σ hff => ?_⟩
      obtain ⟨e, he, ht⟩ := hD.total c σ (by rw [← outE_length]; exact hl)
      obtain ⟨x, hx, rfl⟩ := out_mem he
      rw [regB_allFalse hb hff x hx] at ht
      cases ht
    have fin : (∃ k ρ n, bs.den E (runBlock E (M.at c).stmts σ) k ρ ∧ After M E d q τ L mg 0 n k ρ) → ∃ n, M.EndsIn E d q τ n c σ := by
      rintro ⟨k, ρ, n, h1, h2⟩
      rcases regB_bwd hD hH hb (fun x hx' => ho x (by simp [hx'])) _ _ _ n h1 h2 with hf | ⟨e, he, ht, m, hm⟩
      · rw [Complete] at hC
        exact absurd hf (hC.2 _)
      · exact ⟨m + 1, .step ⟨e.2, mem_out he, ht, rfl, rfl⟩ hm⟩
    rcases h with ⟨ρ1, h1, h2⟩ | ⟨hk, h1⟩
    · by_cases hf : Brs.falls bs = true
      · rw [hf] at ho
        have ho' : ∀ x ∈ er, x.Ok := fun x hx' => ho x (by simp [hx'])
        cases hmg : mg with
        | none =>
          exfalso
          rw [hmg] at hr
          obtain ⟨hx', rfl⟩ := reg_none hr
          obtain ⟨rfl, _⟩ := h2
          obtain ⟨x, _, hx2, _⟩ := ha
          rw [hx'] at hx2; cases hx2
        | some p =>
          obtain ⟨m, hm⟩ := reg_bwd hD hH hr ho' p _ _ _ n hmg h2 ha
          exact fin ⟨.normal, ρ1, m, h1, p, m, hmg, by omega, hm⟩
      · exact absurd h1 (falls_node E _ hC (by simpa [Node.falls] using hf) _ _)
    · exact fin ⟨k, ρ, n, h1, ha.other hk⟩
theorem regB_bwd {E : Env} {M : Mach} {T : Trees} (hD : M.Deterministic E) (hH : HeadersInside M T) {d : String} {q : Bool} {τ : St} :
    ∀ {m brks L es bs ev}, RegB M T m brks L es bs ev → (∀ x ∈ ev, x.Ok) → ∀ σ k ρ n, bs.den E σ k ρ → After M E d q τ L m 0 n k ρ →
      AllFalse E σ bs ∨ ∃ e ∈ es, σ.cond E e.2.cond = true ∧ ∃ n, M.EndsIn E d q τ n e.2.dst (runTrans E e.2.asg σ)
  | _, _, _, _, _, _, .nil, _, σ, k, ρ, n, h, ha => Or.inl (by rw [AllFalse]; trivial)
  | _, _, _, _, _, _, .cont (l := l) (e := e') hb hr, ho, σ, k, ρ, n, h, ha => by
    simp only [Brs.den, Rel.ite] at h
    split at h
    · rename_i ht
      rw [blockOf_den, one_exit_den E _ .cont rfl (by simp)] at h
      obtain ⟨rfl, rfl⟩ := h
      obtain ⟨l', m, hl, _, hm⟩ := ha
      cases hl
      have := ho (.cont e'.2 l) (by simp)
      rw [Ev.Ok] at this
      rw [← this] at hm
      exact Or.inr ⟨e', by simp, ht, m, hm⟩
    · rename_i hf
      rcases regB_bwd hD hH hr (fun x hx => ho x (by simp [hx])) σ k ρ n h ha with h | ⟨e, he, h⟩
      · left; rw [AllFalse]; exact ⟨by simpa using hf, h⟩
      · exact Or.inr ⟨e, by simp [he], h⟩
  | _, _, _, _, _, _, .brk (l := l) (e := e') hb _ hr, ho, σ, k, ρ, n, h, ha => by
    simp only [Brs.den, Rel.ite] at h
    split at h
    · rename_i ht
      rw [blockOf_den, one_exit_den E _ .brk rfl (by simp)] at h
      obtain ⟨rfl, rfl⟩ := h
      obtain ⟨l', m, hl, _, hm⟩ := ha
      cases hl
      have := ho (.brk e'.2 l) (by simp)
      rw [Ev.Ok] at this
      rw [← this] at hm
      exact Or.inr ⟨e', by simp, ht, m, hm⟩
    · rename_i hf
      rcases regB_bwd hD hH hr (fun x hx => ho x (by simp [hx])) σ k ρ n h ha with h | ⟨e, he, h⟩
      · left; rw [AllFalse]; exact ⟨by simpa using hf, h⟩
      · exact Or.inr ⟨e, by simp [he], h⟩
  | _, _, _, _, _, _, .sub (e := e') hb _ hs hr, ho, σ, k, ρ, n, h, ha => by
    simp only [Brs.den, Rel.ite] at h
    split at h
    · rename_i ht
      rw [blockOf_den] at h
      exact Or.inr ⟨e', by simp, ht, reg_bwd hD hH hs (fun x hx => ho x (by simp [hx])) _ _ _ _ n rfl h ha⟩
    · rename_i hf
      rcases regB_bwd hD hH hr (fun x hx => ho x (by simp [hx])) σ k ρ n h ha with h | ⟨e, he, h⟩
      · left; rw [AllFalse]; exact ⟨by simpa using hf, h⟩
      · exact Or.inr ⟨e, by simp [he], h⟩
end

theorem blockOf_noJump {l : List Stmt} {t : Trans} {r : Seq} (h : r.noJump = true) : (blockOf l t r).noJump = true := by
  unfold blockOf
  split
  · exact h
  · simp [Seq.noJump, Node.noJump, h]

mutual
theorem reg_noJump {M : Mach} {T : Trees} : ∀ {exit brks L cur s ev}, Reg M T exit brks L cur s ev → L = none → s.noJump = true
  | _, _, _, _, _, _, .stop, _ => rfl
  | _, _, _, _, _, _, .loop _ _ _ _ _ h, hL => by
    simp only [Seq.noJump, Node.noJump, Bool.true_and]; exact reg_noJump h hL
  | _, _, _, _, _, _, .sink _ _ _ _, _ => blockOf_noJump (by simp [Seq.noJump, Node.noJump])
  | _, _, _, _, _, _, .cont _ _ _ _ _, hL => by cases hL
  | _, _, _, _, _, _, .brk _ _ _ _ _ _, hL => by cases hL
  | _, _, _, _, _, _, .next _ _ _ _ _ _ h, hL => blockOf_noJump (reg_noJump h hL)
  | _, _, _, _, _, _, .branch _ _ _ hb h, hL => blockOf_noJump (by
      simp only [Seq.noJump, Node.noJump, Bool.and_eq_true]
      exact ⟨regB_noJump hb hL, reg_noJump h hL⟩)
theorem regB_noJump {M : Mach} {T : Trees} : ∀ {m brks L es bs ev}, RegB M T m brks L es bs ev → L = none → bs.noJump = true
  | _, _, _, _, _, _, .nil, _ => rfl
  | _, _, _, _, _, _, .cont _ _, hL => by cases hL
  | _, _, _, _, _, _, .brk _ _ _, hL => by cases hL
  | _, _, _, _, _, _, .sub _ _ h1 h, hL => by
    simp only [Brs.noJump, Bool.and_eq_true]
    exact ⟨blockOf_noJump (reg_noJump h1 hL), regB_noJump h hL⟩
end

/-- The events recorded while a machine is structured are in order. -/
theorem structure_correct_of_events {E : Env} {M : Mach} {T : Trees} (hD : M.Deterministic E) (hH : HeadersInside M T) {fuel : Nat} {s : Seq}
    {ev : List Ev} (h : structure' M T fuel = some (s, ev)) (ho : ∀ x ∈ ev, x.Ok) (σ : St) (k : Ctl) (τ : St) :
    s.den E σ k τ ↔ ∃ d q, k = .ret d q ∧ M.Returns E σ d q τ := by
  have hr := region_reg M T fuel (by simp) (by simp) (by simp) h
  constructor
  · intro hs
    have hnn : NN E (s.den E) := falls_seq E _ (reg_complete hD hr)
      (reg_falls hr ho (fun _ => True) ⟨fun _ _ _ _ _ _ _ => trivial, fun _ _ _ _ _ _ _ => trivial⟩ M.start rfl trivial (by simp))
    cases k with
    | normal => exact absurd hs (hnn _ _)
    | brk => have := Seq.noJump_proper E s (reg_noJump hr rfl) _ _ _ hs; cases this
    | cont => have := Seq.noJump_proper E s (reg_noJump hr rfl) _ _ _ hs; cases this
    | ret d q =>
      exact ⟨d, q, rfl, reg_bwd hD hH hr ho M.start σ (.ret d q) τ 0 rfl hs ⟨rfl, rfl, rfl⟩⟩
  · rintro ⟨d, q, rfl, n, hn⟩
    obtain ⟨k, ρ, hs, ha⟩ := reg_fwd hD hH hr ho M.start n σ rfl hn
    cases k with
    | normal => obtain ⟨x, _, hx, _⟩ := ha; cases hx
    | brk => obtain ⟨x, _, hx, _⟩ := ha; cases hx
    | cont => obtain ⟨x, _, hx, _⟩ := ha; cases hx
    | ret d' q' => obtain ⟨rfl, rfl, rfl⟩ := ha; exact hs

end Docc.Struct
