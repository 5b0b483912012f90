import Verif.IR.UGraphLemmas

namespace Docc.IR
open Docc.Sym

/-! ### every execution is followed by a path in the graph -/

/-- The uses performed by `R` can be reached from `f`, each over vertices performed before; and `e` can be reached over performed
vertices if `R` ends normally. -/
def Starts (P : V → Prop) (G : List (V × V)) (f e : V) (R : TR) : Prop :=
  ∀ σ l o, R σ l o → (∀ l1 b l2, l = l1 ++ b :: l2 → (∀ v ∈ l1, P v) → Reach G P f b) ∧
    (∀ σ', o = some (.normal, σ') → (∀ v ∈ l, P v) → Reach G P f e)

theorem Starts.mono {P : V → Prop} {G G' : List (V × V)} {f e : V} {R : TR} (h : Starts P G f e R) (hs : ∀ x ∈ G, x ∈ G') :
    Starts P G' f e R := fun σ l o hr =>
  ⟨fun l1 b l2 hl hp => ((h σ l o hr).1 l1 b l2 hl hp).mono hs, fun σ' ho hp => ((h σ l o hr).2 σ' ho hp).mono hs⟩

/-- from an earlier vertex -/
theorem Starts.after {P : V → Prop} {G : List (V × V)} {a f e : V} {R : TR} (h : Starts P G f e R) (ha : Reach G P a f) :
    Starts P G a e R := fun σ l o hr =>
  ⟨fun l1 b l2 hl hp => ha.trans ((h σ l o hr).1 l1 b l2 hl hp), fun σ' ho hp => ha.trans ((h σ l o hr).2 σ' ho hp)⟩

theorem Starts.before {P : V → Prop} {G : List (V × V)} {f e z : V} {R : TR} (h : Starts P G f e R)
    (hz : (∃ σ l σ', R σ l (some (.normal, σ')) ∧ ∀ v ∈ l, P v) → Reach G P e z) : Starts P G f z R := fun σ l o hr =>
  ⟨(h σ l o hr).1, fun σ' ho hp => ((h σ l o hr).2 σ' ho hp).trans (hz ⟨σ, l, σ', ho ▸ hr, hp⟩)⟩

theorem emit_performed {P : V → Prop} {us : List V} {g : St → St} (h : ∃ σ l σ', TR.emit us g σ l (some (.normal, σ')) ∧ ∀ v ∈ l, P v) :
    ∀ v ∈ us, P v := by
  obtain ⟨σ, l, σ', ⟨rfl, _⟩ | ⟨_, ho⟩, hp⟩ := h
  · exact hp
  · cases ho

theorem starts_emit {P : V → Prop} {G : List (V × V)} {f : V} (us : List V) (g : St → St) (hG : ∀ e ∈ chainE f us, e ∈ G) (hf : P f) :
    Starts P G f (chainEnd f us) (TR.emit us g) := by
  rintro σ l o (⟨rfl, rfl⟩ | ⟨hl, rfl⟩)
  · exact ⟨fun l1 b l2 hl hp => chain_to _ f hG hf l1 b l2 hl hp, fun _ _ hp => chain_all _ f hG hf hp⟩
  · refine ⟨fun l1 b l2 he hp => ?_, fun _ ho => by cases ho⟩
    obtain ⟨r, hr⟩ := prefix_mid hl he
    exact chain_to _ f hG hf l1 b r hr hp

theorem starts_jump {P : V → Prop} {G : List (V × V)} {f e : V} (us : List V) (c : Ctl) (hG : ∀ e ∈ chainE f us, e ∈ G) (hf : P f)
    (hc : c ≠ .normal) : Starts P G f e (TR.jump us c) := by
  rintro σ l o (⟨rfl, rfl⟩ | ⟨hl, rfl⟩)
  · exact ⟨fun l1 b l2 hl hp => chain_to _ f hG hf l1 b l2 hl hp, fun _ ho => absurd (by cases ho; rfl) hc⟩
  · refine ⟨fun l1 b l2 he hp => ?_, fun _ ho => by cases ho⟩
    obtain ⟨r, hr⟩ := prefix_mid hl he
    exact chain_to _ f hG hf l1 b r hr hp

/-- the second part may use that the uses of the first part have been performed -/
theorem starts_seq {P : V → Prop} {G : List (V × V)} {f m e : V} {R S : TR} (hR : Starts P G f m R)
    (hS : (∃ σ l σ', R σ l (some (.normal, σ')) ∧ ∀ v ∈ l, P v) → Starts P G m e S) : Starts P G f e (TR.seq R S) := by
  rintro σ l o (⟨l1, l2, σ1, h1, h2, rfl⟩ | ⟨h1, h2⟩)
  · refine ⟨fun a b c he hp => ?_, fun σ' ho hp => ?_⟩
    · rcases split_mid he with ⟨r, hr⟩ | ⟨r, rfl, hr⟩
      · exact (hR _ _ _ h1).1 a b r hr hp
      · have hp1 : ∀ v ∈ l1, P v := fun v hv => hp v (by simp [hv])
        exact ((hR _ _ _ h1).2 σ1 rfl hp1).trans
          ((hS ⟨_, _, _, h1, hp1⟩ _ _ _ h2).1 r b c hr fun v hv => hp v (by simp [hv]))
    · have hp1 : ∀ v ∈ l1, P v := fun v hv => hp v (by simp [hv])
      exact ((hR _ _ _ h1).2 σ1 rfl hp1).trans ((hS ⟨_, _, _, h1, hp1⟩ _ _ _ h2).2 σ' ho fun v hv => hp v (by simp [hv]))
  · exact ⟨(hR _ _ _ h1).1, fun σ' ho => absurd ho (h2 σ')⟩

theorem starts_ite {P : V → Prop} {G : List (V × V)} {f e : V} {b : St → Bool} {R S : TR} (hR : Starts P G f e R)
    (hS : Starts P G f e S) : Starts P G f e (TR.ite b R S) := by
  intro σ l o h
  unfold TR.ite at h
  split at h
  · exact hR _ _ _ h
  · exact hS _ _ _ h

theorem starts_forever {P : V → Prop} {G : List (V × V)} {s e e' : V} {R : TR} (hR : Starts P G s e' R) (he : Reach G P s e) :
    Starts P G s e (TR.forever R) := by
  intro σ l o h
  induction h with
  | cut h => exact ⟨(hR _ _ _ h).1, fun _ ho => by cases ho⟩
  | step k h1 h2 _ ih =>
    refine ⟨fun a b c he' hp => ?_, fun σ' _ _ => he⟩
    rcases split_mid he' with ⟨r, hr⟩ | ⟨r, rfl, hr⟩
    · exact (hR _ _ _ h1).1 a b r hr hp
    · exact ih.1 r b c hr fun v hv => hp v (by simp [hv])
  | stop h1 => exact ⟨(hR _ _ _ h1).1, fun _ _ _ => he⟩
  | ret d q h1 => exact ⟨(hR _ _ _ h1).1, fun _ _ _ => he⟩

/-- `R` ends normally only (or returns) -/
def TR.NoJump (R : TR) : Prop := ∀ σ l c σ', R σ l (some (c, σ')) → c ≠ .brk ∧ c ≠ .cont

theorem starts_iter {P : V → Prop} {G : List (V × V)} {w m e e' : V} {b : St → Bool} {u : St → St} {cs us : List V} {R : TR}
    (hJ : R.NoJump) (hw : P w) (hc : ∀ x ∈ chainE w cs, x ∈ G) (he : ∀ v ∈ cs, (v, e) ∈ G) (hne : cs ≠ [])
    (hm : (∀ v ∈ cs, P v) → Reach G P (chainEnd w cs) m)
    (hR : Starts P G m e' R) (hu : ∀ x ∈ chainE e' us, x ∈ G) (he' : P e') : Starts P G w e (TR.iter b u cs us R) := by
  have hexit : (∀ v ∈ cs, P v) → Reach G P w e := by
    intro hp
    cases cs with
    | nil => exact absurd rfl hne
    | cons v r =>
      exact (Reach.one hw (hc _ (by simp [chainE]))).trans (.one (hp v (by simp)) (he v (by simp)))
  have hbody : (∀ v ∈ cs, P v) → Reach G P w m := fun hp => (chain_all cs w hc hw hp).trans (hm hp)
  intro σ l o h
  induction h with
  | cut h =>
    refine ⟨fun l1 x l2 hl hp => ?_, fun _ ho => by cases ho⟩
    obtain ⟨r, hr⟩ := prefix_mid h hl
    exact chain_to _ w hc hw l1 x r hr hp
  | done h => exact ⟨fun l1 x l2 hl hp => chain_to _ w hc hw l1 x l2 hl hp, fun _ _ hp => hexit hp⟩
  | cutBody h0 h1 =>
    refine ⟨fun l1 x l2 hl hp => ?_, fun _ ho => by cases ho⟩
    rcases split_mid hl with ⟨r, hr⟩ | ⟨r, rfl, hr⟩
    · exact chain_to _ w hc hw l1 x r hr hp
    · exact (hbody fun v hv => hp v (by simp [hv])).trans ((hR _ _ _ h1).1 r x l2 hr fun v hv => hp v (by simp [hv]))
  | @cutUpd σ l σ1 l' k h0 h1 hk h2 =>
    refine ⟨fun l1 x l2 hl hp => ?_, fun _ ho => by cases ho⟩
    rcases split_mid hl with ⟨r, hr⟩ | ⟨r, rfl, hr⟩
    · exact chain_to _ w hc hw l1 x r hr hp
    · have hb := hbody fun v hv => hp v (by simp [hv])
      rcases split_mid hr with ⟨r', hr'⟩ | ⟨r', rfl, hr'⟩
      · exact hb.trans ((hR _ _ _ h1).1 r x r' hr' fun v hv => hp v (by simp [hv]))
      · have hk : k = .normal := by
          rcases hk with h | h
          · exact h
          · exact absurd h (hJ _ _ _ _ h1).2
        subst hk
        obtain ⟨r'', hr''⟩ := prefix_mid h2 hr'
        exact (hb.trans ((hR _ _ _ h1).2 σ1 rfl fun v hv => hp v (by simp [hv]))).trans
          (chain_to us e' hu he' r' x r'' hr'' fun v hv => hp v (by simp [hv]))
  | @step σ l σ1 l' o k h0 h1 hk _ ih =>
    refine ⟨fun l1 x l2 hl hp => ?_, fun _ _ hp => hexit fun v hv => hp v (by simp [hv])⟩
    rcases split_mid hl with ⟨r, hr⟩ | ⟨r, rfl, hr⟩
    · exact chain_to _ w hc hw l1 x r hr hp
    · have hb := hbody fun v hv => hp v (by simp [hv])
      rcases split_mid hr with ⟨r', hr'⟩ | ⟨r', rfl, hr'⟩
      · exact hb.trans ((hR _ _ _ h1).1 r x r' hr' fun v hv => hp v (by simp [hv]))
      · have hk : k = .normal := by
          rcases hk with h | h
          · exact h
          · exact absurd h (hJ _ _ _ _ h1).2
        subst hk
        rcases split_mid hr' with ⟨r'', hr''⟩ | ⟨r'', rfl, hr''⟩
        · exact (hb.trans ((hR _ _ _ h1).2 σ1 rfl fun v hv => hp v (by simp [hv]))).trans
            (chain_to us e' hu he' r' x r'' hr'' fun v hv => hp v (by simp [hv]))
        · exact ih.1 r'' x l2 hr'' fun v hv => hp v (by simp [hv])
  | stop h0 h1 => exact absurd rfl (hJ _ _ _ _ h1).1
  | ret d q h0 h1 =>
    refine ⟨fun l1 x l2 hl hp => ?_, fun _ ho => by cases ho⟩
    rcases split_mid hl with ⟨r, hr⟩ | ⟨r, rfl, hr⟩
    · exact chain_to _ w hc hw l1 x r hr hp
    · exact (hbody fun v hv => hp v (by simp [hv])).trans ((hR _ _ _ h1).1 r x l2 hr fun v hv => hp v (by simp [hv]))

end Docc.IR
