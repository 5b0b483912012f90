import Verif.IR.DefsLemmas

/-
Simulation machinery for DeadDataElimination: which scalars may differ, and the congruences of the control structures.
-/
namespace Docc.IR
open Docc.Sym DefSt

/-- what the final result says about `st`: definitions with reads are not in `P`, and undefined reads are of containers that agree on entry -/
def Fine (P : List Nat → String → Bool) (In : String → Prop) (st : DefSt) : Prop :=
  (∀ e ∈ st.all, e.1.art = false → e.2 ≠ [] → P e.1.pos e.1.cont = false) ∧ ∀ r ∈ st.undef, ¬ In r.cont

/-- the scalars that may differ: an erased definition may be the last one, or they differed on entry to the scope and were not written -/
def Dirty (P : List Nat → String → Bool) (In W : String → Prop) (st : DefSt) (x : String) : Prop :=
  (∃ e ∈ st.opn, e.1.cont = x ∧ e.1.art = false ∧ P e.1.pos x = true) ∨ (In x ∧ ¬ W x)

/-- the scalars that may differ after each outcome -/
def Out (P : List Nat → String → Bool) (X In W : String → Prop) (st : DefSt) : Ctl → String → Prop
  | .normal => Dirty P In W st
  | .brk => fun x => (∃ e ∈ st.all, e.1.cont = x ∧ e.1.art = false ∧ P e.1.pos x = true) ∨ In x
  | .cont => fun x => (∃ e ∈ st.all, e.1.cont = x ∧ e.1.art = false ∧ P e.1.pos x = true) ∨ In x
  | .ret d q => fun x => X x ∧ (q = false → d ≠ "" → x ≠ d)

theorem Fine.anti {P : List Nat → String → Bool} {In : String → Prop} {a b : DefSt} (h : Le a b) (hb : Fine P In b) : Fine P In a := by
  refine ⟨fun e he ha hr => ?_, fun r hr => hb.2 r (h.2 r hr)⟩
  obtain ⟨e', m, k, s⟩ := h.1 e he
  rw [← k]
  refine hb.1 e' m (k ▸ ha) fun h0 => ?_
  cases hl : e.2 with
  | nil => exact hr hl
  | cons r l =>
    have := s r (by rw [hl]; exact List.mem_cons_self)
    rw [h0] at this
    cases this

theorem Fine.body {P : List Nat → String → Bool} {In I : String → Prop} {a b : DefSt} (h : Sub a b) (hb : Fine P In b)
    (hu : ∀ r ∈ a.undef, ¬ I r.cont) : Fine P I a := by
  have h1 : Fine P (fun _ => False) { a with undef := [] } := by
    have hb' : Fine P (fun _ => False) { b with undef := [] } := ⟨hb.1, fun r hr => by cases hr⟩
    exact Fine.anti (b := { b with undef := [] }) ⟨h, fun _ hr => hr⟩ hb'
  exact ⟨h1.1, hu⟩

theorem Dirty.keys {P : List Nat → String → Bool} {In W : String → Prop} {a b : DefSt} (h : a.opn.map (·.1) = b.opn.map (·.1)) {x : String}
    (hd : Dirty P In W a x) : Dirty P In W b x := by
  rcases hd with ⟨e, m, h1, h2, h3⟩ | hd
  · obtain ⟨e', m', k⟩ := mem_keys h m
    exact Or.inl ⟨e', m', k ▸ h1, k ▸ h2, k ▸ h3⟩
  · exact Or.inr hd

/-- Reads that are recorded are of containers that agree. -/
theorem reads_clean {P : List Nat → String → Bool} {In W sc : String → Prop} {f : DefSt → Usr → DefSt} (hf : IsRead sc f) :
    ∀ (l : List Usr) (st : DefSt), Fine P In (l.foldl f st) → (∀ e ∈ st.opn, W e.1.cont) → (∀ x, Dirty P In W st x → sc x) →
      ∀ r ∈ l, ¬ Dirty P In W st r.cont
  | [], _, _, _, _, r, hr => by cases hr
  | a :: l, st, hF, hS, hsc, r, hr => by
    have hk : (f st a).opn.map (·.1) = st.opn.map (·.1) := hf.keys st a
    have hF1 : Fine P In (f st a) := hF.anti (foldl_le hf.le l (f st a))
    have hS1 : ∀ e ∈ (f st a).opn, W e.1.cont := fun e he => by
      obtain ⟨e', m, k⟩ := mem_keys hk he
      exact k ▸ hS e' m
    rcases List.mem_cons.1 hr with rfl | hr
    · intro hd
      rcases hd.keys hk.symm with ⟨e, m, h1, h2, h3⟩ | ⟨h1, h2⟩
      · have := hF1.1 e (List.mem_append_left _ m) h2 (hf.hit st r (hsc _ hd) e m h1)
        rw [h1, h3] at this
        cases this
      · refine hF1.2 r (hf.miss st r fun e he hc => h2 ?_) h1
        exact hc ▸ hS e he
    · intro hd
      exact reads_clean hf l (f st a) hF hS1 (fun x hx => hsc x (hx.keys hk)) r hr (hd.keys hk.symm)

/-- A write of another container changes nothing; a write in `P` makes its container differ. -/
theorem Dirty.write_other {P : List Nat → String → Bool} {In W W' : String → Prop} {O : DefOracle} {d : Bool} {w : Usr} {st : DefSt} {y : String}
    (hy : y ≠ w.cont) (hW : W' y → W y) (h : Dirty P In W st y) : Dirty P In W' (st.write O d w) y := by
  rcases h with ⟨e, m, h1, h2, h3⟩ | ⟨h1, h2⟩
  · refine Or.inl ⟨e, ?_, h1, h2, h3⟩
    simp only [DefSt.write, List.mem_append, List.mem_filter]
    refine Or.inl ⟨m, ?_⟩
    have : ¬ e.1.cont = w.cont := fun hc => hy (h1 ▸ hc)
    simp [DefOracle.closes, this]
  · exact Or.inr ⟨h1, fun h => h2 (hW h)⟩

theorem Dirty.write_self {P : List Nat → String → Bool} {In W : String → Prop} {O : DefOracle} {d : Bool} {w : Usr} {st : DefSt}
    (ha : w.art = false) (hP : P w.pos w.cont = true) : Dirty P In W (st.write O d w) w.cont :=
  Or.inl ⟨(w, []), by simp [DefSt.write], rfl, ha, hP⟩

theorem Dirty.of_write {P : List Nat → String → Bool} {In W W' : String → Prop} {O : DefOracle} {d : Bool} {w : Usr} {st : DefSt} {y : String}
    (hW : W y → W' y) (h : Dirty P In W' (st.write O d w) y) : Dirty P In W st y ∨ (y = w.cont ∧ P w.pos w.cont = true) := by
  rcases h with ⟨e, m, h1, h2, h3⟩ | ⟨h1, h2⟩
  · simp only [DefSt.write, List.mem_append, List.mem_filter, List.mem_singleton] at m
    rcases m with m | rfl
    · exact Or.inl (Or.inl ⟨e, m.1, h1, h2, h3⟩)
    · exact Or.inr ⟨h1.symm, by rw [h1]; exact h3⟩
  · exact Or.inl (Or.inr ⟨h1, fun h => h2 (hW h)⟩)

theorem Dirty.writes_other {P : List Nat → String → Bool} {In W W' : String → Prop} {O : DefOracle} {d : Bool} {y : String} :
    ∀ (ws : List Usr) (st : DefSt), (∀ w ∈ ws, y ≠ w.cont) → (W' y → W y) → Dirty P In W st y → Dirty P In W' (ws.foldl (DefSt.write O d) st) y
  | [], st, _, hW, h => by
    rcases h with h | ⟨h1, h2⟩
    · exact Or.inl h
    · exact Or.inr ⟨h1, fun h => h2 (hW h)⟩
  | w :: ws, st, hw, hW, h =>
    Dirty.writes_other ws (st.write O d w) (fun v hv => hw v (List.mem_cons_of_mem _ hv)) hW
      (h.write_other (hw w (by simp)) fun h => h)

/-! ### congruences -/

/-- from states that agree except on `A`, every behaviour of `R` is matched by one of `R'` with the same outcome `c`, agreeing except on `B c` -/
def Half (A : String → Prop) (B : Ctl → String → Prop) (R R' : Rel) : Prop :=
  ∀ σ τ, AgreeS A σ τ → ∀ c σ', R σ c σ' → ∃ τ', R' τ c τ' ∧ AgreeS (B c) σ' τ'

/-- in both directions -/
def Both (A : String → Prop) (B : Ctl → String → Prop) (R R' : Rel) : Prop := Half A B R R' ∧ Half A B R' R

theorem Half.upd {A : String → Prop} {B : Ctl → String → Prop} {f g : St → St}
    (h : ∀ σ τ, AgreeS A σ τ → AgreeS (B .normal) (f σ) (g τ)) : Half A B (Rel.upd f) (Rel.upd g) := by
  intro σ τ hA c σ' ⟨hc, hs⟩
  subst hc; subst hs
  exact ⟨_, ⟨rfl, rfl⟩, h σ τ hA⟩

theorem Both.upd {A : String → Prop} {B : Ctl → String → Prop} {f g : St → St}
    (h : ∀ σ τ, AgreeS A σ τ → AgreeS (B .normal) (f σ) (g τ)) : Both A B (Rel.upd f) (Rel.upd g) :=
  ⟨Half.upd h, Half.upd fun σ τ hA => (h τ σ hA.symm).symm⟩

theorem Both.exit {A : String → Prop} {B : Ctl → String → Prop} (k : Ctl) (h : ∀ x, A x → B k x) : Both A B (Rel.exit k) (Rel.exit k) := by
  have : Half A B (Rel.exit k) (Rel.exit k) := by
    intro σ τ hA c σ' ⟨hc, hs⟩
    subst hc; subst hs
    exact ⟨_, ⟨rfl, rfl⟩, hA.mono h⟩
  exact ⟨this, this⟩

theorem Half.seq {A : String → Prop} {B C : Ctl → String → Prop} {R R' S S' : Rel} (h1 : Half A B R R') (h2 : Half (B .normal) C S S')
    (hBC : ∀ c, c ≠ .normal → ∀ x, B c x → C c x) : Half A C (Rel.seq R S) (Rel.seq R' S') := by
  intro σ τ hA c σ' h
  rcases h with ⟨σ1, r, s⟩ | ⟨hc, r⟩
  · obtain ⟨τ1, r', hA1⟩ := h1 σ τ hA _ _ r
    obtain ⟨τ', s', hA2⟩ := h2 σ1 τ1 hA1 _ _ s
    exact ⟨τ', Or.inl ⟨τ1, r', s'⟩, hA2⟩
  · obtain ⟨τ', r', hA'⟩ := h1 σ τ hA _ _ r
    exact ⟨τ', Or.inr ⟨hc, r'⟩, hA'.mono (hBC c hc)⟩

theorem Both.seq {A : String → Prop} {B C : Ctl → String → Prop} {R R' S S' : Rel} (h1 : Both A B R R') (h2 : Both (B .normal) C S S')
    (hBC : ∀ c, c ≠ .normal → ∀ x, B c x → C c x) : Both A C (Rel.seq R S) (Rel.seq R' S') :=
  ⟨h1.1.seq h2.1 hBC, h1.2.seq h2.2 hBC⟩

theorem Both.restrict {A A' : String → Prop} {B B' : Ctl → String → Prop} {R R' : Rel} (h : Both A B R R') (hA : ∀ x, A' x → A x)
    (Q : Ctl → Prop) (hp : ∀ σ c σ', R σ c σ' → Q c) (hB : ∀ c, Q c → ∀ x, B c x → B' c x) : Both A' B' R R' := by
  refine ⟨fun σ τ hAg c σ' r => ?_, fun σ τ hAg c σ' r => ?_⟩
  · obtain ⟨τ', r', hA'⟩ := h.1 σ τ (hAg.mono hA) c σ' r
    exact ⟨τ', r', hA'.mono (hB c (hp _ _ _ r))⟩
  · obtain ⟨τ', r', hA'⟩ := h.2 σ τ (hAg.mono hA) c σ' r
    exact ⟨τ', r', hA'.mono (hB c (hp _ _ _ r'))⟩

theorem Both.mono {A A' : String → Prop} {B B' : Ctl → String → Prop} {R R' : Rel} (h : Both A B R R') (hA : ∀ x, A' x → A x)
    (hB : ∀ c x, B c x → B' c x) : Both A' B' R R' := h.restrict hA (fun _ => True) (fun _ _ _ _ => trivial) fun c _ => hB c

theorem Both.ite {A : String → Prop} {C : Ctl → String → Prop} {b : St → Bool} {R R' S S' : Rel}
    (hb : ∀ σ τ, AgreeS A σ τ → b σ = b τ) (h1 : Both A C R R') (h2 : Both A C S S') : Both A C (Rel.ite b R S) (Rel.ite b R' S') := by
  refine ⟨fun σ τ hA c σ' h => ?_, fun σ τ hA c σ' h => ?_⟩
  · simp only [Rel.ite] at h ⊢
    rw [← hb σ τ hA]
    by_cases hs : b σ = true
    · simp only [hs, if_true] at h ⊢; exact h1.1 σ τ hA c σ' h
    · simp only [hs] at h ⊢; exact h2.1 σ τ hA c σ' h
  · simp only [Rel.ite] at h ⊢
    rw [← hb σ τ hA]
    by_cases hs : b σ = true
    · simp only [hs, if_true] at h ⊢; exact h1.2 σ τ hA c σ' h
    · simp only [hs] at h ⊢; exact h2.2 σ τ hA c σ' h

theorem Half.forever {I : String → Prop} {B C : Ctl → String → Prop} {R R' : Rel} (h : Half I B R R') (h1 : ∀ x, B .normal x → I x)
    (h2 : ∀ x, B .cont x → I x) (h3 : ∀ x, B .brk x → C .normal x) (h4 : ∀ d q x, B (.ret d q) x → C (.ret d q) x) :
    Half I C (Rel.forever R) (Rel.forever R') := by
  intro σ τ hA c σ' r
  induction r generalizing τ with
  | step k hr hk _ ih =>
    obtain ⟨τ1, r', hA'⟩ := h _ τ hA _ _ hr
    obtain ⟨τ2, f', hA2⟩ := ih τ1 (hA'.mono (by rcases hk with rfl | rfl; exact h1; exact h2))
    exact ⟨τ2, .step k r' hk f', hA2⟩
  | stop hr =>
    obtain ⟨τ1, r', hA'⟩ := h _ τ hA _ _ hr
    exact ⟨τ1, .stop r', hA'.mono h3⟩
  | ret d q hr =>
    obtain ⟨τ1, r', hA'⟩ := h _ τ hA _ _ hr
    exact ⟨τ1, .ret d q r', hA'.mono (h4 d q)⟩

theorem Both.forever {I : String → Prop} {B C : Ctl → String → Prop} {R R' : Rel} (h : Both I B R R') (h1 : ∀ x, B .normal x → I x)
    (h2 : ∀ x, B .cont x → I x) (h3 : ∀ x, B .brk x → C .normal x) (h4 : ∀ d q x, B (.ret d q) x → C (.ret d q) x) :
    Both I C (Rel.forever R) (Rel.forever R') := ⟨h.1.forever h1 h2 h3 h4, h.2.forever h1 h2 h3 h4⟩

theorem Half.iter {I : String → Prop} {B C : Ctl → String → Prop} {b : St → Bool} {u : St → St} {R R' : Rel} (h : Half I B R R')
    (hb : ∀ σ τ, AgreeS I σ τ → b σ = b τ) (h1 : ∀ σ τ, AgreeS (B .normal) σ τ → AgreeS I (u σ) (u τ))
    (h2 : ∀ σ τ, AgreeS (B .cont) σ τ → AgreeS I (u σ) (u τ)) (h0 : ∀ x, I x → C .normal x)
    (h3 : ∀ x, B .brk x → C .normal x) (h4 : ∀ d q x, B (.ret d q) x → C (.ret d q) x) :
    Half I C (Rel.iter b u R) (Rel.iter b u R') := by
  intro σ τ hA c σ' r
  induction r generalizing τ with
  | done hd => exact ⟨τ, .done (hb _ τ hA ▸ hd), hA.mono h0⟩
  | step k hd hr hk _ ih =>
    obtain ⟨τ1, r', hA'⟩ := h _ τ hA _ _ hr
    obtain ⟨τ2, f', hA2⟩ := ih (u τ1) (by rcases hk with rfl | rfl; exact h1 _ _ hA'; exact h2 _ _ hA')
    exact ⟨τ2, .step k (hb _ τ hA ▸ hd) r' hk f', hA2⟩
  | stop hd hr =>
    obtain ⟨τ1, r', hA'⟩ := h _ τ hA _ _ hr
    exact ⟨τ1, .stop (hb _ τ hA ▸ hd) r', hA'.mono h3⟩
  | ret d q hd hr =>
    obtain ⟨τ1, r', hA'⟩ := h _ τ hA _ _ hr
    exact ⟨τ1, .ret d q (hb _ τ hA ▸ hd) r', hA'.mono (h4 d q)⟩

theorem Both.iter {I : String → Prop} {B C : Ctl → String → Prop} {b : St → Bool} {u : St → St} {R R' : Rel} (h : Both I B R R')
    (hb : ∀ σ τ, AgreeS I σ τ → b σ = b τ) (h1 : ∀ σ τ, AgreeS (B .normal) σ τ → AgreeS I (u σ) (u τ))
    (h2 : ∀ σ τ, AgreeS (B .cont) σ τ → AgreeS I (u σ) (u τ)) (h0 : ∀ x, I x → C .normal x)
    (h3 : ∀ x, B .brk x → C .normal x) (h4 : ∀ d q x, B (.ret d q) x → C (.ret d q) x) :
    Both I C (Rel.iter b u R) (Rel.iter b u R') := ⟨h.1.iter hb h1 h2 h0 h3 h4, h.2.iter hb h1 h2 h0 h3 h4⟩

end Docc.IR
