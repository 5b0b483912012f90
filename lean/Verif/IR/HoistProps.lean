import Verif.IR.Hoist
import Verif.IR.Exchange
import Verif.IR.XferProps

/-
Blocks taken out of maps and if-elses: when this preserves the program.
-/
namespace Docc.IR
open Docc.Sym

/-- the assignments of a transition and a computation can change places -/
def TransApart (t : Trans) (x : Stmt) : Prop :=
  (∀ y, writes x.users y → ¬ reads (transUsers t) y ∧ ¬ writes (transUsers t) y) ∧ ∀ y, reads x.users y → ¬ writes (transUsers t) y

theorem TransApart.nil (x : Stmt) : TransApart [] x :=
  ⟨fun y _ => ⟨by simp [reads, transUsers, readsOf], by simp [writes, transUsers, readsOf]⟩, fun y _ => by simp [writes, transUsers, readsOf]⟩

theorem TransApart.commute {t : Trans} {x : Stmt} (h : TransApart t x) (E : Env) (σ : St) : runTrans E t (x.run E σ) = x.run E (runTrans E t σ) := by
  funext z
  by_cases hz : writes x.users z
  · rw [runTrans_frame E t _ z (h.1 z hz).2]
    exact x.run_congr E (fun y hy => (runTrans_frame E t σ y (h.2 y hy)).symm) z (runTrans_frame E t σ z (h.1 z hz).2).symm
  · rw [x.run_frame E _ z hz]
    exact runTrans_agree E (writes x.users) t (fun y hy => (h.1 y hy).1) (x.run E σ) σ (fun y hy => x.run_frame E σ y hy) z hz

theorem Seq.unsnoc_eq : ∀ {s r : Seq} {n : Node} {t : Trans}, s.unsnoc = some (r, n, t) → s = r ++ .cons n t .nil
  | .nil, _, _, _, h => by cases h
  | .cons m u q, r, n, t, h => by
    simp only [Seq.unsnoc] at h
    split at h
    · rename_i hq
      simp only [Option.some.injEq, Prod.mk.injEq] at h
      obtain ⟨rfl, rfl, rfl⟩ := h
      cases q with
      | nil => rfl
      | cons a b c =>
        exfalso
        simp only [Seq.unsnoc] at hq
        split at hq <;> cases hq
    · rename_i s' m' u' hq
      simp only [Option.some.injEq, Prod.mk.injEq] at h
      obtain ⟨rfl, rfl, rfl⟩ := h
      rw [Seq.unsnoc_eq hq, Seq.cons_append]

/-- the block consists of one computation that is no transfer between host and device -/
def HoistEnv.Local (H : HoistEnv) (l : List Stmt) : Prop := ∀ op r w, Stmt.lib op r w ∈ l → ∀ a b c d, H.kind op ≠ .offload a b c d

theorem same_local {H : HoistEnv} {back : Bool} {l m : List Stmt} {s s' : Seq} (hl : H.Local l) (h : H.same back l m s = some s') : l = m ∧ s' = s := by
  unfold HoistEnv.same at h
  split at h
  · rename_i e; cases h; exact ⟨e, rfl⟩
  · split at h
    · rename_i y x ht
      exfalso
      unfold HoistEnv.twins at ht
      split at ht
      · split at ht
        · rename_i hk; exact hl _ _ _ (List.mem_singleton.mpr rfl) _ _ _ _ hk
        · cases ht
      · cases ht
    · cases h

theorem invLib_one {H : HoistEnv} {i : Option String} {l : List Stmt} (h : H.isInvLib i l = true) :
    ∃ op r w, l = [.lib op r w] ∧ H.allowed op = true ∧ ∀ x, i = some x → x ∉ r := by
  unfold HoistEnv.isInvLib at h
  split at h
  · rename_i op r w
    simp only [Bool.and_eq_true] at h
    refine ⟨op, r, w, rfl, h.1, fun x hx hm => ?_⟩
    subst hx
    have := h.2
    simp [List.contains_iff_mem, hm] at this
  · cases h

theorem front_one {H : HoistEnv} {i : Option String} {l : List Stmt} (h : (isMove l || isView i l || H.isInvLib i l) = true) : ∃ x, l = [x] := by
  simp only [Bool.or_eq_true] at h
  rcases h with (h | h) | h
  · unfold isMove at h
    split at h
    · exact ⟨_, rfl⟩
    · cases h
  · unfold isView at h
    split at h
    · exact ⟨_, rfl⟩
    · cases h
  · obtain ⟨op, r, w, rfl, _⟩ := invLib_one h; exact ⟨_, rfl⟩

/-- a block followed by the rest of a sequence -/
theorem block_then (E : Env) (l : List Stmt) (s : Seq) : (Seq.cons (.block l) [] s).den E = fun σ => s.den E (runBlock E l σ) := by
  rw [Seq.den, Node.den, Rel.upd_seq]
  funext σ
  rw [Rel.upd_seq]; rfl

theorem block_last (E : Env) (r : Seq) (l : List Stmt) : (r ++ .cons (.block l) [] .nil).den E = Rel.seq (r.den E) (Rel.upd (runBlock E l)) := by
  rw [Seq.den_append]
  congr 1
  rw [block_then]; rfl

/-! ### if-else -/

theorem backs_den {H : HoistEnv} {l : List Stmt} (hl : H.Local l) (E : Env) : ∀ {b b' : Brs}, H.backs l b = some b' → ∀ {σ : St},
    (∃ c ∈ b.conds, σ.cond E c = true) → ∀ c σ', b.den E σ c σ' ↔ Rel.seq (b'.den E) (Rel.upd (runBlock E l)) σ c σ'
  | .nil, _, _, σ, hc, _, _ => by obtain ⟨c, hc, _⟩ := hc; simp [Brs.conds] at hc
  | .cons k s r, b', h, σ, hc, c, σ' => by
    simp only [HoistEnv.backs] at h
    split at h
    · rename_i s1 m hs
      split at h
      · rename_i s' r' h1 h2
        cases h
        obtain ⟨rfl, rfl⟩ := same_local hl h1
        rw [Seq.unsnoc_eq hs, Brs.den, block_last, Brs.den]
        by_cases hk : σ.cond E k = true
        · simp only [Rel.ite, Rel.seq, hk, if_true]
        · have hr : ∃ c ∈ r.conds, σ.cond E c = true := by
            obtain ⟨x, hx, hx'⟩ := hc
            simp only [Brs.conds, List.mem_cons] at hx
            rcases hx with rfl | hx
            · exact absurd hx' hk
            · exact ⟨x, hx, hx'⟩
          have := backs_den hl E h2 hr c σ'
          simp only [Rel.ite, Rel.seq, hk, if_false, Bool.false_eq_true] at this ⊢
          exact this
      · cases h
    · cases h

theorem backIf_inv {H : HoistEnv} {b b' : Brs} {l : List Stmt} (h : H.backIf b = some (b', l)) : H.backs l b = some b' ∧ H.isInvLib none l = true := by
  unfold HoistEnv.backIf at h
  split at h
  · cases h
  · split at h
    · split at h
      · rename_i h1
        rw [Option.map_eq_some_iff] at h
        obtain ⟨x, h2, h3⟩ := h
        cases h3
        exact ⟨h2, h1⟩
      · cases h
    · cases h

theorem if_back {H : HoistEnv} {E : Env} {b b' : Brs} {l : List Stmt} (hb : ∀ σ : St, ∃ c ∈ b.conds, σ.cond E c = true)
    (h : H.backIf b = some (b', l)) (hl : H.Local l) {t : Trans} (ht : ∀ x ∈ l, TransApart t x) (r : Seq) (σ : St) (c : Ctl) (σ' : St) :
    (Seq.cons (.ifElse b') t (.cons (.block l) [] r)).den E σ c σ' ↔ (Seq.cons (.ifElse b) t r).den E σ c σ' := by
  obtain ⟨h1, h2⟩ := backIf_inv h
  obtain ⟨op, rs, ws, rfl, _⟩ := invLib_one h2
  have hd := backs_den hl E h1 (hb σ)
  rw [Seq.den, block_then, Node.den, Seq.den, Node.den, Rel.upd_seq, Rel.upd_seq]
  have hcomm := (ht _ (List.mem_singleton.mpr rfl)).commute E
  constructor
  · rintro (⟨τ, h3, h4⟩ | ⟨hc, h3⟩)
    · refine .inl ⟨runBlock E [.lib op rs ws] τ, (hd _ _).mpr (.inl ⟨τ, h3, rfl, rfl⟩), ?_⟩
      show r.den E (runTrans E t ((Stmt.lib op rs ws).run E τ)) c σ'
      rw [hcomm]; exact h4
    · exact .inr ⟨hc, (hd _ _).mpr (.inr ⟨hc, h3⟩)⟩
  · rintro (⟨τ, h3, h4⟩ | ⟨hc, h3⟩)
    · rcases (hd _ _).mp h3 with ⟨τ1, h5, _, rfl⟩ | ⟨hc, _⟩
      · refine .inl ⟨τ1, h5, ?_⟩
        have h4 : r.den E (runTrans E t ((Stmt.lib op rs ws).run E τ1)) c σ' := h4
        rw [hcomm] at h4; exact h4
      · exact absurd rfl hc
    · rcases (hd _ _).mp h3 with ⟨τ1, _, h5, _⟩ | ⟨_, h5⟩
      · exact absurd h5 hc
      · exact .inr ⟨hc, h5⟩

/-- **C99** (partial), the back of an if-else: taking a common last block out of the cases preserves the program if the assignments that follow
the if-else have nothing to do with it.  Missing: other assignments (`trans_violated`) and transfers that differ in the device container
(`device_violated`). -/
theorem hoist_if_back_partial {H : HoistEnv} {E : Env} (hC : CompleteSound E H.complete) {b b' : Brs} {l : List Stmt} (hb : H.complete b = true)
    (h : H.backIf b = some (b', l)) (hl : H.Local l) {t : Trans} (ht : ∀ x ∈ l, TransApart t x) (r : Seq) (σ : St) (c : Ctl) (σ' : St) :
    (Seq.cons (.ifElse b') t (.cons (.block l) [] r)).den E σ c σ' ↔ (Seq.cons (.ifElse b) t r).den E σ c σ' := by
  exact if_back (hC b hb) h hl ht r σ c σ'

theorem fronts_den {H : HoistEnv} {l : List Stmt} (hl : H.Local l) (E : Env) : ∀ {b b' : Brs}, H.fronts l b = some b' → ∀ {σ : St},
    (∃ c ∈ b.conds, σ.cond E c = true) → (∀ c ∈ b.conds, ∀ x ∈ c.atoms, ¬ writes (l.flatMap Stmt.users) x) →
    ∀ c σ', b.den E σ c σ' ↔ b'.den E (runBlock E l σ) c σ'
  | .nil, _, _, σ, hc, _, _, _ => by obtain ⟨c, hc, _⟩ := hc; simp [Brs.conds] at hc
  | .cons k s r, b', h, σ, hc, hw, c, σ' => by
    unfold HoistEnv.fronts at h
    split at h
    · rename_i e; cases e
    · rename_i k' m s2 r2 e
      cases e
      split at h
      · rename_i s' r' h1 h2
        cases h
        obtain ⟨rfl, rfl⟩ := same_local hl h1
        rw [Brs.den, block_then, Brs.den]
        have hk' : (runBlock E l σ).cond E k = σ.cond E k := St.cond_congr E fun x hx => by
          rw [runBlock_frame E l σ x (hw k (by simp [Brs.conds]) x hx)]
        by_cases hk : σ.cond E k = true
        · simp only [Rel.ite, hk', hk, if_true]
        · have hr : ∃ c ∈ r.conds, σ.cond E c = true := by
            obtain ⟨x, hx, hx'⟩ := hc
            simp only [Brs.conds, List.mem_cons] at hx
            rcases hx with rfl | hx
            · exact absurd hx' hk
            · exact ⟨x, hx, hx'⟩
          have := fronts_den hl E h2 hr (fun c hc => hw c (by simp [Brs.conds, hc])) c σ'
          simp only [Rel.ite, hk', hk, if_false, Bool.false_eq_true]
          exact this
      · cases h
    · cases h

theorem frontIf_inv {H : HoistEnv} {b b' : Brs} {l : List Stmt} (h : H.frontIf b = some (l, b')) :
    H.fronts l b = some b' ∧ (isMove l || isView none l || H.isInvLib none l) = true := by
  unfold HoistEnv.frontIf at h
  split at h
  · split at h
    · rename_i h1
      rw [Option.map_eq_some_iff] at h
      obtain ⟨x, h2, h3⟩ := h
      cases h3
      exact ⟨h2, h1⟩
    · cases h
  · cases h

/-- **C99** (partial), the front of an if-else: taking a common first block out of the cases preserves the program if it does not write the
symbols of the conditions.  Missing: blocks that do (`condition_violated`) and transfers that differ in the device container. -/
theorem hoist_if_front_partial {H : HoistEnv} {E : Env} (hC : CompleteSound E H.complete) {b b' : Brs} {l : List Stmt} (hb : H.complete b = true)
    (h : H.frontIf b = some (l, b')) (hl : H.Local l) (hw : ∀ c ∈ b.conds, ∀ x ∈ c.atoms, ¬ writes (l.flatMap Stmt.users) x) (t : Trans) (r : Seq)
    (σ : St) (c : Ctl) (σ' : St) : (Seq.cons (.block l) [] (.cons (.ifElse b') t r)).den E σ c σ' ↔ (Seq.cons (.ifElse b) t r).den E σ c σ' := by
  obtain ⟨h1, _⟩ := frontIf_inv h
  have hd := fronts_den hl E h1 (hC b hb σ) hw
  rw [block_then, Seq.den, Node.den, Seq.den, Node.den]
  simp only [Rel.seq, hd]

end Docc.IR
