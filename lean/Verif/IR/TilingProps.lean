import Verif.IR.Tiling
import Verif.IR.AgreeS
import Verif.IR.Jump
import Verif.IR.ReplaceProps
import Verif.IR.LoopInfoProps
import Verif.IR.DeadCFGProps

/-
C19: LoopTiling.
-/
namespace Docc.IR
open Docc.Sym

/-- The truth of the condition at an index implies its truth at every smaller index. -/
def DownClosed (E : Env) (i : String) (k : Cond) : Prop :=
  ∀ (σ : St) (v w : Int), v ≤ w → (σ.setS i w).cond E k = true → (σ.setS i v).cond E k = true

/-- What tiling relies on: the update adds one, the condition is downward closed, the new variable is fresh, and the body
neither writes the loop variable nor breaks out of the loop. -/
structure TileOk (E : Env) (io : String) (i : String) (a : Expr) (k : Cond) (u : Expr) (s : Seq) : Prop where
  step : ∀ σ : St, σ.ev E u = σ i [] + 1
  down : DownClosed E i k
  ne : io ≠ i
  freshA : io ∉ a.atoms
  freshK : io ∉ k.atoms
  freshR : ¬ reads s.users io
  freshW : ¬ writes s.users io
  keep : ¬ writes s.users i
  bool : i ∉ k.boolSyms
  noBrk : s.noBrk = true

namespace Tile
variable {E : Env} {io : String} {T : Nat} {i : String} {a : Expr} {k : Cond} {u : Expr} {s : Seq}

/-- advance the loop variable -/
def up (i : String) (σ : St) : St := σ.setS i (σ i [] + 1)
/-- advance the tile variable -/
def uo (io : String) (T : Nat) (τ : St) : St := τ.setS io (τ io [] + T)
/-- condition of the outer loop -/
def bo (E : Env) (io i : String) (k : Cond) (τ : St) : Bool := (τ.setS i (τ io [])).cond E k
/-- condition of the inner loop -/
def bi (E : Env) (io : String) (T : Nat) (i : String) (k : Cond) (τ : St) : Bool := decide (τ i [] < τ io [] + T) && τ.cond E k
/-- the original loop after initialisation -/
def orig (E : Env) (i : String) (k : Cond) (s : Seq) : Rel := Rel.iter (fun σ => σ.cond E k) (up i) (s.den E)
/-- the inner loop after initialisation -/
def inner (E : Env) (io : String) (T : Nat) (i : String) (k : Cond) (s : Seq) : Rel :=
  Rel.iter (bi E io T i k) (up i) (s.den E)
/-- body of the outer loop -/
def body (E : Env) (io : String) (T : Nat) (i : String) (k : Cond) (s : Seq) : Rel :=
  fun τ => inner E io T i k s (τ.setS i (τ io []))
/-- the outer loop after initialisation -/
def outer (E : Env) (io : String) (T : Nat) (i : String) (k : Cond) (s : Seq) : Rel :=
  Rel.iter (bo E io i k) (uo io T) (body E io T i k s)
/-- the rest of the nest from inside a tile -/
def inside (E : Env) (io : String) (T : Nat) (i : String) (k : Cond) (s : Seq) : Rel :=
  Rel.seq (inner E io T i k s) (fun τ => outer E io T i k s (uo io T τ))

abbrev Ag (io : String) := AgreeS (fun x => x = io)

theorem outer_true {τ τ' : St} {c : Ctl} (h : bo E io i k τ = true) :
    outer E io T i k s τ c τ' ↔ inside E io T i k s (τ.setS i (τ io [])) c τ' := by
  constructor
  · intro hr
    cases hr with
    | done h' => rw [h] at h'; simp at h'
    | step kk _ h1 h2 h3 =>
      have := Rel.iter_proper h1
      rcases h2 with rfl | rfl
      · exact Or.inl ⟨_, h1, h3⟩
      · simp [Ctl.proper] at this
    | stop _ h1 => have := Rel.iter_proper h1; simp [Ctl.proper] at this
    | ret d q _ h1 => exact Or.inr ⟨by simp, h1⟩
  · rintro (⟨τ1, h1, h2⟩ | ⟨hc, h1⟩)
    · exact .step .normal h h1 (Or.inl rfl) h2
    · have := Rel.iter_proper h1
      cases c with
      | normal => simp at hc
      | brk => simp [Ctl.proper] at this
      | cont => simp [Ctl.proper] at this
      | ret d q => exact .ret d q h h1

theorem outer_false {τ τ' : St} {c : Ctl} (h : bo E io i k τ = false) :
    outer E io T i k s τ c τ' ↔ c = .normal ∧ τ' = τ := by
  constructor
  · intro hr
    cases hr with
    | done h' => exact ⟨rfl, rfl⟩
    | step _ h' _ _ _ => rw [h] at h'; simp at h'
    | stop h' _ => rw [h] at h'; simp at h'
    | ret _ _ h' _ => rw [h] at h'; simp at h'
  · rintro ⟨rfl, rfl⟩; exact .done h

theorem inside_step {τ τ1 τ' : St} {c kk : Ctl} (h : bi E io T i k τ = true) (h1 : s.den E τ kk τ1) (hk : kk = .normal ∨ kk = .cont)
    (h2 : inside E io T i k s (up i τ1) c τ') : inside E io T i k s τ c τ' := by
  rcases h2 with ⟨τ2, h2, h3⟩ | ⟨hc, h2⟩
  · exact Or.inl ⟨τ2, .step kk h h1 hk h2, h3⟩
  · exact Or.inr ⟨hc, .step kk h h1 hk h2⟩

theorem setS_eta (τ : St) (x : String) (v : Int) (h : τ x [] = v) : τ.setS x v = τ := by rw [← h]; exact St.setS_self τ x

theorem setS_setS (τ : St) (x : String) (v w : Int) : (τ.setS x v).setS x w = τ.setS x w := by
  funext y j; simp only [St.setS, St.set]; split <;> rfl

theorem setS_comm (τ : St) {x y : String} (h : x ≠ y) (v w : Int) : (τ.setS x v).setS y w = (τ.setS y w).setS x v := by
  funext z j
  simp only [St.setS, St.set]
  by_cases h1 : z = x ∧ j = [] <;> by_cases h2 : z = y ∧ j = [] <;> simp only [h1, h2, if_true, if_false]
  · exact absurd (h1.1.symm.trans h2.1) h
  all_goals simp_all

/-- the condition does not see the tile variable -/
theorem cond_ag (hio : io ∉ k.atoms) {σ τ : St} (h : Ag io σ τ) : σ.cond E k = τ.cond E k :=
  h.cond E fun x hx he => hio (he ▸ hx)

/-- if the condition fails at the current index it fails at the next tile -/
theorem bo_next (O : TileOk E io i a k u s) {τ : St} (hle : τ i [] ≤ τ io [] + T) (h : τ.cond E k = false) :
    bo E io i k (uo io T τ) = false := by
  by_contra hc
  have hc : bo E io i k (uo io T τ) = true := by simpa using hc
  unfold bo uo at hc
  rw [St.setS_same] at hc
  have h1 := O.down _ (τ i []) _ hle hc
  have h2 : ((τ.setS io (τ io [] + T)).setS i (τ i [])).cond E k = τ.cond E k := by
    rw [setS_comm τ O.ne, setS_eta τ i _ rfl]
    refine (cond_ag O.freshK ?_).symm
    exact (AgreeS.refl (fun x => x = io) τ).setS_right rfl _
  rw [h2, h] at h1; simp at h1

/-- at the end of a tile the condition at the current index is that of the next tile -/
theorem bo_here (O : TileOk E io i a k u s) {τ : St} (he : τ i [] = τ io [] + T) :
    bo E io i k (uo io T τ) = τ.cond E k := by
  unfold bo uo
  rw [St.setS_same, setS_comm τ O.ne, setS_eta τ i _ he]
  refine (cond_ag O.freshK ?_).symm
  exact (AgreeS.refl (fun x => x = io) τ).setS_right rfl _

theorem body_bis (O : TileOk E io i a k u s) : Rel.bis (Ag io) (s.den E) (s.den E) :=
  s.agreeS E _ fun x hx => by rw [hx]; exact O.freshR

theorem keep_i (O : TileOk E io i a k u s) {σ σ' : St} {c : Ctl} (h : s.den E σ c σ') : σ' i = σ i :=
  Seq.frame_inv E i (σ i) s O.keep σ c σ' rfl h
theorem keep_io (O : TileOk E io i a k u s) {σ σ' : St} {c : Ctl} (h : s.den E σ c σ') : σ' io = σ io :=
  Seq.frame_inv E io (σ io) s O.freshW σ c σ' rfl h

theorem ag_up (O : TileOk E io i a k u s) {σ τ : St} (h : Ag io σ τ) : Ag io (up i σ) (up i τ) := by
  unfold up
  rw [h i [] (fun he => absurd he (Ne.symm O.ne))]
  exact (h.setS _ _).mono fun x hx => hx.1

theorem ag_i (O : TileOk E io i a k u s) {σ τ : St} (h : Ag io σ τ) : σ i [] = τ i [] :=
  h i [] (fun he => absurd he (Ne.symm O.ne))

/-- from a state inside a tile (or at its end) the nest does what the original loop does -/
theorem forward (O : TileOk E io i a k u s) (hT : 0 < T) {σ σ' : St} {c : Ctl} (hr : orig E i k s σ c σ') :
    ∀ τ, Ag io σ τ → τ i [] ≤ τ io [] + T → ∃ τ', inside E io T i k s τ c τ' ∧ Ag io σ' τ' := by
  -- an iteration can be started inside a tile
  have start : ∀ (σ τ : St) (P : St → Prop), σ.cond E k = true → Ag io σ τ → τ i [] ≤ τ io [] + T →
      (∀ τ2, Ag io σ τ2 → τ2 i [] < τ2 io [] + T → ∃ τ', inside E io T i k s τ2 c τ' ∧ P τ') →
      ∃ τ', inside E io T i k s τ c τ' ∧ P τ' := by
    intro σ τ P hb hA hle hgo
    by_cases hlt : τ i [] < τ io [] + T
    · exact hgo τ hA hlt
    · have he : τ i [] = τ io [] + T := by omega
      have h2 : (uo io T τ) i [] = (uo io T τ) io [] := by
        unfold uo; rw [St.setS_same, St.setS_other _ _ (Ne.symm O.ne), he]
      obtain ⟨τ', h3, h4⟩ := hgo (uo io T τ) (hA.setS_right rfl _) (by rw [h2]; omega)
      refine ⟨τ', Or.inl ⟨τ, .done ?_, ?_⟩, h4⟩
      · simp [bi, he]
      · show outer E io T i k s (uo io T τ) c τ'
        rw [outer_true, setS_eta _ _ _ h2]
        · exact h3
        · rw [bo_here O he, ← cond_ag O.freshK hA, hb]
  induction hr with
  | @done σ hb =>
    intro τ hA hle
    refine ⟨uo io T τ, Or.inl ⟨τ, .done ?_, ?_⟩, hA.setS_right rfl _⟩
    · rw [cond_ag O.freshK hA] at hb; simp [bi, hb]
    · show outer E io T i k s (uo io T τ) _ _
      rw [outer_false (bo_next O hle (by rw [← cond_ag O.freshK hA]; exact hb))]
      exact ⟨rfl, rfl⟩
  | @step σ σ1 c σ2 kk hb hR hk _ ih =>
    intro τ hA hle
    refine start σ τ _ hb hA hle fun τ2 hA2 hlt => ?_
    obtain ⟨τ3, h3, hA3⟩ := (body_bis O).1 _ _ _ _ hA2 hR
    have e1 : τ3 i [] = τ2 i [] := by rw [keep_i O h3]
    have e2 : τ3 io [] = τ2 io [] := by rw [keep_io O h3]
    obtain ⟨τ', h4, h5⟩ := ih start (up i τ3) (ag_up O hA3) (by
      unfold up; rw [St.setS_same, St.setS_other _ _ O.ne, e1, e2]; omega)
    refine ⟨τ', inside_step ?_ h3 hk h4, h5⟩
    rw [cond_ag O.freshK hA2] at hb; simp [bi, hb, hlt]
  | stop _ hR => exact absurd hR (s.noBrk_den E O.noBrk _ _)
  | @ret σ σ1 d q hb hR =>
    intro τ hA hle
    refine start σ τ _ hb hA hle fun τ2 hA2 hlt => ?_
    obtain ⟨τ3, h3, hA3⟩ := (body_bis O).1 _ _ _ _ hA2 hR
    refine ⟨τ3, Or.inr ⟨by simp, .ret d q ?_ h3⟩, hA3⟩
    rw [cond_ag O.freshK hA2] at hb; simp [bi, hb, hlt]

/-- an execution of the inner loop is a part of the original loop's -/
theorem inner_orig (O : TileOk E io i a k u s) {τ τ1 : St} {c : Ctl} (hr : inner E io T i k s τ c τ1) :
    ∀ σ, Ag io σ τ → τ i [] ≤ τ io [] + T →
      (c = .normal → ∃ σ1, Ag io σ1 τ1 ∧ τ1 i [] ≤ τ1 io [] + T ∧ bi E io T i k τ1 = false ∧
        ∀ c σ', orig E i k s σ1 c σ' → orig E i k s σ c σ') ∧
      (c ≠ .normal → ∃ σ', orig E i k s σ c σ' ∧ Ag io σ' τ1) := by
  induction hr with
  | @done τ hb =>
    intro σ hA hle
    exact ⟨fun _ => ⟨σ, hA, hle, hb, fun _ _ h => h⟩, fun h => absurd rfl h⟩
  | @step τ τ1 c τ2 kk hb hR hk _ ih =>
    intro σ hA hle
    simp only [bi, Bool.and_eq_true, decide_eq_true_eq] at hb
    obtain ⟨σ1, h1, hA1⟩ := (body_bis O).2 _ _ _ _ hA hR
    have hb' : σ.cond E k = true := by rw [cond_ag O.freshK hA]; exact hb.2
    obtain ⟨ih1, ih2⟩ := ih (up i σ1) (ag_up O hA1) (by
      unfold up; rw [St.setS_same, St.setS_other _ _ O.ne, keep_i O hR, keep_io O hR]; omega)
    constructor
    · intro hc
      obtain ⟨σm, g1, g2, g3, g4⟩ := ih1 hc
      exact ⟨σm, g1, g2, g3, fun c σ' h => .step kk hb' h1 hk (g4 c σ' h)⟩
    · intro hc
      obtain ⟨σ', g1, g2⟩ := ih2 hc
      exact ⟨σ', .step kk hb' h1 hk g1, g2⟩
  | stop _ hR => exact absurd hR (s.noBrk_den E O.noBrk _ _)
  | @ret τ τ1 d q hb hR =>
    intro σ hA hle
    simp only [bi, Bool.and_eq_true, decide_eq_true_eq] at hb
    obtain ⟨σ1, h1, hA1⟩ := (body_bis O).2 _ _ _ _ hA hR
    exact ⟨fun h => by simp at h, fun _ => ⟨σ1, .ret d q (by rw [cond_ag O.freshK hA]; exact hb.2) h1, hA1⟩⟩

/-- the outer loop, entered at the original loop's index, does what the original loop does -/
theorem backward (O : TileOk E io i a k u s) {τ τ' : St} {c : Ctl} (hr : outer E io T i k s τ c τ') :
    ∀ σ, Ag io σ τ → τ i [] = τ io [] → ∃ σ', orig E i k s σ c σ' ∧ Ag io σ' τ' := by
  induction hr with
  | @done τ hb =>
    intro σ hA he
    refine ⟨σ, .done ?_, hA⟩
    unfold bo at hb
    rw [setS_eta τ i _ he] at hb
    rw [cond_ag O.freshK hA]; exact hb
  | @step τ τ1 c τ2 kk hb hR hk htail ih =>
    intro σ hA he
    have hR' : inner E io T i k s τ kk τ1 := by
      have := hR; unfold body at this; rwa [setS_eta τ i _ he] at this
    have hn : kk = .normal := by
      have := Rel.iter_proper hR'
      rcases hk with rfl | rfl
      · rfl
      · simp [Ctl.proper] at this
    obtain ⟨g, _⟩ := inner_orig O hR' σ hA (by omega)
    obtain ⟨σm, g1, g2, g3, g4⟩ := g hn
    by_cases hc : τ1.cond E k = true
    · have hlt : ¬ τ1 i [] < τ1 io [] + T := by
        intro h; simp [bi, hc, h] at g3
      have e : τ1 i [] = τ1 io [] + T := by omega
      obtain ⟨σ', h1, h2⟩ := ih σm (g1.setS_right rfl _) (by
        unfold uo; rw [St.setS_same, St.setS_other _ _ (Ne.symm O.ne), e])
      exact ⟨σ', g4 _ _ h1, h2⟩
    · have hc : τ1.cond E k = false := by simpa using hc
      have hbo := bo_next O g2 hc
      obtain ⟨rfl, rfl⟩ := (outer_false hbo).1 htail
      exact ⟨σm, g4 _ _ (.done (by rw [cond_ag O.freshK g1]; exact hc)), g1.setS_right rfl _⟩
  | stop hb hR => have := Rel.iter_proper hR; simp [Ctl.proper] at this
  | @ret τ τ1 d q hb hR =>
    intro σ hA he
    have hR' : inner E io T i k s τ (.ret d q) τ1 := by
      have := hR; unfold body at this; rwa [setS_eta τ i _ he] at this
    exact (inner_orig O hR' σ hA (by omega)).2 (by simp)

/-- meaning of the original loop -/
theorem den_orig (O : TileOk E io i a k u s) (m : Bool) :
    (Node.loop m i a k u s).den E = fun σ => orig E i k s (σ.setS i (σ.ev E a)) := by
  rw [Node.den, Rel.upd_seq]
  have : (fun σ : St => σ.setS i (σ.ev E u)) = up i := by funext σ; rw [up, O.step]
  rw [this]; rfl

/-- meaning of the tiled nest -/
theorem den_tile (O : TileOk E io i a k u s) (m : Bool) :
    (tile io T m i a k s).den E = fun τ => outer E io T i k s (τ.setS io (τ.ev E a)) := by
  unfold tile tileInner
  rw [Node.den, Rel.upd_seq]
  have hlit : ∀ (τ : St) (x : String) (n : Int), τ.ev E (.add [.sym x, .int n]) = τ x [] + n := by
    intro τ x n
    have := stride_correct E τ x (.add [.sym x, .int n]) n (by simp [loopStride])
    exact this
  have e1 : (fun τ : St => τ.cond E (k.subs (.sym i) (.sym io))) = bo E io i k := by
    funext τ
    have hs : Subst E i (.sym io) (τ.setS i (τ io [])) τ := by
      refine ⟨fun z hz => St.setS_other _ _ hz, ?_⟩
      rw [St.setS_same]; simp [Expr.eval, St.val]
    exact (hs.cond k O.bool).symm
  have e2 : (fun τ : St => τ.setS io (τ.ev E (.add [.sym io, .int T]))) = uo io T := by
    funext τ; rw [hlit]; rfl
  have e3 : (fun τ : St => τ.setS i (τ.ev E (.add [.sym i, .int 1]))) = up i := by
    funext τ; rw [hlit]; rfl
  have e4 : (fun τ : St => τ.cond E (.and [.lt (.sym i) (.add [.sym io, .int T]), k])) = bi E io T i k := by
    funext τ
    have h1 := hlit τ io T
    have h2 := ev_sym E τ i
    simp [St.cond, Cond.eval, Cond.evalAll, bi, h1, h2]
  have er : Rel.upd (runTrans E []) = Rel.upd id := rfl
  have e5 : (Seq.cons (.loop m i (.sym io) (.and [.lt (.sym i) (.add [.sym io, .int T]), k]) (.add [.sym i, .int 1]) s) [] .nil).den E
      = body E io T i k s := by
    rw [Seq.den, Seq.den, er, Rel.skip_seq, Rel.seq_skip, Node.den, Rel.upd_seq, e3, e4]
    funext τ c τ'
    rw [ev_sym]; rfl
  rw [e1, e2, e5]; rfl

end Tile

/-- **C19** (partial): tiling a loop with update `i + 1`, a downward closed condition, a body that does not write `i` and does not
break out of the loop, with a fresh tile variable.  From memories that agree except for the tile variable, every
terminating execution of the loop corresponds to one of the nest and conversely, with the same outcome, and the final
memories agree except for the tile variable and, if the loop is not entered, the loop variable. -/
theorem tiling_preserves_partial (E : Env) (io : String) (T : Nat) (hT : 0 < T) (m : Bool) (i : String) (a : Expr) (k : Cond)
    (u : Expr) (s : Seq) (O : TileOk E io i a k u s) (σ τ : St) (hA : AgreeS (fun x => x = io) σ τ) :
    (∀ c σ', (Node.loop m i a k u s).den E σ c σ' → ∃ τ', (tile io T m i a k s).den E τ c τ' ∧
      AgreeS (fun x => x = io ∨ (x = i ∧ (σ.setS i (σ.ev E a)).cond E k = false)) σ' τ') ∧
    (∀ c τ', (tile io T m i a k s).den E τ c τ' → ∃ σ', (Node.loop m i a k u s).den E σ c σ' ∧
      AgreeS (fun x => x = io ∨ (x = i ∧ (σ.setS i (σ.ev E a)).cond E k = false)) σ' τ') := by
  rw [Tile.den_orig O, Tile.den_tile O]
  have ha : σ.ev E a = τ.ev E a := hA.ev E fun x hx he => O.freshA (he ▸ hx)
  simp only [← ha]
  generalize hv : σ.ev E a = v
  have hb : Tile.bo E io i k (τ.setS io v) = (σ.setS i v).cond E k := by
    unfold Tile.bo
    rw [St.setS_same, Tile.setS_comm τ O.ne]
    refine (Tile.cond_ag O.freshK ?_).symm
    exact AgreeS.setS_right (X := fun x => x = io) ((hA.setS i v).mono fun x hx => hx.1) rfl _
  have hA2 : Tile.Ag io (σ.setS i v) ((τ.setS io v).setS i v) := by
    rw [Tile.setS_comm τ O.ne]
    exact AgreeS.setS_right (X := fun x => x = io) ((hA.setS i v).mono fun x hx => hx.1) rfl _
  have hst : ((τ.setS io v).setS i v) i [] = v := St.setS_same _ _ _
  have hst2 : ((τ.setS io v).setS i v) io [] = v := by rw [St.setS_other _ _ O.ne, St.setS_same]
  by_cases hc : (σ.setS i v).cond E k = true
  · rw [hc] at hb
    have hout : ∀ c τ', Tile.outer E io T i k s (τ.setS io v) c τ' ↔ Tile.inside E io T i k s ((τ.setS io v).setS i v) c τ' := by
      intro c τ'; rw [Tile.outer_true hb, St.setS_same]
    constructor
    · intro c σ' hr
      obtain ⟨τ', h1, h2⟩ := Tile.forward O hT hr _ hA2 (by rw [hst, hst2]; omega)
      exact ⟨τ', (hout c τ').2 h1, h2.mono fun x hx => Or.inl hx⟩
    · intro c τ' hr
      have hb2 : Tile.bo E io i k ((τ.setS io v).setS i v) = true := by
        have : ((τ.setS io v).setS i v).setS i v = (τ.setS io v).setS i v := Tile.setS_setS _ _ _ _
        rw [← hb]; unfold Tile.bo
        rw [hst2, this, St.setS_same]
      have hr' : Tile.outer E io T i k s ((τ.setS io v).setS i v) c τ' := by
        rw [Tile.outer_true hb2, hst2, Tile.setS_setS]; exact (hout c τ').1 hr
      obtain ⟨σ', h1, h2⟩ := Tile.backward O hr' _ hA2 (by rw [hst, hst2])
      exact ⟨σ', h1, h2.mono fun x hx => Or.inl hx⟩
  · have hc : (σ.setS i v).cond E k = false := by simpa using hc
    rw [hc] at hb
    have hfin : AgreeS (fun x => x = io ∨ (x = i ∧ (σ.setS i v).cond E k = false)) (σ.setS i v) (τ.setS io v) := by
      refine AgreeS.setS_left (AgreeS.setS_right (hA.mono fun x hx => Or.inl hx) (Or.inl rfl) v) (Or.inr ⟨rfl, hc⟩) v
    constructor
    · intro c σ' hr
      cases hr with
      | done _ => exact ⟨_, (Tile.outer_false hb).2 ⟨rfl, rfl⟩, hfin⟩
      | step _ h' _ _ _ => rw [hc] at h'; simp at h'
      | stop h' _ => rw [hc] at h'; simp at h'
      | ret _ _ h' _ => rw [hc] at h'; simp at h'
    · intro c τ' hr
      obtain ⟨rfl, rfl⟩ := (Tile.outer_false hb).1 hr
      exact ⟨_, .done hc, hfin⟩

/-- For updates with integer coefficients acceptance by `can_be_applied` implies that the update adds one. -/
theorem canTile_step (E : Env) (P : PolyEngine) (hP : ∀ ρ, P.Sound ρ) (hN : P.NormSound) (A : Assums) (T : Nat) (i : String)
    (u : Expr) (hi : i ≠ constName) (hlen : ∀ D, P.poly u [i] = some D → ∀ t ∈ D, t.1.length = 1)
    (hint : ∀ D c, P.poly u [i] = some D → affineCoefficients D [i] = some c →
      (∃ n, (c.at' i).intSum = some n) ∧ ∃ n, (c.at' constName).intSum = some n)
    (h : canTile P A T i u = true) (σ : St) (hd : σ.defd E u) : 1 < T ∧ σ.ev E u = σ i [] + 1 := by
  simp only [canTile, Bool.and_eq_true, Bool.not_eq_true', decide_eq_false_iff_not, Nat.not_le] at h
  exact ⟨h.1, is_contiguous_partial P _ (hP _) hN A u i hi hlen hint h.2 _ (St.eval_of_defd hd)⟩

/-- A condition with a canonical bound that does not mention the loop variable is downward closed. -/
theorem downClosed_of_lt (E : Env) (i : String) (e : Expr) (h : i ∉ e.atoms) : DownClosed E i (.lt (.sym i) e) := by
  intro σ v w hvw hw
  have he : ∀ v, (σ.setS i v).ev E e = σ.ev E e := fun v => St.ev_congr E fun x hx => by
    rw [St.setS_other]; rintro rfl; exact h hx
  simp only [St.cond, Cond.eval, ev_sym, St.setS_same, he, decide_eq_true_eq] at hw ⊢
  omega

/-- the loop `for (i = 0; c; i = i + 1) { body; A[i] := A[i] + B[i] }` -/
def exTileBody (pre : Node) : Seq := .cons pre [] (.one (.block [.tasklet "+" [("A", [.sym "i"]), ("B", [])] "A" [.sym "i"]]))
/-- the original loop -/
def exTileLoop (k : Cond) (pre : Node) : Node := .loop false "i" (.int 0) k (.add [.sym "i", .int 1]) (exTileBody pre)

/-- hypotheses of `tiling_preserves_partial` for `i < N`; the transformation accepts it -/
example : TileOk exEnv "i_tile0" "i" (.int 0) (.lt (.sym "i") (.sym "N")) (.add [.sym "i", .int 1]) (exTileBody (.block [])) ∧
    canTile exSeries (fun _ => none) 4 "i" (.add [.sym "i", .int 1]) = true := by
  refine ⟨⟨fun σ => stride_correct exEnv σ "i" _ 1 (by simp [loopStride]), downClosed_of_lt _ _ _ (by simp [Expr.atoms]),
    by decide, by decide, by decide, by decide, by decide, by decide, by decide, by decide⟩, by decide⟩

/-- **C19 fails** for conditions that are not downward closed, which `can_be_applied` accepts: `i != 3 && i < 8` stops at 3; tiled by 2,
the tiles starting at 4 and 6 are executed too. -/
theorem tiling_ne_violated : ∃ (E : Env) (σ σ' : St) (k : Cond),
    canTile exSeries (fun _ => none) 2 "i" (.add [.sym "i", .int 1]) = true ∧
    (exTileLoop k (.block [])).den E σ .normal σ' ∧
    ∀ c τ', (tile "i_tile0" 2 false "i" (.int 0) k (exTileBody (.block []))).den E σ c τ' → τ' "A" [4] ≠ σ' "A" [4] := by
  obtain ⟨σ', h1, h2⟩ := Node.run_obs (E := exEnv) (σ := fun x _ => if x = "B" then 1 else 0) 30 (x := "A") (j := [4])
    (c := .normal) (v := 0) (s := exTileLoop (.and [.ne (.sym "i") (.int 3), .lt (.sym "i") (.int 8)]) (.block [])) (by decide)
  refine ⟨exEnv, _, σ', _, by decide, h1, ?_⟩
  intro c τ' h
  have := (Node.run_obs_all 30 (x := "A") (j := [4]) (c := .normal) (v := 1) (by decide) h).2
  rw [this, h2]; decide

/-- **C19 fails** for bodies that break out of the loop: `for (i = 0; i < 4; i++) { if (i = 1) break; A[i] += B }` stops at 1;
the nest only leaves the tile and goes on at 2. -/
theorem tiling_break_violated : ∃ (E : Env) (σ σ' : St) (pre : Node),
    canTile exSeries (fun _ => none) 2 "i" (.add [.sym "i", .int 1]) = true ∧
    (exTileLoop (.lt (.sym "i") (.int 4)) pre).den E σ .normal σ' ∧
    ∀ c τ', (tile "i_tile0" 2 false "i" (.int 0) (.lt (.sym "i") (.int 4)) (exTileBody pre)).den E σ c τ' →
      τ' "A" [2] ≠ σ' "A" [2] := by
  obtain ⟨σ', h1, h2⟩ := Node.run_obs (E := exEnv) (σ := fun x _ => if x = "B" then 1 else 0) 30 (x := "A") (j := [2])
    (c := .normal) (v := 0) (s := exTileLoop (.lt (.sym "i") (.int 4))
      (.ifElse (.cons (.eq (.sym "i") (.int 1)) (.one .brk) .nil))) (by decide)
  refine ⟨exEnv, _, σ', _, by decide, h1, ?_⟩
  intro c τ' h
  have := (Node.run_obs_all 30 (x := "A") (j := [2]) (c := .normal) (v := 1) (by decide) h).2
  rw [this, h2]; decide

/-- **C19 fails** for symbolic strides: with the assumption `N >= 1`, `can_be_applied` accepts the update `i + N`; the nest advances
by one. -/
theorem tiling_stride_violated : ∃ (E : Env) (σ σ' : St),
    canTile exSeries exSeriesA 2 "i" (.add [.sym "i", .sym "N"]) = true ∧ exSeriesA.Hold (σ.val E) ∧
    (Node.loop false "i" (.int 0) (.lt (.sym "i") (.int 4)) (.add [.sym "i", .sym "N"]) (exTileBody (.block []))).den E σ .normal σ' ∧
    ∀ c τ', (tile "i_tile0" 2 false "i" (.int 0) (.lt (.sym "i") (.int 4)) (exTileBody (.block []))).den E σ c τ' →
      τ' "A" [1] ≠ σ' "A" [1] := by
  obtain ⟨σ', h1, h2⟩ := Node.run_obs (E := exEnv) (σ := fun x _ => if x = "B" then 1 else if x = "N" then 2 else 0) 30
    (x := "A") (j := [1]) (c := .normal) (v := 0) (s := .loop false "i" (.int 0) (.lt (.sym "i") (.int 4))
      (.add [.sym "i", .sym "N"]) (exTileBody (.block []))) (by decide)
  refine ⟨exEnv, _, σ', by decide, ?_, h1, ?_⟩
  · intro x a ha
    simp only [exSeriesA] at ha
    split at ha
    · rename_i hx; subst hx
      simp only [Option.some.injEq] at ha; subst ha
      simp [Expr.eval, V.le_def, V.le, St.val]
    · split at ha
      · rename_i hx; subst hx
        simp only [Option.some.injEq] at ha; subst ha
        simp [Expr.eval, V.le_def, V.le, St.val]
      · simp at ha
  · intro c τ' h
    have := (Node.run_obs_all 30 (x := "A") (j := [1]) (c := .normal) (v := 1) (by decide) h).2
    rw [this, h2]; decide

end Docc.IR
