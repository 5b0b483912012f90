import Verif.IR.Evolution
import Verif.IR.WhileToForProps
import Verif.IR.TilingProps
import Verif.IR.LoopInfoProps
import Verif.Sym.PolyProps

/-
C63: SymbolEvolution.
-/
namespace Docc.IR
open Docc.Sym

/-! ### one iteration -/

theorem Seq.splitWrite_eq (x : String) : (s : Seq) → ∀ {s1 : Seq} {n : Node} {t : Trans} {s2 : Seq}, s.splitWrite x = some (s1, n, t, s2) →
    s = s1 ++ .cons n t s2 ∧ s.users = s1.users ++ (n.users ++ transUsers t ++ s2.users)
  | .nil, _, _, _, _, h => by simp [Seq.splitWrite] at h
  | .cons m tm r, s1, n, t, s2, h => by
    rw [Seq.splitWrite] at h
    split at h
    · simp at h
    · rename_i hm
      split at h
      · simp only [Option.some.injEq, Prod.mk.injEq] at h
        obtain ⟨rfl, rfl, rfl, rfl⟩ := h
        refine ⟨rfl, ?_⟩
        simp [Seq.users, hm]
      · cases hr : r.splitWrite x with
        | none => simp [hr] at h
        | some q =>
          obtain ⟨a, b, c, d⟩ := q
          simp only [hr, Option.some.injEq, Prod.mk.injEq] at h
          obtain ⟨rfl, rfl, rfl, rfl⟩ := h
          obtain ⟨h1, h2⟩ := Seq.splitWrite_eq x r hr
          refine ⟨by rw [Seq.cons_append, ← h1], ?_⟩
          simp [Seq.users, hm, h2, List.append_assoc]

/-- erasing an entry nobody else reads: everything else is assigned as before -/
theorem runTrans_erase (E : Env) (t : Trans) (hI : Indep t) (x : String) (e : Expr) (hm : (x, e) ∈ t) (σ : St) :
    AgreeS (· = x) (runTrans E t σ) (runTrans E (t.filter fun a => a.1 != x) σ) ∧ runTrans E t σ x [] = σ.ev E e ∧
      runTrans E (t.filter fun a => a.1 != x) σ x = σ x := by
  have hI' : Indep (t.filter fun a => a.1 != x) :=
    ⟨hI.1.sublist (List.filter_sublist.map _), fun a ha b hb => hI.2 a (List.mem_of_mem_filter ha) b (List.mem_of_mem_filter hb)⟩
  have hn : runTrans E (t.filter fun a => a.1 != x) σ x = σ x :=
    runTrans_notin E _ σ x fun a ha => by simpa using (List.mem_filter.1 ha).2
  refine ⟨?_, runTrans_mem E t σ hI (x, e) hm, hn⟩
  intro y j hj
  by_cases hy : j = []
  · subst hy
    have hyx : y ≠ x := fun h => hj h rfl
    by_cases hex : ∃ a ∈ t, a.1 = y
    · obtain ⟨a, ha, rfl⟩ := hex
      rw [runTrans_mem E t σ hI a ha, runTrans_mem E _ σ hI' a (List.mem_filter.2 ⟨ha, by simpa using hyx⟩)]
    · have h1 : ∀ a ∈ t, a.1 ≠ y := fun a ha h => hex ⟨a, ha, h⟩
      rw [runTrans_notin E t σ y h1, runTrans_notin E _ σ y fun a ha => h1 a (List.mem_of_mem_filter ha)]
  · rw [runTrans_index E _ _ _ _ hy, runTrans_index E _ _ _ _ hy]

/-- What one run of the body from `τ` leaves: the memories agree except for `x`, which holds the updated value on one side and still
its value at the start on the other; what the body does not write is unchanged. -/
def EvoPost (E : Env) (B : Seq) (x : String) (xu : Expr) (τ τ1 τ1' : St) : Prop :=
  AgreeS (· = x) τ1 τ1' ∧ τ1 x [] = τ.ev E xu ∧ τ1' x [] = τ x [] ∧ ∀ y, ¬ writes B.users y → τ1 y = τ y

theorem evo_core (E : Env) {B s1 : Seq} {n : Node} {t : Trans} {s2 : Seq} {x : String} {xu : Expr}
    (hB : B = s1 ++ .cons n t s2) (hU : B.users = s1.users ++ (n.users ++ transUsers t ++ s2.users)) (hI : Indep t) (hm : (x, xu) ∈ t)
    (hw1 : ¬ writes s1.users x) (hwn : ¬ writes n.users x) (hw2 : ¬ writes s2.users x) (hr2 : ¬ reads s2.users x)
    (hxu : ∀ y ∈ xu.atoms, y ≠ x → ¬ writes B.users y) (τ : St) (c : Ctl) :
    (∀ τ1, B.den E τ c τ1 → ∃ τ1', (s1 ++ .cons n (t.filter fun a => a.1 != x) s2).den E τ c τ1' ∧ (c = .normal → EvoPost E B x xu τ τ1 τ1')) ∧
    ∀ τ1', (s1 ++ .cons n (t.filter fun a => a.1 != x) s2).den E τ c τ1' → ∃ τ1, B.den E τ c τ1 ∧ (c = .normal → EvoPost E B x xu τ τ1 τ1') := by
  have hbis : Rel.bis (AgreeS (· = x)) (s2.den E) (s2.den E) := s2.agreeS E (· = x) fun y hy => by subst hy; exact hr2
  have key : ∀ τa τb τc τc', s1.den E τ .normal τa → n.den E τa .normal τb → s2.den E (runTrans E t τb) c τc →
      s2.den E (runTrans E (t.filter fun a => a.1 != x) τb) c τc' → AgreeS (· = x) τc τc' → B.den E τ c τc → EvoPost E B x xu τ τc τc' := by
    intro τa τb τc τc' h1 h2 h3 h3' hA hden
    obtain ⟨_, e2, e3⟩ := runTrans_erase E t hI x xu hm τb
    have hx1 : τb x = τ x := by
      have a1 := s1.frame_inv E x (τ x) hw1 _ _ _ rfl h1
      have a2 := n.frame_inv E x (τ x) hwn _ _ _ a1 h2
      exact a2
    have hy1 : ∀ y, ¬ writes B.users y → τb y = τ y := by
      intro y hy
      rw [hU, writes_append, writes_append, writes_append, not_or, not_or, not_or] at hy
      have a1 := s1.frame_inv E y (τ y) hy.1 _ _ _ rfl h1
      exact n.frame_inv E y (τ y) hy.2.1.1 _ _ _ a1 h2
    refine ⟨hA, ?_, ?_, ?_⟩
    · have := s2.frame_inv E x _ hw2 _ _ _ rfl h3
      rw [Holds] at this
      rw [this, e2]
      refine St.ev_congr E fun y hy => ?_
      by_cases hyx : y = x
      · subst hyx; rw [hx1]
      · rw [hy1 y (hxu y hy hyx)]
    · have := s2.frame_inv E x _ hw2 _ _ _ rfl h3'
      rw [Holds] at this
      rw [this, e3, hx1]
    · intro y hy
      exact B.frame_inv E y (τ y) hy _ _ _ rfl hden
  have hBd : B.den E = Rel.seq (s1.den E) (Rel.seq (n.den E) (Rel.seq (Rel.upd (runTrans E t)) (s2.den E))) := by
    rw [hB, Seq.den_append, Seq.den]
  rw [Seq.den_append, Seq.den]
  constructor
  · intro τ1 hd
    have hd0 := hd
    rw [hBd] at hd
    obtain ⟨τa, h1, h⟩ | ⟨hc, h⟩ := hd
    · obtain ⟨τb, h2, h⟩ | ⟨hc, h⟩ := h
      · rw [Rel.upd_seq] at h
        obtain ⟨τ1', h3, hA⟩ := hbis.1 _ _ c _ (runTrans_erase E t hI x xu hm τb).1 h
        refine ⟨τ1', Or.inl ⟨τa, h1, Or.inl ⟨τb, h2, by rw [Rel.upd_seq]; exact h3⟩⟩, fun _ => key τa τb τ1 τ1' h1 h2 h h3 hA hd0⟩
      · exact ⟨τ1, Or.inl ⟨τa, h1, Or.inr ⟨hc, h⟩⟩, fun e => absurd e hc⟩
    · exact ⟨τ1, Or.inr ⟨hc, h⟩, fun e => absurd e hc⟩
  · intro τ1' hd
    rw [hBd]
    obtain ⟨τa, h1, h⟩ | ⟨hc, h⟩ := hd
    · obtain ⟨τb, h2, h⟩ | ⟨hc, h⟩ := h
      · rw [Rel.upd_seq] at h
        obtain ⟨τ1, h3, hA⟩ := hbis.1 _ _ c _ (runTrans_erase E t hI x xu hm τb).1.symm h
        have hd0 : Rel.seq (s1.den E) (Rel.seq (n.den E) (Rel.seq (Rel.upd (runTrans E t)) (s2.den E))) τ c τ1 :=
          Or.inl ⟨τa, h1, Or.inl ⟨τb, h2, by rw [Rel.upd_seq]; exact h3⟩⟩
        exact ⟨τ1, hd0, fun _ => key τa τb τ1 τ1' h1 h2 h3 h hA.symm (hBd ▸ hd0)⟩
      · exact ⟨τ1', Or.inl ⟨τa, h1, Or.inr ⟨hc, h⟩⟩, fun e => absurd e hc⟩
    · exact ⟨τ1', Or.inr ⟨hc, h⟩, fun e => absurd e hc⟩

/-! ### the loop -/

/-- `F` describes the symbol `x` in the loop entered in `σ`: the closed form has the value `F i` as long as what the body does not
write is unchanged, and the update takes `F i` to `F` of the next `i`. -/
structure EvoClosed (E : Env) (L : EvoLoop) (x : String) (xu evo : Expr) (σ : St) (P : Int → Prop) (F : Int → Int) : Prop where
  val : ∀ τ : St, (∀ y, ¬ writes L.body.users y → y ≠ L.i → τ y = σ y) → P (τ L.i []) → τ.ev E evo = F (τ L.i [])
  entry : P (σ.ev E L.init) ∧ σ x [] = F (σ.ev E L.init)
  step : ∀ τ : St, (∀ y, ¬ writes L.body.users y → y ≠ L.i → τ y = σ y) → P (τ L.i []) → τ x [] = F (τ L.i []) →
    P (τ.ev E L.upd) ∧ τ.ev E xu = F (τ.ev E L.upd)

/-- the memories at the loop head: equal except for `x`, which is `F i` in the original -/
def EvoHead (L : EvoLoop) (x : String) (σ : St) (P : Int → Prop) (F : Int → Int) (τ τ' : St) : Prop :=
  AgreeS (· = x) τ τ' ∧ (∀ y, ¬ writes L.body.users y → y ≠ L.i → τ y = σ y) ∧ P (τ L.i []) ∧ τ x [] = F (τ L.i [])

/-- Behaviour of a loop body in which every run finishes normally. -/
def Rel.Normal (R : Rel) : Prop := ∀ τ c τ', R τ c τ' → c = .normal

section
variable {E : Env} {L : EvoLoop} {x : String} {xu evo : Expr} {σ : St} {P : Int → Prop} {F : Int → Int}

theorem evo_start (hC : EvoClosed E L x xu evo σ P F) (hxw : writes L.body.users x) (hxi : x ≠ L.i) {τ τ' : St}
    (h : EvoHead L x σ P F τ τ') : τ'.setS x (τ'.ev E evo) = τ := by
  obtain ⟨hA, hK, hP, hF⟩ := h
  have hi : τ' L.i [] = τ L.i [] := (hA L.i [] fun e => absurd e.symm hxi).symm
  have h1 : τ'.ev E evo = τ x [] := by
    rw [hC.val τ' (fun y hy hyi => ?_) (hi ▸ hP), hi, hF]
    rw [← hK y hy hyi]
    exact (hA.off y fun e => hy (e ▸ hxw)).symm
  funext y j
  by_cases hy : y = x ∧ j = []
  · obtain ⟨rfl, rfl⟩ := hy; rw [St.setS_same, h1]
  · simp only [St.setS, St.set, hy, if_false]
    exact (hA y j fun e e' => hy ⟨e, e'⟩).symm

variable {s1 : Seq} {n : Node} {t : Trans} {s2 : Seq}

/-- the side conditions of `evo_core` -/
structure EvoShape (L : EvoLoop) (x : String) (xu : Expr) (s1 : Seq) (n : Node) (t : Trans) (s2 : Seq) : Prop where
  body : L.body = s1 ++ .cons n t s2
  users : L.body.users = s1.users ++ (n.users ++ transUsers t ++ s2.users)
  mem : (x, xu) ∈ t
  w1 : ¬ writes s1.users x
  wn : ¬ writes n.users x
  w2 : ¬ writes s2.users x
  r2 : ¬ reads s2.users x
  atoms : ∀ y ∈ xu.atoms, y ≠ x → ¬ writes L.body.users y
  wx : writes L.body.users x

theorem evo_step (hC : EvoClosed E L x xu evo σ P F) (hS : EvoShape L x xu s1 n t s2) (hxi : x ≠ L.i)
    (hu : ∀ y ∈ L.upd.atoms, y ≠ x ∧ ¬ writes L.body.users y) {τ τ' τ1 τ1' : St}
    (h : EvoHead L x σ P F τ τ') (hp : EvoPost E L.body x xu τ τ1 τ1') :
    EvoHead L x σ P F (τ1.setS L.i (τ1.ev E L.upd)) (τ1'.setS L.i (τ1'.ev E L.upd)) ∧
      (L.i ∉ xu.atoms → (τ1.setS L.i (τ1.ev E L.upd)) x [] = (τ1'.setS L.i (τ1'.ev E L.upd)).ev E xu) := by
  obtain ⟨hA, hK, hP, hF⟩ := h
  obtain ⟨hA1, hx1, hx1', hk1⟩ := hp
  have e1 : τ1.ev E L.upd = τ.ev E L.upd := St.ev_congr E fun y hy => by rw [hk1 y (hu y hy).2]
  have e1' : τ1'.ev E L.upd = τ1.ev E L.upd := (hA1.ev E fun y hy => (hu y hy).1).symm
  obtain ⟨s1', s2'⟩ := hC.step τ hK hP hF
  refine ⟨⟨?_, ?_, ?_, ?_⟩, ?_⟩
  · rw [e1']
    exact (hA1.setS _ _).mono fun y hy => hy.1
  · intro y hy hyi
    rw [St.setS_other _ _ hyi, hk1 y hy, hK y hy hyi]
  · rw [St.setS_same, e1]; exact s1'
  · rw [St.setS_same, St.setS_other _ _ hxi, hx1, e1]; exact s2'
  · intro hni
    rw [St.setS_other _ _ hxi, hx1]
    refine St.ev_congr E fun y hy => ?_
    have hyi : y ≠ L.i := fun e => hni (e ▸ hy)
    rw [St.setS_other _ _ hyi]
    by_cases hyx : y = x
    · subst hyx; exact hx1'.symm
    · rw [← hk1 y (hS.atoms y hy hyx)]
      exact congrFun (hA1.off y hyx) []

/-- the rewritten body -/
abbrev evoBody (x : String) (evo : Expr) (s1 : Seq) (n : Node) (t : Trans) (s2 : Seq) : Seq :=
  .cons (.block []) [(x, evo)] (s1 ++ .cons n (t.filter fun a => a.1 != x) s2)

theorem evoBody_den (E : Env) (τ : St) :
    (evoBody x evo s1 n t s2).den E τ = (s1 ++ .cons n (t.filter fun a => a.1 != x) s2).den E (τ.setS x (τ.ev E evo)) := by
  rw [evoBody, Seq.den, Node.den]
  have : Rel.upd (runBlock E []) = Rel.upd id := rfl
  rw [this, Rel.skip_seq, Rel.upd_seq]
  rfl

theorem evo_iter (hC : EvoClosed E L x xu evo σ P F) (hS : EvoShape L x xu s1 n t s2) (hI : Indep t) (hxi : x ≠ L.i)
    (hu : ∀ y ∈ L.upd.atoms, y ≠ x ∧ ¬ writes L.body.users y) (hc : x ∉ L.cond.atoms)
    (hN : Rel.Normal (L.body.den E)) {τ τ' : St} (h : EvoHead L x σ P F τ τ') (c : Ctl) :
    (∀ τe, Rel.iter (fun σ => σ.cond E L.cond) (fun σ => σ.setS L.i (σ.ev E L.upd)) (L.body.den E) τ c τe → ∃ τe',
      Rel.iter (fun σ => σ.cond E L.cond) (fun σ => σ.setS L.i (σ.ev E L.upd)) ((evoBody x evo s1 n t s2).den E) τ' c τe' ∧
        AgreeS (· = x) τe τe' ∧ c = .normal ∧
        (L.i ∉ xu.atoms → τ.cond E L.cond = true ∨ τ x [] = τ'.ev E xu → τe x [] = τe'.ev E xu)) ∧
    ∀ τe', Rel.iter (fun σ => σ.cond E L.cond) (fun σ => σ.setS L.i (σ.ev E L.upd)) ((evoBody x evo s1 n t s2).den E) τ' c τe' → ∃ τe,
      Rel.iter (fun σ => σ.cond E L.cond) (fun σ => σ.setS L.i (σ.ev E L.upd)) (L.body.den E) τ c τe ∧
        AgreeS (· = x) τe τe' ∧ c = .normal ∧
        (L.i ∉ xu.atoms → τ.cond E L.cond = true ∨ τ x [] = τ'.ev E xu → τe x [] = τe'.ev E xu) := by
  have core := fun τ c => evo_core E (c := c) (τ := τ) hS.body hS.users hI hS.mem hS.w1 hS.wn hS.w2 hS.r2 hS.atoms
  have hcond : ∀ {τ τ' : St}, EvoHead L x σ P F τ τ' → τ.cond E L.cond = τ'.cond E L.cond := fun h =>
    h.1.cond E fun y hy e => hc (e ▸ hy)
  have hN' : ∀ {τ τ' : St} {k τ1'}, EvoHead L x σ P F τ τ' → (evoBody x evo s1 n t s2).den E τ' k τ1' →
      k = .normal ∧ ∃ τ1, L.body.den E τ .normal τ1 ∧ EvoPost E L.body x xu τ τ1 τ1' := by
    intro τ τ' k τ1' h hd
    rw [evoBody_den, evo_start hC hS.wx hxi h] at hd
    obtain ⟨τ1, h1, h2⟩ := (core τ k).2 τ1' hd
    have hk := hN _ _ _ h1
    subst hk
    exact ⟨rfl, τ1, h1, h2 rfl⟩
  constructor
  · intro τe hit
    induction hit generalizing τ' with
    | done hb =>
      refine ⟨τ', .done ((hcond h).symm.trans hb), h.1, rfl, fun hni hg => ?_⟩
      rcases hg with hg | hg
      · rw [hb] at hg; cases hg
      · exact hg
    | step k hb hr hk _ ih =>
      have hk0 := hN _ _ _ hr
      subst hk0
      obtain ⟨τ1', hd, hp⟩ := (core _ .normal).1 _ hr
      obtain ⟨hh, hg⟩ := evo_step hC hS hxi hu h (hp rfl)
      obtain ⟨τe', hi', hA, hc', hg'⟩ := ih hh
      refine ⟨τe', .step .normal ((hcond h).symm.trans hb) ?_ (Or.inl rfl) hi', hA, hc', fun hni _ => hg' hni (Or.inr (hg hni))⟩
      rw [evoBody_den, evo_start hC hS.wx hxi h]; exact hd
    | stop hb hr => exact absurd (hN _ _ _ hr) (by simp)
    | ret d q hb hr => exact absurd (hN _ _ _ hr) (by simp)
  · intro τe' hit
    induction hit generalizing τ with
    | done hb =>
      have hb' := (hcond h).trans hb
      refine ⟨τ, .done hb', h.1, rfl, fun hni hg => ?_⟩
      rcases hg with hg | hg
      · rw [hb'] at hg; cases hg
      · exact hg
    | step k hb hr hk _ ih =>
      obtain ⟨rfl, τ1, hd, hp⟩ := hN' h hr
      obtain ⟨hh, hg⟩ := evo_step hC hS hxi hu h hp
      obtain ⟨τe, hi', hA, hc', hg'⟩ := ih hh
      exact ⟨τe, .step .normal ((hcond h).trans hb) hd (Or.inl rfl) hi', hA, hc', fun hni _ => hg' hni (Or.inr (hg hni))⟩
    | stop hb hr => exact absurd (hN' h hr).1 (by simp)
    | ret d q hb hr => exact absurd (hN' h hr).1 (by simp)
end

/-! ### the closed forms -/

/-- Conditions on a loop entered in `σ` under which the closed form describes `x`, none of which the pass checks, except that the
first excludes jumps out of the body (the pass only checks that the update is a child of the body).
`entry`: `x` holds the value of its initial expression at loop entry; `initial`, `start`: that expression and the start of the loop
variable can be evaluated inside the loop; `head`: the loop head does not depend on `x` or on what the body writes; `stride`: the
loop variable moves; `affine`: the added offset does not depend on the loop variable; `ints`: the symbols of the update are integer
scalars; `simul`: the assignments of the updating transition do not interfere. -/
structure EvoSide (E : Env) (C : EvoCtx) (L : EvoLoop) (x : String) (xi : Expr) (M : EvoMatch) (σ : St) : Prop where
  normal : Rel.Normal (L.body.den E)
  simul : Indep M.t
  entry : σ x [] = σ.ev E xi
  initial : ∀ y ∈ xi.atoms, y ≠ L.i ∧ ¬ writes L.body.users y
  start : ∀ y ∈ L.init.atoms, y ≠ L.i ∧ ¬ writes L.body.users y
  cond : x ∉ L.cond.atoms
  head : x ≠ L.i ∧ ∀ y ∈ L.upd.atoms, y ≠ x ∧ ¬ writes L.body.users y
  ints : ∀ y ∈ M.xu.atoms, C.int y = true
  stride : loopStride L.i L.upd ≠ some 0
  affine : x ∈ M.xu.atoms → L.i ∉ M.xu.atoms
  defd : σ.defd E xi ∧ σ.defd E L.init ∧ ∀ τ : St, (∀ y, ¬ writes L.body.users y → y ≠ L.i → τ y = σ y) →
    τ.defd E M.xu ∧ τ.defd E L.upd

theorem defd_congr {E : Env} {σ τ : St} {e : Expr} (h : ∀ y ∈ e.atoms, σ y [] = τ y []) (hd : σ.defd E e) : τ.defd E e := by
  obtain ⟨n, hn⟩ := hd
  exact ⟨n, by rw [← hn]; exact eval_congr_atoms e _ _ rfl fun y hy => (h y hy).symm⟩

theorem numWrites_append (a b : List User) (x : String) : numWrites (a ++ b) x = numWrites a x + numWrites b x := by
  simp [numWrites, List.count_append]

theorem numWrites_pos {u : List User} {x : String} : writes u x ↔ 0 < numWrites u x := by
  simp [numWrites, writes, List.count_pos_iff]

/-- what the criteria establish -/
theorem evoMatch_shape {G : EvoEngine} {C : EvoCtx} {L : EvoLoop} {x : String} {M : EvoMatch} (h : evoMatch G C L x = .ok M) :
    ∃ xi, C.initRhs x = some xi ∧ (x, M.xu) ∈ M.t ∧
      scalarEvolution G L.i L.upd L.init x M.xu xi (fun y => C.int y && decide (writes L.body.users y)) = .ok M.evo ∧
      (∀ a ∈ L.after, a.1 ≠ x) ∧
      ((∀ y ∈ M.xu.atoms, C.int y = true) → EvoShape L x M.xu M.s1 M.n M.t M.s2) := by
  unfold evoMatch at h
  split at h
  · simp at h
  split at h
  · simp at h
  rename_i _ hw
  split at h
  · simp at h
  rename_i haf
  split at h
  · simp at h
  rename_i hone
  split at h
  · simp at h
  split at h
  · simp at h
  rename_i s1 n t s2 hsp
  split at h
  · simp at h
  rename_i a ha
  split at h
  · simp at h
  rename_i hr2
  split at h
  · simp at h
  split at h
  · simp at h
  rename_i xi hxi
  obtain ⟨evo, hev, h⟩ := Res.bind_ok h
  simp only [Res.ok.injEq] at h
  subst h
  have ha1 : a.1 = x := by simpa using List.find?_some ha
  have ham : (x, a.2) ∈ t := by rw [← ha1]; exact List.mem_of_find?_eq_some ha
  refine ⟨xi, hxi, ham, hev, ?_, ?_⟩
  · intro b hb e
    exact haf (List.any_eq_true.2 ⟨b, hb, by simpa using e⟩)
  · intro hint
    simp only at hint ⊢
    obtain ⟨hB, hU⟩ := Seq.splitWrite_eq x _ hsp
    have hwt : 0 < numWrites (transUsers t) x := by
      rw [← numWrites_pos, transUsers, writes_append]
      exact Or.inr (List.mem_map.2 ⟨(x, a.2), ham, rfl⟩)
    simp only [ne_eq, Classical.not_not] at hone
    have hone' := hone
    rw [hU, numWrites_append, numWrites_append, numWrites_append] at hone
    refine ⟨hB, hU, ham, ?_, ?_, ?_, hr2, ?_, ?_⟩
    · rw [numWrites_pos]; omega
    · rw [numWrites_pos]; omega
    · rw [numWrites_pos]; omega
    · intro y hy hyx hyw
      unfold scalarEvolution at hev
      split at hev
      · simp at hev
      · rename_i hmov
        exact hmov (List.any_eq_true.2 ⟨y, hy, by simp [hyx, hint y hy, hyw]⟩)
    · rw [numWrites_pos]; omega

theorem affine_atoms {D : Poly} {ss : List String} {A : Affine} (h : affineCoefficients D ss = some A) (s y : String)
    (hy : y ∈ (A.at' s).atoms) : ∃ t ∈ D, y ∈ t.2.atoms := by
  have go : ∀ (D : Poly) (f g : String → Expr), affineCoefficients.go ss D f = some g → y ∈ (g s).atoms →
      y ∈ (f s).atoms ∨ ∃ t ∈ D, y ∈ t.2.atoms := by
    intro D
    induction D with
    | nil => intro f g h hy; simp only [affineCoefficients.go, Option.some.injEq] at h; exact Or.inl (h ▸ hy)
    | cons t r ih =>
      intro f g h hy
      obtain ⟨es, c⟩ := t
      simp only [affineCoefficients.go] at h
      split at h
      · simp at h
      · rcases ih _ _ h hy with h1 | ⟨t, ht, h1⟩
        · split at h1
          · rename_i hs
            simp only [Expr.atoms, Expr.atomsL, List.append_nil, List.mem_append] at h1
            rcases h1 with h1 | h1
            · exact Or.inl (hs ▸ h1)
            · exact Or.inr ⟨(es, c), by simp, h1⟩
          · exact Or.inl h1
        · exact Or.inr ⟨t, List.mem_cons_of_mem _ ht, h1⟩
  unfold affineCoefficients at h
  split at h
  · rename_i g hg
    simp only [Option.some.injEq] at h
    subst h
    rcases go D _ g hg hy with h1 | h1
    · simp [Expr.atoms] at h1
    · exact h1
  · simp at h

theorem ev_val_set (E : Env) (σ : St) (i : String) (v : Int) : (σ.val E).set i v = (σ.setS i v).val E := by
  simp only [Val.set, St.val, Val.mk.injEq, and_true]
  funext y
  simp only [St.setS, St.set]
  by_cases h : y = i <;> simp [h]

/-- the closed form describes the symbol -/
theorem scalarEvolution_closed {E : Env} {G : EvoEngine} (hG : G.Sound) {C : EvoCtx} {L : EvoLoop} {x : String} {xi : Expr} {M : EvoMatch}
    {σ : St} (hx0 : x ≠ constName)
    (hev : scalarEvolution G L.i L.upd L.init x M.xu xi (fun y => C.int y && decide (writes L.body.users y)) = .ok M.evo)
    (hS : EvoShape L x M.xu M.s1 M.n M.t M.s2) (hD : EvoSide E C L x xi M σ) :
    ∃ P F, EvoClosed E L x M.xu M.evo σ P F := by
  have hxi : x ≠ L.i := hD.head.1
  obtain ⟨dxi, dinit, dall⟩ := hD.defd
  have kxi : ∀ τ : St, (∀ y, ¬ writes L.body.users y → y ≠ L.i → τ y = σ y) → τ.defd E xi ∧ τ.ev E xi = σ.ev E xi := by
    intro τ hK
    have : ∀ y ∈ xi.atoms, σ y [] = τ y [] := fun y hy => by rw [hK y (hD.initial y hy).2 (hD.initial y hy).1]
    exact ⟨defd_congr this dxi, (St.ev_congr E this).symm⟩
  have kinit : ∀ τ : St, (∀ y, ¬ writes L.body.users y → y ≠ L.i → τ y = σ y) → L.init.eval (τ.val E) = .fin (σ.ev E L.init) := by
    intro τ hK
    have : ∀ y ∈ L.init.atoms, σ y [] = τ y [] := fun y hy => by rw [hK y (hD.start y hy).2 (hD.start y hy).1]
    rw [St.eval_of_defd (defd_congr this dinit), St.ev_congr E this]
  have heq : ∀ {a b : Expr} {τ : St}, G.eq a b = true → τ.defd E a → τ.defd E b → τ.ev E a = τ.ev E b := fun h ha hb =>
    hG.eq _ _ h _ _ _ (St.eval_of_defd ha) (St.eval_of_defd hb)
  unfold scalarEvolution at hev
  split at hev
  · simp at hev
  split at hev
  · rename_i hc
    simp only [Bool.and_eq_true, Bool.not_eq_true'] at hc
    simp only [Res.ok.injEq] at hev
    have hval : ∀ τ : St, (∀ y, ¬ writes L.body.users y → y ≠ L.i → τ y = σ y) → τ.ev E M.xu = σ.ev E xi := fun τ hK =>
      (heq hc.2 (dall τ hK).1 (kxi τ hK).1).trans (kxi τ hK).2
    exact ⟨fun _ => True, fun _ => σ.ev E xi, fun τ hK _ => hev ▸ hval τ hK, ⟨trivial, hD.entry⟩, fun τ hK _ _ => ⟨trivial, hval τ hK⟩⟩
  split at hev
  · rename_i hc
    simp only [Bool.and_eq_true] at hc
    simp only [Res.ok.injEq] at hev
    refine ⟨fun _ => True, fun v => v, fun τ _ _ => hev ▸ ev_sym E τ L.i, ⟨trivial, ?_⟩, fun τ hK _ _ => ⟨trivial, ?_⟩⟩
    · rw [hD.entry]; exact heq hc.2 dxi dinit
    · exact heq hc.1 (dall τ hK).1 (dall τ hK).2
  split at hev
  · simp at hev
  rename_i st hst
  have hupd : ∀ τ : St, τ.ev E L.upd = τ L.i [] + st := fun τ => stride_correct E τ L.i L.upd st hst
  split at hev
  · rename_i hu
    simp only [Bool.and_eq_true, Bool.not_eq_true', uses_iff_mem_atoms] at hu
    have hxn : x ∉ M.xu.atoms := fun h => by
      have := (uses_iff_mem_atoms x M.xu).2 h; rw [hu.2] at this; cases this
    split at hev
    · simp at hev
    split at hev
    · simp at hev
    rename_i hst0 he0
    simp only [Bool.not_eq_true', Bool.not_eq_false] at he0
    simp only [Res.ok.injEq] at hev
    have hat : ∀ (τ : St) (v : Int), (∀ y, ¬ writes L.body.users y → y ≠ L.i → τ y = σ y) → (τ.setS L.i v).ev E M.xu = (σ.setS L.i v).ev E M.xu := by
      intro τ v hK
      refine St.ev_congr E fun y hy => ?_
      by_cases hyi : y = L.i
      · subst hyi; rw [St.setS_same, St.setS_same]
      · rw [St.setS_other _ _ hyi, St.setS_other _ _ hyi, hK y (hS.atoms y hy fun e => hxn (e ▸ hy)) hyi]
    have hsub : ∀ (τ : St) (r : Expr) (v : Int), r.eval (τ.val E) = .fin v →
        (M.xu.subs (.sym L.i) r).eval (τ.val E) = M.xu.eval ((τ.setS L.i v).val E) := by
      intro τ r v hr
      rw [eval_subs_sym M.xu L.i r (τ.val E) v hr, ev_val_set]
    refine ⟨fun _ => True, fun v => (σ.setS L.i (v - st)).ev E M.xu, fun τ hK _ => ?_, ⟨trivial, ?_⟩, fun τ hK _ _ => ⟨trivial, ?_⟩⟩
    · rw [← hev, ← hat τ _ hK, St.ev, St.ev]
      rw [hsub τ _ (τ L.i [] - st) (eval_ssub (by simp [Expr.eval, St.val]) rfl)]
    · rw [hD.entry]
      have h1 := hsub σ (ssub L.init (.int st)) (σ.ev E L.init - st) (eval_ssub (St.eval_of_defd dinit) rfl)
      have h2 : (σ.setS L.i (σ.ev E L.init - st)).defd E M.xu := (dall _ fun y _ hyi => St.setS_other _ _ hyi).1
      have h3 := St.eval_of_defd h2
      exact (hG.eq _ _ he0 _ _ _ (h1.trans h3) (St.eval_of_defd dxi)).symm
    · rw [hupd, Int.add_sub_cancel, ← hat τ _ hK, Tile.setS_eta _ _ _ rfl]
  · rename_i hu
    have hst0 : st ≠ 0 := fun e => hD.stride (by rw [hst, e])
    split at hev
    · simp at hev
    rename_i D hp
    split at hev
    · simp at hev
    rename_i A hA
    split at hev
    · simp at hev
    rename_i hone
    simp only [Bool.not_eq_true', Bool.not_eq_false] at hone
    obtain ⟨it, hit, hev⟩ := Res.bind_ok hev
    simp only [Res.ok.injEq] at hev
    have haff : ∀ τ : St, (∀ y, ¬ writes L.body.users y → y ≠ L.i → τ y = σ y) →
        ∃ k, (A.at' constName).eval (τ.val E) = .fin k ∧ τ.ev E M.xu = τ x [] + k := by
      intro τ hK
      have hs : (⟨G.P.poly, id, id⟩ : PolyEngine).Sound (τ.val E) := ⟨fun _ _ h => h, hG.poly (τ.val E)⟩
      obtain ⟨cv, h1, h2⟩ := affine_coefficients_partial ⟨G.P.poly, id, id⟩ (τ.val E) hs M.xu [x] (by simp) (by simpa using hx0.symm) D hp
        (hG.len _ _ _ hp) A hA _ (St.eval_of_defd (dall τ hK).1)
      have h3 : cv x = 1 := hG.eq _ _ hone _ _ _ (h1 x) rfl
      refine ⟨cv constName, h1 _, ?_⟩
      rw [h2]; simp [h3, St.val]
    have hni : L.i ∉ M.xu.atoms := by
      by_cases hx : x ∈ M.xu.atoms
      · exact hD.affine hx
      · intro hi
        refine hu ?_
        rw [(uses_iff_mem_atoms L.i M.xu).2 hi, Bool.true_and, Bool.not_eq_true']
        cases h : M.xu.uses x
        · rfl
        · exact absurd ((uses_iff_mem_atoms x M.xu).1 h) hx
    have hoff : ∀ τ : St, (∀ y, ¬ writes L.body.users y → y ≠ L.i → τ y = σ y) →
        (A.at' constName).eval (τ.val E) = (A.at' constName).eval (σ.val E) := by
      intro τ hK
      refine eval_congr_atoms _ _ _ rfl fun y hy => ?_
      obtain ⟨t, ht, hy'⟩ := affine_atoms hA constName y hy
      obtain ⟨h1, h2⟩ := hG.free _ _ _ hp t ht y hy'
      show τ y [] = σ y []
      rw [hK y (hS.atoms y h1 h2) fun e => hni (e ▸ h1)]
    obtain ⟨k0, hk0, _⟩ := haff σ fun _ _ _ => rfl
    refine ⟨fun v => ∃ m, v = σ.ev E L.init + m * st, fun v => (v - σ.ev E L.init).tdiv st * k0 + σ.ev E xi, fun τ hK _ => ?_,
      ⟨⟨0, by omega⟩, ?_⟩, fun τ hK hP hF => ?_⟩
    · rw [← hev]
      refine St.ev_of_eval (eval_add2 (eval_mul2 (div_value (τ.val E) _ _ it _ _
        (eval_ssub (x := τ L.i []) (by simp [Expr.eval, St.val]) (kinit τ hK)) rfl hst0 hit) ?_) ?_)
      · rw [hoff τ hK, hk0]
      · rw [St.eval_of_defd (kxi τ hK).1, (kxi τ hK).2]
    · rw [hD.entry]; simp
    · obtain ⟨m, hm⟩ := hP
      obtain ⟨k, hk, hxu⟩ := haff τ hK
      have : k = k0 := by rw [hoff τ hK, hk0] at hk; simpa using hk.symm
      subst this
      refine ⟨⟨m + 1, by rw [hupd, hm, Int.add_mul]; omega⟩, ?_⟩
      rw [hxu, hupd, hF, hm]
      have e1 : σ.ev E L.init + m * st - σ.ev E L.init = m * st := by omega
      have e2 : σ.ev E L.init + m * st + st - σ.ev E L.init = (m + 1) * st := by rw [Int.add_mul]; omega
      rw [e1, e2, Int.mul_tdiv_cancel _ hst0, Int.mul_tdiv_cancel _ hst0, Int.add_mul]
      omega

/-! ### C63 -/

theorem evo_loop {E : Env} {G : EvoEngine} (hG : G.Sound) {C : EvoCtx} {L : EvoLoop} {x : String} {M : EvoMatch} {σ : St}
    (hx0 : x ≠ constName) (hM : evoMatch G C L x = .ok M) (hD : ∀ xi, C.initRhs x = some xi → EvoSide E C L x xi M σ) (c : Ctl) :
    (∀ τe, L.node.den E σ c τe → ∃ τe', (evoApply G L x M).node.den E σ c τe' ∧ AgreeS (· = x) τe τe' ∧ c = .normal ∧
      (L.i ∉ M.xu.atoms → (σ.setS L.i (σ.ev E L.init)).cond E L.cond = true → τe x [] = τe'.ev E M.xu)) ∧
    ∀ τe', (evoApply G L x M).node.den E σ c τe' → ∃ τe, L.node.den E σ c τe ∧ AgreeS (· = x) τe τe' ∧ c = .normal ∧
      (L.i ∉ M.xu.atoms → (σ.setS L.i (σ.ev E L.init)).cond E L.cond = true → τe x [] = τe'.ev E M.xu) := by
  obtain ⟨xi, hxi, -, hev, -, hsh⟩ := evoMatch_shape hM
  have hD := hD xi hxi
  have hS := hsh hD.ints
  obtain ⟨P, F, hC⟩ := scalarEvolution_closed hG hx0 hev hS hD
  have hh : EvoHead L x σ P F (σ.setS L.i (σ.ev E L.init)) (σ.setS L.i (σ.ev E L.init)) := by
    refine ⟨AgreeS.refl _ _, fun y _ hyi => St.setS_other _ _ hyi, ?_, ?_⟩
    · rw [St.setS_same]; exact hC.entry.1
    · rw [St.setS_same, St.setS_other _ _ hD.head.1]; exact hC.entry.2
  obtain ⟨h1, h2⟩ := evo_iter hC hS hD.simul hD.head.1 hD.head.2 hD.cond hD.normal hh c
  simp only [EvoLoop.node, evoApply, Node.den, Rel.upd_seq]
  constructor
  · intro τe hd
    obtain ⟨τe', a, b, c', d⟩ := h1 τe hd
    exact ⟨τe', a, b, c', fun hni hc => d hni (Or.inl hc)⟩
  · intro τe' hd
    obtain ⟨τe, a, b, c', d⟩ := h2 τe' hd
    exact ⟨τe, a, b, c', fun hni hc => d hni (Or.inl hc)⟩

/-- **C63 (partial), inside the loop.** For every symbol the pass accepts, the rewritten loop has the executions of the original one,
up to the value of the symbol itself behind the loop, when the side conditions `EvoSide` hold at entry. -/
theorem symbol_evolution_loop_partial (E : Env) (G : EvoEngine) (hG : G.Sound) (C : EvoCtx) (L : EvoLoop) (x : String) (M : EvoMatch) (σ : St)
    (hx0 : x ≠ constName) (hM : evoMatch G C L x = .ok M) (hD : ∀ xi, C.initRhs x = some xi → EvoSide E C L x xi M σ) :
    (∀ c σ', L.node.den E σ c σ' → ∃ τ', (evoApply G L x M).node.den E σ c τ' ∧ ∀ y j, ¬ (y = x ∧ j = []) → σ' y j = τ' y j) ∧
    ∀ c τ', (evoApply G L x M).node.den E σ c τ' → ∃ σ', L.node.den E σ c σ' ∧ ∀ y j, ¬ (y = x ∧ j = []) → σ' y j = τ' y j := by
  constructor
  · intro c σ' h
    obtain ⟨τ', a, b, -, -⟩ := (evo_loop hG hx0 hM hD c).1 σ' h
    exact ⟨τ', a, fun y j hy => b y j fun e e' => hy ⟨e, e'⟩⟩
  · intro c τ' h
    obtain ⟨σ', a, b, -, -⟩ := (evo_loop hG hx0 hM hD c).2 τ' h
    exact ⟨σ', a, fun y j hy => b y j fun e e' => hy ⟨e, e'⟩⟩

/-- **C63 (partial).** The pass preserves every execution of the loop, the transition behind it and whatever follows, when in
addition the loop runs at least once, the update does not use the loop variable, and the transition behind the loop does not
interfere with the inserted assignment.  Missing, because false: see the `evolution_*_violated` theorems. -/
theorem symbol_evolution_partial (E : Env) (G : EvoEngine) (hG : G.Sound) (C : EvoCtx) (L : EvoLoop) (x : String) (M : EvoMatch) (σ : St)
    (hx0 : x ≠ constName) (hM : evoMatch G C L x = .ok M) (hD : ∀ xi, C.initRhs x = some xi → EvoSide E C L x xi M σ)
    (hni : L.i ∉ M.xu.atoms) (hrun : (σ.setS L.i (σ.ev E L.init)).cond E L.cond = true) (hafter : Indep ((x, M.xu) :: L.after))
    (rest : Seq) (c : Ctl) (σ' : St) :
    (Seq.cons L.node L.after rest).den E σ c σ' ↔
      (Seq.cons (evoApply G L x M).node (evoApply G L x M).after rest).den E σ c σ' := by
  have hpost : ∀ {τ τ' : St}, AgreeS (· = x) τ τ' → τ x [] = τ'.ev E M.xu →
      runTrans E (evoApply G L x M).after τ' = runTrans E L.after τ := by
    intro τ τ' hA hx
    show runTrans E (G.insert L.after (x, M.xu)) τ' = _
    rw [transition_order_partial E _ ((x, M.xu) :: L.after) (hafter.perm (hG.insert _ _).symm) (hG.insert _ _), runTrans_cons]
    congr 1
    funext y j
    by_cases hy : y = x ∧ j = []
    · obtain ⟨rfl, rfl⟩ := hy; rw [St.setS_same, hx]
    · simp only [St.setS, St.set, hy, if_false]
      exact (hA y j fun e e' => hy ⟨e, e'⟩).symm
  rw [Seq.den, Seq.den]
  constructor
  · rintro (⟨τ, h1, h2⟩ | ⟨hc, h1⟩)
    · obtain ⟨τ', a, b, -, d⟩ := (evo_loop hG hx0 hM hD _).1 _ h1
      refine Or.inl ⟨τ', a, ?_⟩
      rw [Rel.upd_seq] at h2 ⊢
      show rest.den E (runTrans E (evoApply G L x M).after τ') c σ'
      rw [hpost b (d hni hrun)]; exact h2
    · obtain ⟨τ', a, b, e, d⟩ := (evo_loop hG hx0 hM hD _).1 _ h1
      exact absurd e hc
  · rintro (⟨τ', h1, h2⟩ | ⟨hc, h1⟩)
    · obtain ⟨τ, a, b, -, d⟩ := (evo_loop hG hx0 hM hD _).2 _ h1
      refine Or.inl ⟨τ, a, ?_⟩
      rw [Rel.upd_seq] at h2 ⊢
      show rest.den E (runTrans E L.after τ) c σ'
      rw [← hpost b (d hni hrun)]; exact h2
    · obtain ⟨τ', a, b, e, d⟩ := (evo_loop hG hx0 hM hD _).2 _ h1
      exact absurd e hc

/-! ### examples and violations -/

/-- value of some expressions without symbols -/
def cint : Expr → Option Int
  | .int n => some n
  | .add [.int a, .int b] => some (a + b)
  | .add [.int a, .mul [.int b, .int c]] => some (a + b * c)
  | _ => none

theorem cint_eval {e : Expr} {n : Int} (h : cint e = some n) (ρ : Val) : e.eval ρ = .fin n := by
  unfold cint at h
  split at h <;> simp only [Option.some.injEq, reduceCtorEq] at h <;> subst h <;> simp [Expr.eval, Expr.evalL, V.add, V.mul]

/-- an engine that knows the polynomials `x + e` -/
def exEvo : EvoEngine where
  P := ⟨fun e g => match e, g with
    | .add [.sym x, e], [y] => if x = y ∧ y ∉ e.atoms then some [([1], .int 1), ([0], e)] else none
    | _, _ => none, id, id⟩
  eq a b := decide (a = b) || match cint a, cint b with
    | some n, some m => n == m
    | _, _ => false
  insert t a := t ++ [a]

theorem exEvo_poly {e : Expr} {g : List String} {D : Poly} (h : exEvo.P.poly e g = some D) :
    ∃ y e', g = [y] ∧ e = .add [.sym y, e'] ∧ y ∉ e'.atoms ∧ D = [([1], .int 1), ([0], e')] := by
  simp only [exEvo] at h
  split at h
  · rename_i x e' y
    split at h
    · rename_i hc; obtain ⟨rfl, hc⟩ := hc
      simp only [Option.some.injEq] at h
      exact ⟨x, e', rfl, rfl, hc, h.symm⟩
    · simp at h
  · simp at h

theorem exEvo_sound : exEvo.Sound where
  poly ρ e g D n h hv := by
    obtain ⟨y, e', rfl, rfl, -, rfl⟩ := exEvo_poly h
    simp only [Expr.eval, Expr.evalL, List.foldr_cons, List.foldr_nil] at hv
    obtain ⟨a, b, ha, hb, rfl⟩ := V.add_fin hv
    obtain ⟨c, d, hc, hd, rfl⟩ := V.add_fin hb
    simp only [V.fin.injEq] at ha hd
    subst ha hd
    simp [polyVal, Expr.eval, monoVal, hc]
  len e g D h := by
    obtain ⟨y, e', rfl, rfl, -, rfl⟩ := exEvo_poly h
    simp
  free e x D h := by
    obtain ⟨y, e', hg, rfl, hy, rfl⟩ := exEvo_poly h
    simp only [List.cons.injEq, and_true] at hg
    subst hg
    intro t ht z hz
    simp only [List.mem_cons, List.not_mem_nil, or_false] at ht
    rcases ht with rfl | rfl
    · simp [Expr.atoms] at hz
    · exact ⟨by simp [Expr.atoms, Expr.atomsL, hz], fun e => hy (e ▸ hz)⟩
  eq a b h ρ n m ha hb := by
    simp only [exEvo, Bool.or_eq_true, decide_eq_true_eq] at h
    rcases h with rfl | h
    · rw [ha] at hb; simpa using hb
    · split at h
      · rename_i p q hp hq
        rw [cint_eval hp] at ha
        rw [cint_eval hq] at hb
        simp only [V.fin.injEq, beq_iff_eq] at ha hb h
        rw [← ha, ← hb, h]
      · cases h
  insert t a := by simp only [exEvo]; exact (List.perm_append_comm)

/-- everything is an integer scalar, `x` is written twice, first with `xi` -/
def exEvoCtx (xi : Expr) : EvoCtx := ⟨fun _ => true, fun _ => 2, fun _ => some xi⟩

/-- `for (i = 0; i < n; i++) { B[i] = x; x = xu; }` -/
def exEvoLoop (x : String) (xu : Expr) : EvoLoop where
  isMap := false
  i := "i"
  init := .int 0
  cond := .lt (.sym "i") (.sym "n")
  upd := .add [.sym "i", .int 1]
  body := .cons (.block [.tasklet "assign" [(x, [])] "B" [.sym "i"]]) [(x, xu)] .nil
  after := []

/-- the loop adds five to `s` -/
def exFive : EvoLoop := exEvoLoop "s" (.add [.sym "s", .int 5])

/-- `n` is three, everything else zero -/
def exN3 : St := fun x _ => if x = "n" then 3 else 0

theorem exNormal (x : String) (e : Expr) : Rel.Normal ((Seq.cons (.block [.tasklet "assign" [(x, [])] "B" [.sym "i"]]) [(x, e)] .nil).den exEnv) := by
  intro τ c τ' h
  rw [Seq.den, Node.den, Rel.upd_seq, Rel.upd_seq, Seq.den] at h
  exact h.1

/-- The hypotheses of `symbol_evolution_partial` are met by `s = 0; for (i = 0; i < 3; i++) { B[i] = s; s += 5; }`. -/
example : ∃ M, evoMatch exEvo (exEvoCtx (.int 0)) exFive "s" = .ok M ∧ EvoSide exEnv (exEvoCtx (.int 0)) exFive "s" (.int 0) M exN3 ∧
    exFive.i ∉ M.xu.atoms ∧ (exN3.setS "i" 0).cond exEnv exFive.cond = true ∧ Indep (("s", M.xu) :: exFive.after) := by
  refine ⟨_, rfl, ?_, by decide, by decide, by decide⟩
  refine ⟨exNormal _ _, by decide, by decide, by decide, by decide, by decide, by decide, by decide, by decide, by decide,
    ⟨0, rfl⟩, ⟨0, rfl⟩, fun τ _ => ⟨⟨τ "s" [] + 5, ?_⟩, ⟨τ "i" [] + 1, ?_⟩⟩⟩ <;>
  simp [exFive, exEvoLoop, Expr.eval, Expr.evalL, V.add, St.val]

/-- The pass accepts symbol `x` of `L` and changes the value of `y[j]` in an execution from `σ`. -/
def EvoWrong (C : EvoCtx) (L : EvoLoop) (x : String) (σ : St) (y : String) (j : List Int) : Prop :=
  exEvo.Sound ∧ ∃ M, evoMatch exEvo C L x = .ok M ∧ ∃ σ', (Seq.cons L.node L.after .nil).den exEnv σ .normal σ' ∧
    ∀ c τ', (Seq.cons (evoApply exEvo L x M).node (evoApply exEvo L x M).after .nil).den exEnv σ c τ' → σ' y j ≠ τ' y j

theorem EvoWrong.of {C : EvoCtx} {L : EvoLoop} {x : String} {σ : St} {y : String} {j : List Int} (M : EvoMatch) (v w : Int)
    (hM : evoMatch exEvo C L x = .ok M) (hne : v ≠ w)
    (h1 : ((Seq.cons L.node L.after .nil).run exEnv 60 σ).map (fun r => (r.1, r.2 y j)) = some (.normal, v))
    (h2 : ((Seq.cons (evoApply exEvo L x M).node (evoApply exEvo L x M).after .nil).run exEnv 60 σ).map (fun r => (r.1, r.2 y j)) = some (.normal, w)) :
    EvoWrong C L x σ y j := by
  obtain ⟨σ', a, b⟩ := Seq.run_obs 60 h1
  exact ⟨exEvo_sound, M, hM, σ', a, fun c τ' h => by rw [b, (Seq.run_obs_all 60 h2 h).2]; exact hne⟩

/-- **C63 fails** for a loop that does not run: `s` must stay 0 and becomes 5. -/
theorem evolution_zero_trip_violated : EvoWrong (exEvoCtx (.int 0)) exFive "s" (fun _ _ => 0) "s" [] :=
  EvoWrong.of _ 0 5 rfl (by decide) (by decide) (by decide)

/-- **C63 fails** for aliases of the loop variable: in `j = 0; for (i = 0; i < 3; i++) { B[i] = j; j = i + 1; }` the final `j` is 3;
the pass makes it 4, because the inserted assignment is evaluated with the final `i`. -/
theorem evolution_alias_violated : EvoWrong (exEvoCtx (.int 0)) (exEvoLoop "j" (.add [.sym "i", .int 1])) "j" exN3 "j" [] :=
  EvoWrong.of _ 3 4 rfl (by decide) (by decide) (by decide)

/-- **C63 fails** for functions of the previous loop variable: `j = -1; for (..) { B[i] = j; j = i; }` ends with 2, not 3. -/
theorem evolution_previous_violated : EvoWrong (exEvoCtx (.int (-1))) (exEvoLoop "j" (.sym "i")) "j" (exN3.setS "j" (-1)) "j" [] :=
  EvoWrong.of _ 2 3 rfl (by decide) (by decide) (by decide)

/-- **C63 fails** for sums of the loop variable: `for (..) { B[i] = s; s += i; }` stores 1 in `B[2]`; the pass takes `s` for `i * i`. -/
theorem evolution_sum_violated : EvoWrong (exEvoCtx (.int 0)) (exEvoLoop "s" (.add [.sym "s", .sym "i"])) "s" exN3 "B" [2] :=
  EvoWrong.of _ 1 4 rfl (by decide) (by decide) (by decide)

/-- **C63 fails** when the loop condition reads the symbol: `for (i = 0; s < 10; i++) { B[i] = s; s += 5; }` runs twice; the rewritten
loop compares the value of the previous iteration and runs a third time. -/
theorem evolution_condition_violated : EvoWrong (exEvoCtx (.int 0)) { exFive with cond := .lt (.sym "s") (.int 10) } "s" exN3 "B" [2] :=
  EvoWrong.of _ 0 10 rfl (by decide) (by decide) (by decide)

/-- **C63 fails** when the initial expression changes in the loop: `s = m; for (..) { B[i] = s; s += 5; m = 7; }` stores 5 in `B[1]`, the
rewritten loop `1 * 5 + m = 12`. -/
theorem evolution_initial_violated : EvoWrong (exEvoCtx (.sym "m"))
    { exFive with body := (.cons (.block [.tasklet "assign" [("s", [])] "B" [.sym "i"]]) [("s", .add [.sym "s", .int 5])]
        (.cons (.block []) [("m", .int 7)] .nil)) } "s" exN3 "B" [1] :=
  EvoWrong.of _ 5 12 rfl (by decide) (by decide) (by decide)

/-- **C63 fails** when an iteration leaves the body before the update: `for (..) { if (i < 1) continue; s += 5; }` ends with 10, the
rewritten program with 15. -/
theorem evolution_continue_violated : EvoWrong (exEvoCtx (.int 0))
    { exFive with body := .cons (.ifElse (.cons (.lt (.sym "i") (.int 1)) (.one .cont) .nil)) [("s", .add [.sym "s", .int 5])] .nil }
    "s" exN3 "s" [] :=
  EvoWrong.of _ 10 15 rfl (by decide) (by decide) (by decide)

/-- **C63 fails** when the transition behind the loop reads the symbol and its entry is placed before the inserted one. -/
theorem evolution_after_violated : EvoWrong (exEvoCtx (.int 0)) { exFive with after := [("r", .sym "s")] } "s" exN3 "r" [] :=
  EvoWrong.of _ 15 10 rfl (by decide) (by decide) (by decide)

/-- `s = 0; for (k = 0; k < 2; k++) <inner>`, where `inner` stores `s` in `B[k]` and adds five, `n` times -/
def exOuter (inner : EvoLoop) : Seq := .cons (.block []) [("s", .int 0)] (.cons (.loop false "k" (.int 0) (.lt (.sym "k") (.int 2))
  (.add [.sym "k", .int 1]) (.cons inner.node inner.after .nil)) [] .nil)

/-- the inner loop -/
def exInner : EvoLoop :=
  { exFive with body := .cons (.block [.tasklet "assign" [("s", [])] "B" [.sym "k"]]) [("s", .add [.sym "s", .int 5])] .nil }

/-- **C63 fails** for a loop nested in another one: the only other write of `s` dominates the inner loop, but the inner loop is
entered a second time with another value; `B[1]` must be 25 and becomes 10. -/
theorem evolution_nested_violated : ∃ M, evoMatch exEvo (exEvoCtx (.int 0)) exInner "s" = .ok M ∧ numWrites (exOuter exInner).users "s" = 2 ∧
    ∃ σ', (exOuter exInner).den exEnv exN3 .normal σ' ∧
      ∀ c τ', (exOuter (evoApply exEvo exInner "s" M)).den exEnv exN3 c τ' → σ' "B" [1] ≠ τ' "B" [1] := by
  refine ⟨_, rfl, by decide, ?_⟩
  obtain ⟨σ', a, b⟩ := Seq.run_obs (E := exEnv) (s := exOuter exInner) (σ := exN3) (c := .normal) (x := "B") (j := [1]) (v := 25) 60 (by decide)
  refine ⟨σ', a, fun c τ' h => ?_⟩
  rw [b, (Seq.run_obs_all (c := .normal) (v := 10) 60 (by decide) h).2]; decide

/-- **C63**: the pass crashes on an update that is not a polynomial in the symbol, such as `s = s / 2`. -/
theorem evolution_crash : (∀ G : EvoEngine, G.P.poly (.fn "idiv" [.sym "s", .int 2]) ["s"] = none →
      G.eq (.fn "idiv" [.sym "s", .int 2]) (.add [.sym "i", .int 1]) = false →
      evoMatch G (exEvoCtx (.int 8)) (exEvoLoop "s" (.fn "idiv" [.sym "s", .int 2])) "s" = .ub) ∧
    evoMatch exEvo (exEvoCtx (.int 8)) (exEvoLoop "s" (.fn "idiv" [.sym "s", .int 2])) "s" = .ub := by
  constructor
  · intro G h1 h2
    have hs : scalarEvolution G "i" (.add [.sym "i", .int 1]) (.int 0) "s" (.fn "idiv" [.sym "s", .int 2]) (.int 8)
        (fun y => true && decide (writes (exEvoLoop "s" (.fn "idiv" [.sym "s", .int 2])).body.users y)) = .ub := by
      unfold scalarEvolution
      rw [if_neg (by decide), if_neg (by simp [Expr.uses, Expr.usesL]), h2]
      simp [loopStride, Expr.uses, Expr.usesL, h1]
    have : evoMatch G (exEvoCtx (.int 8)) (exEvoLoop "s" (.fn "idiv" [.sym "s", .int 2])) "s" = (scalarEvolution G "i" (.add [.sym "i", .int 1])
      (.int 0) "s" (.fn "idiv" [.sym "s", .int 2]) (.int 8)
        (fun y => true && decide (writes (exEvoLoop "s" (.fn "idiv" [.sym "s", .int 2])).body.users y))).bind _ := rfl
    rw [this, hs]; rfl
  · rfl

end Docc.IR
