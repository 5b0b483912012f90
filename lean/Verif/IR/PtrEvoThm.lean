import Verif.IR.PtrEvoProps
import Verif.Sym.PolyProps

/-
Replacing the iterator of a loop.
-/
namespace Docc.IR
open Docc.Sym

/-- the behaviours correspond, where the final states are related depending on the outcome -/
def Rel.step (A : St → St → Prop) (B : Ctl → St → St → Prop) (R S : Rel) : Prop :=
  (∀ σ τ c σ', A σ τ → R σ c σ' → ∃ τ', S τ c τ' ∧ B c σ' τ') ∧ ∀ σ τ c τ', A σ τ → S τ c τ' → ∃ σ', R σ c σ' ∧ B c σ' τ'

theorem Rel.step_seq {A : St → St → Prop} {B C : Ctl → St → St → Prop} {R R' S S' : Rel} (h1 : Rel.step A B R R') (h2 : Rel.step (B .normal) C S S')
    (hBC : ∀ c σ τ, c ≠ .normal → B c σ τ → C c σ τ) : Rel.step A C (Rel.seq R S) (Rel.seq R' S') := by
  constructor
  · rintro σ τ c σ' ha (⟨σ1, a, b⟩ | ⟨hc, a⟩)
    · obtain ⟨τ1, a', ha1⟩ := h1.1 _ _ _ _ ha a
      obtain ⟨τ', b', hc'⟩ := h2.1 _ _ _ _ ha1 b
      exact ⟨τ', Or.inl ⟨τ1, a', b'⟩, hc'⟩
    · obtain ⟨τ1, a', ha1⟩ := h1.1 _ _ _ _ ha a
      exact ⟨τ1, Or.inr ⟨hc, a'⟩, hBC _ _ _ hc ha1⟩
  · rintro σ τ c τ' ha (⟨τ1, a, b⟩ | ⟨hc, a⟩)
    · obtain ⟨σ1, a', ha1⟩ := h1.2 _ _ _ _ ha a
      obtain ⟨σ', b', hc'⟩ := h2.2 _ _ _ _ ha1 b
      exact ⟨σ', Or.inl ⟨σ1, a', b'⟩, hc'⟩
    · obtain ⟨σ1, a', ha1⟩ := h1.2 _ _ _ _ ha a
      exact ⟨σ1, Or.inr ⟨hc, a'⟩, hBC _ _ _ hc ha1⟩

theorem Rel.step_iter {A C : St → St → Prop} {B : Ctl → St → St → Prop} {b b' : St → Bool} {u u' : St → St} {R R' : Rel} (hb : ∀ σ τ, A σ τ → b σ = b' τ)
    (h : Rel.step A B R R') (hu : ∀ c σ τ, c = .normal ∨ c = .cont → B c σ τ → A (u σ) (u' τ)) (hB : ∀ c σ τ, B c σ τ → C σ τ) (hA : ∀ σ τ, A σ τ → C σ τ) :
    Rel.to A C (Rel.iter b u R) (Rel.iter b' u' R') := by
  constructor
  · intro σ τ c σ' ha hr
    induction hr generalizing τ with
    | done h0 => exact ⟨τ, .done (by rw [← hb _ _ ha]; exact h0), hA _ _ ha⟩
    | step k h0 h1 hk _ ih =>
      obtain ⟨τ1, r1, q1⟩ := h.1 _ _ _ _ ha h1
      obtain ⟨τ2, r2, q2⟩ := ih _ (hu _ _ _ hk q1)
      exact ⟨τ2, .step k (by rw [← hb _ _ ha]; exact h0) r1 hk r2, q2⟩
    | stop h0 h1 =>
      obtain ⟨τ1, r1, q1⟩ := h.1 _ _ _ _ ha h1
      exact ⟨τ1, .stop (by rw [← hb _ _ ha]; exact h0) r1, hB _ _ _ q1⟩
    | ret d q h0 h1 =>
      obtain ⟨τ1, r1, q1⟩ := h.1 _ _ _ _ ha h1
      exact ⟨τ1, .ret d q (by rw [← hb _ _ ha]; exact h0) r1, hB _ _ _ q1⟩
  · intro σ τ c τ' ha hr
    induction hr generalizing σ with
    | done h0 => exact ⟨σ, .done (by rw [hb _ _ ha]; exact h0), hA _ _ ha⟩
    | step k h0 h1 hk _ ih =>
      obtain ⟨τ1, r1, q1⟩ := h.2 _ _ _ _ ha h1
      obtain ⟨τ2, r2, q2⟩ := ih _ (hu _ _ _ hk q1)
      exact ⟨τ2, .step k (by rw [hb _ _ ha]; exact h0) r1 hk r2, q2⟩
    | stop h0 h1 =>
      obtain ⟨τ1, r1, q1⟩ := h.2 _ _ _ _ ha h1
      exact ⟨τ1, .stop (by rw [hb _ _ ha]; exact h0) r1, hB _ _ _ q1⟩
    | ret d q h0 h1 =>
      obtain ⟨τ1, r1, q1⟩ := h.2 _ _ _ _ ha h1
      exact ⟨τ1, .ret d q (by rw [hb _ _ ha]; exact h0) r1, hB _ _ _ q1⟩

theorem Rel.forever_not_cont {R : Rel} {σ σ' : St} {c : Ctl} (h : Rel.forever R σ c σ') : c ≠ .cont := fun e => by
  have := Rel.forever_proper h; rw [e] at this; cases this
theorem Rel.iter_not_cont {b : St → Bool} {u : St → St} {R : Rel} {σ σ' : St} {c : Ctl} (h : Rel.iter b u R σ c σ') : c ≠ .cont := fun e => by
  have := Rel.iter_proper h; rw [e] at this; cases this

mutual
theorem Node.noCont_den (E : Env) : (n : Node) → n.noCont = true → ∀ σ c σ', n.den E σ c σ' → c ≠ .cont
  | .block l, _, σ, c, σ', h => by rw [Node.den] at h; rw [h.1]; simp
  | .seq s, hj, σ, c, σ', h => by rw [Node.den] at h; exact s.noCont_den E hj σ c σ' h
  | .ifElse b, hj, σ, c, σ', h => by rw [Node.den] at h; exact b.noCont_den E hj σ c σ' h
  | .whileL s, _, σ, c, σ', h => by rw [Node.den] at h; exact Rel.forever_not_cont h
  | .loop m i a k u s, _, σ, c, σ', h => by rw [Node.den, Rel.upd_seq] at h; exact Rel.iter_not_cont h
  | .brk, _, _, c, _, h => by rw [Node.den] at h; rw [h.1]; simp
  | .cont, hj, _, _, _, _ => by cases hj
  | .ret d q, _, σ, c, σ', h => by rw [Node.den] at h; rw [h.1]; simp
theorem Seq.noCont_den (E : Env) : (s : Seq) → s.noCont = true → ∀ σ c σ', s.den E σ c σ' → c ≠ .cont
  | .nil, _, σ, c, σ', h => by rw [Seq.den] at h; rw [h.1]; simp
  | .cons n t r, hj, σ, c, σ', h => by
    rw [Seq.den, Rel.upd_seq] at h
    simp only [Seq.noCont, Bool.and_eq_true] at hj
    rcases h with ⟨_, _, h⟩ | ⟨_, h⟩
    · exact r.noCont_den E hj.2 _ c σ' h
    · exact n.noCont_den E hj.1 _ c σ' h
theorem Brs.noCont_den (E : Env) : (b : Brs) → b.noCont = true → ∀ σ c σ', b.den E σ c σ' → c ≠ .cont
  | .nil, _, σ, c, σ', h => by rw [Brs.den] at h; rw [h.1]; simp
  | .cons d s r, hj, σ, c, σ', h => by
    rw [Brs.den] at h
    simp only [Brs.noCont, Bool.and_eq_true] at hj
    simp only [Rel.ite] at h
    split at h
    · exact s.noCont_den E hj.1 _ c σ' h
    · exact r.noCont_den E hj.2 _ c σ' h
end

/-- no child of the sequence is a `Return` -/
def Seq.noRetChild : Seq → Bool
  | .nil => true
  | .cons n _ r => !n.isRet && r.noRetChild

theorem Seq.evoOk_append {K : Moves} {p : String} {z : Bool} : ∀ {a b : Seq}, a.noRetChild = true → (a ++ b).evoOk K p z = true → a.evoOk K p z = true ∧ b.evoOk K p z = true
  | .nil, b, _, h => ⟨rfl, h⟩
  | .cons n t r, b, hl, h => by
    simp only [Seq.noRetChild, Bool.and_eq_true, Bool.not_eq_true'] at hl
    simp only [Seq.cons_append, Seq.evoOk, hl.1, Bool.false_or, Bool.and_eq_true] at h ⊢
    obtain ⟨h1, h2⟩ := Seq.evoOk_append hl.2 h.2.2
    exact ⟨⟨h.1, h.2.1, h1⟩, h2⟩

theorem Seq.ptrMoves_append {K : Moves} : ∀ {a b : Seq}, a.noRetChild = true → (a ++ b).ptrMoves K = a.ptrMoves K ++ b.ptrMoves K
  | .nil, b, _ => rfl
  | .cons n t r, b, hl => by
    simp only [Seq.noRetChild, Bool.and_eq_true, Bool.not_eq_true'] at hl
    simp only [Seq.cons_append, Seq.ptrMoves, hl.1, Bool.false_eq_true, if_false, Seq.ptrMoves_append hl.2, List.append_assoc]

theorem Seq.users_append' : ∀ {a b : Seq}, a.noRetChild = true → (a ++ b).users = a.users ++ b.users
  | .nil, b, _ => rfl
  | .cons n t r, b, hl => by
    simp only [Seq.noRetChild, Bool.and_eq_true, Bool.not_eq_true'] at hl
    simp only [Seq.cons_append, Seq.users, hl.1, Bool.false_eq_true, if_false, Seq.users_append' hl.2, List.append_assoc]

theorem Seq.evo_append {K : Moves} {p : String} {e : Expr} : ∀ {a b : Seq}, (a ++ b).evo K p e = a.evo K p e ++ b.evo K p e
  | .nil, b => rfl
  | .cons n t r, b => by simp only [Seq.cons_append, Seq.evo, Seq.evo_append]

/-- value of `indvar - init` -/
theorem evoIdx_ev {E : Env} {ρ : St} {i : String} {init : Expr} {a : Int} (h : init.eval (ρ.val E) = .fin a) : ρ.ev E (evoIdx i init) = ρ i [] - ρ.ev E init := by
  have h1 : (Expr.sym i).eval (ρ.val E) = .fin (ρ i []) := rfl
  have h2 : (Expr.int (-1)).eval (ρ.val E) = .fin (-1) := rfl
  have h3 := eval_add2 h1 (eval_mul2 h2 h)
  have e1 : ρ.ev E (evoIdx i init) = ρ i [] + -1 * a := by simp only [St.ev, evoIdx, h3]
  have e2 : ρ.ev E init = a := by simp only [St.ev, h]
  rw [e1, e2]; omega

theorem evoIdx_atoms {i : String} {init : Expr} {x : String} (h : x ∈ (evoIdx i init).atoms) : x = i ∨ x ∈ init.atoms := by
  simp only [evoIdx, Expr.atoms, Expr.atomsL, List.append_nil, List.nil_append, List.mem_append, List.mem_singleton, List.cons_append, List.mem_cons] at h
  exact h

theorem iterator_split {K : Moves} {s s1 s2 : Seq} {l1 l2 : List Stmt} {t : Trans} {op q p : String} (hl : s1.noRetChild = true) (hs : s = s1 ++ .cons (.block (l1 ++ .lib op [q] [q] :: l2)) t s2)
    (hK : (K op).isSome = true) (h : s.iterator K = some p) : q = p ∧ s1.ptrMoves K = [] ∧ l1.filter (·.movesPtr K) = [] ∧ l2.filter (·.movesPtr K) = [] ∧ s2.ptrMoves K = [] := by
  have hm : (Stmt.lib op [q] [q]).movesPtr K = true := hK
  have e : s.ptrMoves K = s1.ptrMoves K ++ (l1.filter (·.movesPtr K) ++ .lib op [q] [q] :: l2.filter (·.movesPtr K) ++ s2.ptrMoves K) := by
    rw [hs, Seq.ptrMoves_append hl]
    simp only [Seq.ptrMoves, Node.isRet, Bool.false_eq_true, if_false, Node.ptrMoves, List.filter_append, List.filter_cons_of_pos hm]
  unfold Seq.iterator at h
  split at h
  · rename_i op' x y hx
    rw [hx] at e
    have hlen := congrArg List.length e
    simp only [List.length_cons, List.length_nil, List.length_append] at hlen
    have z1 : s1.ptrMoves K = [] := List.eq_nil_of_length_eq_zero (by omega)
    have z2 : l1.filter (·.movesPtr K) = [] := List.eq_nil_of_length_eq_zero (by omega)
    have z3 : l2.filter (·.movesPtr K) = [] := List.eq_nil_of_length_eq_zero (by omega)
    have z4 : s2.ptrMoves K = [] := List.eq_nil_of_length_eq_zero (by omega)
    refine ⟨?_, z1, z2, z3, z4⟩
    rw [z1, z2, z3, z4] at e
    simp only [List.nil_append, List.append_nil, List.cons.injEq, Stmt.lib.injEq, and_true] at e
    split at h
    · cases h; exact e.2.1.symm
    · cases h
  · cases h

/-- **C101** (partial): replacing the pointer iterator of a loop by subscripts keeps every execution of the loop, up to the value of the iterator itself.
Assumed beyond what the pass tests: the loop advances by one (`stride_violated`), the pointer is advanced at the top level of the body (`branch_violated`), is not used behind
and no `continue` stands before (`continue_violated`), and the body writes neither the loop variable nor a symbol of the initial value. -/
theorem ptr_evolution_partial {E : Env} {K : Moves} {post : Seq → String → Bool} {i : String} {init u : Expr} {c : Cond} {s s1 s2 : Seq} {l1 l2 : List Stmt} {t : Trans} {op p : String} {n' : Node}
    (h : evolvePtr K post (.loop false i init c u s) = some n') (hs : s = s1 ++ .cons (.block (l1 ++ .lib op [p] [p] :: l2)) t s2)
    (hK : (K op).isSome = true) (hE : E.Advances op) (hunit : ∀ ρ : St, ρ.ev E u = ρ i [] + 1) (hcont : s1.noCont = true) (hret : s1.noRetChild = true)
    (hl2 : l2.all (·.evoOk K p false) = true) (hs2 : s2.evoOk K p false = true)
    (hfin : ∀ ρ : St, ∃ a, init.eval (ρ.val E) = .fin a) (hi : i ≠ p) (hii : i ∉ init.atoms) (hpi : p ∉ init.atoms) (hpc : p ∉ c.atoms)
    (hw : ∀ x, x = i ∨ x ∈ init.atoms → ¬ writes s.users x) :
    Rel.to Eq (AgreeOff (· = p)) ((Node.loop false i init c u s).den E) (n'.den E) := by
  simp only [evolvePtr] at h
  split at h
  · rename_i p' hit
    obtain ⟨rfl, m1, m2, m3, m4⟩ := iterator_split hret hs hK hit
    split at h
    · rename_i hok
      cases h
      simp only [Bool.and_eq_true] at hok
      obtain ⟨hok, _⟩ := hok
      have hp : p ∉ (evoIdx i init).atoms := fun q => (evoIdx_atoms q).elim (fun q => hi q.symm) hpi
      have hwe : ∀ x ∈ (evoIdx i init).atoms, ¬ writes s.users x := fun x hx => hw x (evoIdx_atoms hx)
      rw [hs] at hok
      obtain ⟨ok1, ok2⟩ := Seq.evoOk_append hret hok
      simp only [Seq.evoOk, Node.isRet, Bool.false_or, Bool.and_eq_true, Node.evoOk, List.all_append, List.all_cons] at ok2
      rw [hs, Seq.users_append' hret] at hwe
      simp only [Seq.users, Node.isRet, Bool.false_eq_true, if_false, Node.users, writes_append, not_or] at hwe
      -- the body, starting from a state `w`
      have body : ∀ w, Rel.step (Sh E p (evoIdx i init) w 0) (fun c σ τ => if c = .normal ∨ c = .cont then Sh E p (evoIdx i init) w 1 σ τ else AgreeOff (· = p) σ τ) (s.den E)
          ((s.evo K p (evoIdx i init)).den E) := by
        intro w
        rw [hs, Seq.evo_append, Seq.den_append, Seq.den_append]
        have b1 := Seq.sh_bis (E := E) (w := w) (.inl rfl) hp s1 ok1 m1 fun x hx => (hwe x hx).1
        refine Rel.step_seq (B := fun c σ τ => c ≠ .cont ∧ Sh E p (evoIdx i init) w 0 σ τ) ⟨fun σ τ c σ' ha hr => ?_, fun σ τ c τ' ha hr => ?_⟩ ?_ ?_
        · obtain ⟨τ', r, q⟩ := b1.1 _ _ _ _ ha hr
          exact ⟨τ', r, Seq.noCont_den E s1 hcont _ _ _ hr, q⟩
        · obtain ⟨σ', r, q⟩ := b1.2 _ _ _ _ ha hr
          exact ⟨σ', r, Seq.noCont_den E s1 hcont _ _ _ r, q⟩
        · rw [Seq.evo, Seq.den, Seq.den, Node.evo, Node.den, Node.den, Rel.upd_seq, Rel.upd_seq, Rel.upd_seq, Rel.upd_seq]
          have b2 := Seq.sh_bis (E := E) (w := w) (d := 1) (.inr rfl) hp s2 hs2 m4 fun x hx => (hwe x hx).2.2
          have mid : ∀ σ τ, Sh E p (evoIdx i init) w 0 σ τ → Sh E p (evoIdx i init) w 1 (runTrans E t (runBlock E (l1 ++ .lib op [p] [p] :: l2) σ))
              (runTrans E t (runBlock E (((l1 ++ .lib op [p] [p] :: l2).filter fun s => !s.movesPtr K).map (·.evo p (evoIdx i init))) τ)) := fun σ τ hq =>
            trans_sh t ok2.2.1 (fun x hx => (hwe x hx).2.1.2)
              (block_advance hE hK hp l1 ok2.1.1 m2 hl2 m3 (fun x hx => (hwe x hx).2.1.1) hq)
          have fin : ∀ c σ τ, Sh E p (evoIdx i init) w 1 σ τ → (if c = Ctl.normal ∨ c = .cont then Sh E p (evoIdx i init) w 1 σ τ else AgreeOff (· = p) σ τ) := fun c σ τ q => by
            split
            · exact q
            · exact fun x hx => q.off x hx
          constructor
          · intro σ τ c σ' ha hr
            obtain ⟨τ', r, q⟩ := b2.1 _ _ _ _ (mid _ _ ha.2) hr
            exact ⟨τ', r, fin _ _ _ q⟩
          · intro σ τ c τ' ha hr
            obtain ⟨σ', r, q⟩ := b2.2 _ _ _ _ (mid _ _ ha.2) hr
            exact ⟨σ', r, fin _ _ _ q⟩
        · intro c σ τ hc q
          rw [if_neg (fun o => o.elim hc q.1)]
          exact fun x hx => q.2.off x hx
      have body' : Rel.step (fun σ τ => Sh E p (evoIdx i init) τ 0 σ τ) (fun c σ τ => if c = .normal ∨ c = .cont then ∃ w, Sh E p (evoIdx i init) w 1 σ τ else AgreeOff (· = p) σ τ) (s.den E)
          ((s.evo K p (evoIdx i init)).den E) := by
        constructor
        · intro σ τ c σ' ha hr
          obtain ⟨τ', r, q⟩ := (body τ).1 _ _ _ _ ha hr
          refine ⟨τ', r, ?_⟩
          split at q <;> rename_i hc
          · rw [if_pos hc]; exact ⟨_, q⟩
          · rw [if_neg hc]; exact q
        · intro σ τ c σ' ha hr
          obtain ⟨τ', r, q⟩ := (body τ).2 _ _ _ _ ha hr
          refine ⟨τ', r, ?_⟩
          split at q <;> rename_i hc
          · rw [if_pos hc]; exact ⟨_, q⟩
          · rw [if_neg hc]; exact q
      rw [Node.den, Node.den, Rel.upd_seq, Rel.upd_seq]
      have it := Rel.step_iter (C := AgreeOff (· = p)) (b := fun σ => σ.cond E c) (b' := fun σ => σ.cond E c) (u := fun σ => σ.setS i (σ.ev E u)) (u' := fun σ => σ.setS i (σ.ev E u))
        (fun σ τ hA => hA.cond hpc) body' (fun k σ τ hk hB => ?_) (fun k σ τ hB => ?_) (fun σ τ hA x hx => hA.off x hx)
      · refine ⟨fun σ τ c σ' e hr => ?_, fun σ τ c τ' e hr => ?_⟩
        · subst e
          exact it.1 _ _ _ _ (evo_begin hfin hii σ) hr
        · subst e
          exact it.2 _ _ _ _ (evo_begin hfin hii σ) hr
      · rw [if_pos hk] at hB
        obtain ⟨w, hB⟩ := hB
        exact evo_next hfin hii hi hunit hB
      · split at hB
        · obtain ⟨w, hB⟩ := hB
          exact fun x hx => hB.off x hx
        · exact hB
    · cases h
  · cases h
where
  evo_begin {E : Env} {i p : String} {init : Expr} (hfin : ∀ ρ : St, ∃ a, init.eval (ρ.val E) = .fin a) (hii : i ∉ init.atoms) (σ : St) :
      Sh E p (evoIdx i init) (σ.setS i (σ.ev E init)) 0 (σ.setS i (σ.ev E init)) (σ.setS i (σ.ev E init)) := by
    refine ⟨fun _ _ => rfl, fun a r => ?_, fun _ _ => rfl⟩
    obtain ⟨v, hv⟩ := hfin (σ.setS i (σ.ev E init))
    rw [evoIdx_ev hv, St.setS_same]
    have : (σ.setS i (σ.ev E init)).ev E init = σ.ev E init := St.ev_congr E fun x hx => by rw [St.setS_other _ _ fun q : x = i => hii (q ▸ hx)]
    rw [this]
    have : a + (σ.ev E init - σ.ev E init + 0) = a := by omega
    rw [this]
  evo_next {E : Env} {i p : String} {init u : Expr} {w σ τ : St} (hfin : ∀ ρ : St, ∃ a, init.eval (ρ.val E) = .fin a) (hii : i ∉ init.atoms) (hi : i ≠ p)
      (hunit : ∀ ρ : St, ρ.ev E u = ρ i [] + 1) (h : Sh E p (evoIdx i init) w 1 σ τ) :
      Sh E p (evoIdx i init) (τ.setS i (τ.ev E u)) 0 (σ.setS i (σ.ev E u)) (τ.setS i (τ.ev E u)) := by
    have hu : σ.ev E u = τ.ev E u := by rw [hunit, hunit, h.off i hi]
    rw [hu]
    refine ⟨fun y hy => ?_, fun a r => ?_, fun _ _ => rfl⟩
    · funext j; simp only [St.setS, St.set]; rw [h.off y hy]
    · rw [St.setS_other _ _ (Ne.symm hi), St.setS_other _ _ (Ne.symm hi), h.win]
      obtain ⟨v, hv⟩ := hfin (τ.setS i (τ.ev E u))
      obtain ⟨v', hv'⟩ := hfin τ
      have e1 : (τ.setS i (τ.ev E u)).ev E init = τ.ev E init := St.ev_congr E fun x hx => by rw [St.setS_other _ _ fun q : x = i => hii (q ▸ hx)]
      rw [evoIdx_ev hv, St.setS_same, e1, hunit, ← h.idx, evoIdx_ev hv']
      have : a + (τ i [] - τ.ev E init + 1) = a + (τ i [] + 1 - τ.ev E init + 0) := by omega
      rw [this]

end Docc.IR
