import Verif.IR.DefsSim

/-
DeadDataElimination: erasing the definitions without recorded reads preserves the program, under conditions on the control flow; and
programs it breaks.
-/
namespace Docc.IR
open Docc.Sym DefSt

/-! ### the conditions -/

/-- the computation treats `x` as a scalar -/
def Stmt.tidy (x : String) : Stmt → Bool
  | .tasklet _ _ out sub => decide (out ≠ x) || sub.isEmpty
  | .lib _ _ ws => !decide (x ∈ ws)

/-- an assignment of `x` is not read later in the same transition -/
def transTidy (x : String) : Trans → Bool
  | [] => true
  | a :: r => (decide (a.1 ≠ x) || r.all fun b => !decide (x ∈ b.2.atoms)) && transTidy x r

/-- every branch writes `x` -/
def Brs.allAssign (x : String) : Brs → Bool
  | .nil => true
  | .cons _ s r => decide (x ∈ s.assigned) && r.allAssign x

mutual
/-- The writes of the scalar `x` are tidy.  Inside a loop or a branch (`nested`), an if-else that writes `x` is complete and writes it in all
branches, and a loop does not write `x` except as its variable.  The condition of a loop does not read an `x` written in the body, nor does its
update if the body may `continue`.  If a loop body may `break` or `continue`, no definition of `x` in it is closed in it. -/
def Node.tidy (O : DefOracle) (x : String) (pos : List Nat) (nested : Bool) : Node → Bool
  | .block l => l.all (Stmt.tidy x)
  | .seq s => s.tidy O x pos 0 nested
  | .ifElse b => (!nested || !decide (x ∈ b.assigned) || (O.complete b && b.allAssign x)) && b.tidy O x pos 0
  | .whileL s => (!nested || !decide (x ∈ s.assigned)) && s.tidy O x (pos ++ [0]) 0 true &&
      (s.noJump || (s.defs O (pos ++ [0]) 0 {}).cls.all fun e => decide (e.1.cont ≠ x))
  | .loop _ i _ cond upd s => s.tidy O x (pos ++ [0]) 0 true &&
      (decide (x = i) || !decide (x ∈ s.assigned) || (!nested && !decide (x ∈ cond.atoms) && (s.noJump || !decide (x ∈ upd.atoms)))) &&
      (s.noJump || (s.defs O (pos ++ [0]) 0 {}).cls.all fun e => decide (e.1.cont ≠ x))
  | .brk => true
  | .cont => true
  | .ret _ _ => true
/-- the children of a sequence -/
def Seq.tidy (O : DefOracle) (x : String) (pos : List Nat) (k : Nat) (nested : Bool) : Seq → Bool
  | .nil => true
  | .cons n t r => n.tidy O x (pos ++ [2 * k]) nested && transTidy x t && r.tidy O x pos (k + 1) nested
/-- the branches -/
def Brs.tidy (O : DefOracle) (x : String) (pos : List Nat) (k : Nat) : Brs → Bool
  | .nil => true
  | .cons _ s r => s.tidy O x (pos ++ [k]) 0 true && r.tidy O x pos (k + 1)
end

mutual
/-- the positions of the bodies of structured loops -/
def Node.bodies (pos : List Nat) : Node → List (List Nat)
  | .block _ => []
  | .seq s => s.bodies pos 0
  | .ifElse b => b.bodies pos 0
  | .whileL s => s.bodies (pos ++ [0]) 0
  | .loop _ _ _ _ _ s => (pos ++ [0]) :: s.bodies (pos ++ [0]) 0
  | .brk => []
  | .cont => []
  | .ret _ _ => []
/-- in a sequence -/
def Seq.bodies (pos : List Nat) (k : Nat) : Seq → List (List Nat)
  | .nil => []
  | .cons n _ r => n.bodies (pos ++ [2 * k]) ++ r.bodies pos (k + 1)
/-- in the branches -/
def Brs.bodies (pos : List Nat) (k : Nat) : Brs → List (List Nat)
  | .nil => []
  | .cons _ s r => s.bodies (pos ++ [k]) 0 ++ r.bodies pos (k + 1)
end

/-- The dominance analysis knows that a loop body may not run: a write inside the body at `q` does not post-dominate a write outside
(users.cpp:357-365 has an edge from the condition around the body). -/
def DefOracle.Skips (O : DefOracle) (q : List Nat) : Prop := ∀ w p : Usr, q <+: w.pos → ¬ q <+: p.pos → O.postdom w p = false

/-- what is assumed throughout -/
structure DdeCtx (O : DefOracle) (E : Env) (P : List Nat → String → Bool) (X : String → Prop) : Prop where
  mem : ∀ pos x, P pos x = true → X x
  scalar : ∀ x, X x → O.scalar x = true
  complete : ∀ b, O.complete b = true → ∀ σ : St, ∃ c ∈ b.conds, σ.cond E c = true

variable {O : DefOracle} {E : Env} {P : List Nat → String → Bool} {X : String → Prop}

theorem DdeCtx.dirty (C : DdeCtx O E P X) {In W : String → Prop} (hI : ∀ x, In x → X x) {st : DefSt} {x : String} (h : Dirty P In W st x) :
    X x := by
  rcases h with ⟨e, _, _, _, h⟩ | ⟨h, _⟩
  · exact C.mem _ _ h
  · exact hI x h

/-! ### straight-line code -/

theorem Stmt.reads_usrs {s : Stmt} {x : String} (pos : List Nat) (h : reads s.users x) : ∃ r ∈ s.readUsrs pos, r.cont = x := by
  cases s with
  | tasklet op ins out sub =>
    simp only [Stmt.users, reads_append, reads_readsOf] at h
    simp only [Stmt.readUsrs, List.mem_append, List.mem_flatMap]
    rcases h with ((h | h) | h) | h
    · obtain ⟨r, hr, rfl⟩ := List.mem_map.1 h
      exact ⟨_, Or.inl ⟨r, hr, List.mem_cons_self⟩, rfl⟩
    · obtain ⟨r, hr, hx⟩ := List.mem_flatMap.1 h
      exact ⟨⟨pos, x, [], false, false⟩, Or.inl ⟨r, hr, List.mem_cons_of_mem _ (List.mem_map.2 ⟨x, hx, rfl⟩)⟩, rfl⟩
    · exact ⟨⟨pos, x, [], false, false⟩, Or.inr (List.mem_map.2 ⟨x, h, rfl⟩), rfl⟩
    · simp [reads] at h
  | lib op rs ws =>
    simp only [Stmt.users, reads_append, reads_readsOf] at h
    rcases h with h | h
    · exact ⟨_, List.mem_map.2 ⟨x, h, rfl⟩, rfl⟩
    · simp [reads] at h

theorem AgreeS.drop {A : String → Prop} {σ τ : St} (h : AgreeS A σ τ) {x : String} (hx : σ x [] = τ x []) :
    AgreeS (fun y => A y ∧ y ≠ x) σ τ := by
  intro y j hy
  by_cases e : y = x
  · subst e
    by_cases hj : j = []
    · subst hj; exact hx
    · exact h y j fun _ => hj
  · exact h y j fun hA => hy ⟨hA, e⟩

/-- One computation: `A` may differ before; after it `B` may, where `B` keeps what is not written and has the erased output. -/
theorem stmt_sim (pure : String → Bool) {A B : String → Prop} (s : Stmt) (pos : List Nat) (hAX : ∀ x, A x → X x)
    (hP : ∀ x, P pos x = true → X x) (hr : ∀ r ∈ s.readUsrs pos, ¬ A r.cont) (hT : ∀ x, X x → s.tidy x = true)
    (h1 : ∀ x, A x → (∀ w ∈ s.writeUsrs pos, x ≠ w.cont) → B x) (h2 : ∀ w ∈ s.writeUsrs pos, P pos w.cont = true → B w.cont)
    {σ τ : St} (hA : AgreeS A σ τ) : AgreeS B (s.run E σ) (if s.keep pure P pos then s.run E τ else τ) := by
  have hrun : AgreeS A (s.run E σ) (s.run E τ) := hA.runStmt E s fun x hx h => by
    obtain ⟨r, hr', rfl⟩ := s.reads_usrs pos h
    exact hr r hr' hx
  cases s with
  | tasklet op ins out sub =>
    by_cases hk : P pos out = true
    · -- erased
      have hsub : sub = [] := by
        have := hT out (hP out hk)
        simpa [Stmt.tidy] using this
      subst hsub
      simp only [Stmt.keep, hk, Bool.not_true]
      have hB : B out := h2 ⟨pos, out, [], false, false⟩ (by simp [Stmt.writeUsrs]) hk
      have hAB : AgreeS B σ τ := hA.mono fun x hx => by
        by_cases e : x = out
        · exact e ▸ hB
        · exact h1 x hx fun w hw => by simp only [Stmt.writeUsrs, List.mem_singleton] at hw; subst hw; exact e
      exact hAB.setS_left hB _
    · simp only [Stmt.keep, hk, Bool.not_false, if_true]
      by_cases ho : A out
      · have hsub : sub = [] := by
          have := hT out (hAX out ho)
          simpa [Stmt.tidy] using this
        subst hsub
        have hz : (Stmt.tasklet op ins out []).run E σ out [] = (Stmt.tasklet op ins out []).run E τ out [] := by
          have hv : (ins.map fun r => σ r.1 (r.2.map (σ.ev E))) = ins.map fun r => τ r.1 (r.2.map (τ.ev E)) := by
            refine List.map_congr_left fun r hr' => ?_
            have e1 : r.2.map (σ.ev E) = r.2.map (τ.ev E) := by
              refine List.map_congr_left fun e he => hA.ev E fun x hx hX => ?_
              refine hr ⟨pos, x, [], false, false⟩ ?_ hX
              simp only [Stmt.readUsrs, List.mem_append, List.mem_flatMap]
              exact Or.inl ⟨r, hr', List.mem_cons_of_mem _ (List.mem_map.2 ⟨x, (Expr.mem_atomsL x r.2).2 ⟨e, he, hx⟩, rfl⟩)⟩
            have e2 : σ r.1 = τ r.1 := hA.off _ fun hX => by
              refine hr ⟨pos, r.1, r.2, false, false⟩ ?_ hX
              simp only [Stmt.readUsrs, List.mem_append, List.mem_flatMap]
              exact Or.inl ⟨r, hr', List.mem_cons_self⟩
            rw [e1, e2]
          simp only [Stmt.run, St.set, List.map_nil, and_self, if_true]
          rw [hv]
        exact (hrun.drop hz).mono fun x hx => h1 x hx.1 fun w hw => by
          simp only [Stmt.writeUsrs, List.mem_singleton] at hw; subst hw; exact hx.2
      · exact hrun.mono fun x hx => h1 x hx fun w hw => by
          simp only [Stmt.writeUsrs, List.mem_singleton] at hw; subst hw; exact fun e => ho ((show x = out from e) ▸ hx)
  | lib op rs ws =>
    have hno : ∀ x, X x → x ∉ ws := fun x hx => by
      have := hT x hx
      simpa [Stmt.tidy] using this
    have hk : (Stmt.lib op rs ws).keep pure P pos = true := by
      have : ws.any (P pos) = false := by
        rw [List.any_eq_false]
        intro w hw h
        exact hno w (hP w h) hw
      simp [Stmt.keep, this]
    rw [hk]
    exact hrun.mono fun x hx => h1 x hx fun w hw e => by
      simp only [Stmt.writeUsrs, List.mem_map] at hw
      obtain ⟨y, hy, rfl⟩ := hw
      exact hno x (hAX x hx) (e ▸ hy)

theorem block_sim (C : DdeCtx O E P X) (pure : String → Bool) {In : String → Prop} (hI : ∀ x, In x → X x) (pos : List Nat) :
    ∀ (l : List Stmt) (k : Nat) (st : DefSt) (W : String → Prop) (σ τ : St), Fine P In (defsBlock O pos k l st) →
      (∀ e ∈ st.opn, W e.1.cont) → (∀ x, X x → l.all (Stmt.tidy x) = true) → AgreeS (Dirty P In W st) σ τ →
      AgreeS (Dirty P In (fun x => W x ∨ x ∈ l.flatMap fun s => (s.writeUsrs []).map (·.cont)) (defsBlock O pos k l st))
        (runBlock E l σ) (runBlock E (eraseBlock pure P pos k l) τ)
  | [], k, st, W, σ, τ, _, _, _, hA => by
    refine hA.mono fun x hx => ?_
    rcases hx with h | ⟨h1, h2⟩
    · exact Or.inl h
    · exact Or.inr ⟨h1, fun h => h.elim h2 (by simp)⟩
  | s :: l, k, st, W, σ, τ, hF, hS, hT, hA => by
    rw [defsBlock] at hF ⊢
    have hle := block_le O pos l (k + 1)
      ((s.writeUsrs (pos ++ [k])).foldl (DefSt.write O false) ((s.readUsrs (pos ++ [k])).foldl (DefSt.read O) st))
    have hF1 : Fine P In ((s.readUsrs (pos ++ [k])).foldl (DefSt.read O) st) := hF.anti ((foldl_le (write_le O false) _ _).trans hle)
    have hclean := reads_clean (read_isRead O) _ st hF1 hS fun x hx => C.scalar x (C.dirty hI hx)
    have hkeys := (read_isRead O).fold_keys (s.readUsrs (pos ++ [k])) st
    have hT1 : ∀ x, X x → s.tidy x = true := fun x hx => by have := hT x hx; simp only [List.all_cons, Bool.and_eq_true] at this; exact this.1
    have hT2 : ∀ x, X x → l.all (Stmt.tidy x) = true := fun x hx => by
      have := hT x hx; simp only [List.all_cons, Bool.and_eq_true] at this; exact this.2
    let W1 : String → Prop := fun x => W x ∨ x ∈ (s.writeUsrs []).map (·.cont)
    have hstep := stmt_sim (E := E) (P := P) (X := X) pure s (pos ++ [k]) (A := Dirty P In W st)
      (B := Dirty P In W1 ((s.writeUsrs (pos ++ [k])).foldl (DefSt.write O false) ((s.readUsrs (pos ++ [k])).foldl (DefSt.read O) st)))
      (fun x hx => C.dirty hI hx) (fun x hx => C.mem _ _ hx) hclean hT1 ?_ ?_ hA
    · have hS2 : ∀ e ∈ ((s.writeUsrs (pos ++ [k])).foldl (DefSt.write O false) ((s.readUsrs (pos ++ [k])).foldl (DefSt.read O) st)).opn,
          W1 e.1.cont := by
        intro e he
        have hn : New (fun u => u.cont ∈ (s.writeUsrs []).map (·.cont)) st _ :=
          ((read_isRead O).new _ (s.readUsrs (pos ++ [k])) st).trans
            (foldl_new (s.writeUsrs (pos ++ [k])) (fun st w hw => write_new O false _ st w (writeUsrs_spec hw).2.1) _)
        rcases hn.1 e he with ⟨e0, m, hk⟩ | hq
        · exact Or.inl (hk ▸ hS e0 m)
        · exact Or.inr hq
      have hrec := block_sim C pure hI pos l (k + 1) _ W1 _ _ hF hS2 hT2 hstep
      have he : eraseBlock pure P pos k (s :: l) =
          if s.keep pure P (pos ++ [k]) then s :: eraseBlock pure P pos (k + 1) l else eraseBlock pure P pos (k + 1) l := rfl
      have hrw : runBlock E (eraseBlock pure P pos k (s :: l)) τ =
          runBlock E (eraseBlock pure P pos (k + 1) l) (if s.keep pure P (pos ++ [k]) then s.run E τ else τ) := by
        rw [he]; split <;> rfl
      rw [hrw]
      show AgreeS _ (runBlock E l (s.run E σ)) _
      refine hrec.mono fun x hx => ?_
      rcases hx with h | ⟨h1, h2⟩
      · exact Or.inl h
      · refine Or.inr ⟨h1, fun h => h2 ?_⟩
        rcases h with h | h
        · exact Or.inl (Or.inl h)
        · rw [List.flatMap_cons, List.mem_append] at h
          exact h.elim (fun h => Or.inl (Or.inr h)) Or.inr
    · intro x hx hw
      refine Dirty.writes_other (W := W) _ _ hw (fun h => ?_) (hx.keys hkeys.symm)
      rcases h with h | h
      · exact h
      · obtain ⟨w, hm, rfl⟩ := List.mem_map.1 h
        exfalso
        cases s with
        | tasklet op ins out sub =>
          simp only [Stmt.writeUsrs, List.mem_singleton] at hm hw
          subst hm
          exact hw _ rfl rfl
        | lib op rs ws =>
          simp only [Stmt.writeUsrs, List.mem_map] at hm hw
          obtain ⟨y, hy, rfl⟩ := hm
          exact hw _ ⟨y, hy, rfl⟩ rfl
    · intro w hw hp
      obtain ⟨h1, _, h3⟩ := writeUsrs_spec hw
      have : ∀ (ws : List Usr) (st : DefSt), w ∈ ws → (∀ v ∈ ws, v.cont = w.cont → v.pos = w.pos ∧ v.art = false) →
          Dirty P In W1 (ws.foldl (DefSt.write O false) st) w.cont := by
        intro ws
        induction ws with
        | nil => intro st hm; cases hm
        | cons v ws ih =>
          intro st hm hall
          by_cases hin : w ∈ ws
          · exact ih _ hin fun u hu => hall u (List.mem_cons_of_mem _ hu)
          · have hv : v = w := by
              rcases List.mem_cons.1 hm with h | h
              · exact h.symm
              · exact absurd h hin
            subst hv
            have hd : Dirty P In W1 (DefSt.write O false st v) v.cont := Dirty.write_self h3 (by rw [h1]; exact hp)
            by_cases hc : ∀ u ∈ ws, v.cont ≠ u.cont
            · exact Dirty.writes_other ws _ hc (fun h => h) hd
            · -- a later write of the same container
              clear hm ih
              have gen : ∀ (l : List Usr) (st : DefSt), (∀ u ∈ l, u.cont = v.cont → u.pos = v.pos ∧ u.art = false) →
                  Dirty P In W1 st v.cont → Dirty P In W1 (l.foldl (DefSt.write O false) st) v.cont := by
                intro l
                induction l with
                | nil => intro st _ h; exact h
                | cons u l ih =>
                  intro st hu h
                  refine ih _ (fun y hy => hu y (List.mem_cons_of_mem _ hy)) ?_
                  by_cases e : u.cont = v.cont
                  · rw [← e]
                    obtain ⟨p1, p2⟩ := hu u (by simp) e
                    exact Dirty.write_self p2 (by rw [p1, e, h1]; exact hp)
                  · exact h.write_other (fun h => e h.symm) fun h => h
              exact gen ws _ (fun u hu => hall u (List.mem_cons_of_mem _ hu)) hd
      exact this _ _ hw fun v hv _ => ⟨((writeUsrs_spec hv).1).trans h1.symm, (writeUsrs_spec hv).2.2⟩

theorem transTidy_cons {a : String × Expr} {t : Trans} (h : ∀ x, X x → transTidy x (a :: t) = true) :
    (X a.1 → ∀ b ∈ t, a.1 ∉ b.2.atoms) ∧ ∀ x, X x → transTidy x t = true := by
  refine ⟨fun hx b hb => ?_, fun x hx => ?_⟩
  · have := h a.1 hx
    simp only [transTidy, ne_eq, not_true_eq_false, decide_false, Bool.false_or, Bool.and_eq_true, List.all_eq_true] at this
    simpa using this.1 b hb
  · have := h x hx
    simp only [transTidy, Bool.and_eq_true] at this
    exact this.2

theorem trans_sim_aux (C : DdeCtx O E P X) {In : String → Prop} (hI : ∀ x, In x → X x) (pos : List Nat) :
    ∀ (t : Trans) (st : DefSt) (W : String → Prop) (σ τ : St), (∀ a ∈ t, ∀ x ∈ a.2.atoms, ¬ Dirty P In W st x) →
      (∀ x, X x → transTidy x t = true) → AgreeS (Dirty P In W st) σ τ →
      AgreeS (Dirty P In (fun x => W x ∨ x ∈ t.map (·.1)) ((t.map fun a => (⟨pos, a.1, [], false, false⟩ : Usr)).foldl (DefSt.write O true) st))
        (runTrans E t σ) (runTrans E (t.filter fun a => !P pos a.1) τ)
  | [], st, W, σ, τ, _, _, hA => by
    refine hA.mono fun x hx => ?_
    rcases hx with h | ⟨h1, h2⟩
    · exact Or.inl h
    · exact Or.inr ⟨h1, fun h => h.elim h2 (by simp)⟩
  | a :: t, st, W, σ, τ, hr, hT, hA => by
    obtain ⟨hT1, hT2⟩ := transTidy_cons hT
    let W1 : String → Prop := fun x => W x ∨ x = a.1
    let w : Usr := ⟨pos, a.1, [], false, false⟩
    have hr' : ∀ b ∈ t, ∀ x ∈ b.2.atoms, ¬ Dirty P In W1 (DefSt.write O true st w) x := by
      intro b hb x hx hd
      rcases hd.of_write (W := W) (fun h => Or.inl h) with h | ⟨h1, h2⟩
      · exact hr b (List.mem_cons_of_mem _ hb) x hx h
      · exact hT1 (C.mem _ _ h2) b hb ((show x = a.1 from h1) ▸ hx)
    have hev : σ.ev E a.2 = τ.ev E a.2 := hA.ev E (hr a (by simp))
    have hstep : AgreeS (Dirty P In W1 (DefSt.write O true st w)) (σ.setS a.1 (σ.ev E a.2))
        (if P pos a.1 then τ else τ.setS a.1 (τ.ev E a.2)) := by
      by_cases hp : P pos a.1 = true
      · simp only [hp, if_true]
        have hd : Dirty P In W1 (DefSt.write O true st w) a.1 := Dirty.write_self (w := w) rfl hp
        refine AgreeS.setS_left (hA.mono fun x hx => ?_) hd _
        by_cases e : x = a.1
        · exact e ▸ hd
        · exact hx.write_other (w := w) e fun h => h.elim id (fun h => absurd h e)
      · simp only [hp]
        rw [← hev]
        exact (hA.setS a.1 _).mono fun x hx => hx.1.write_other (w := w) hx.2 fun h => h.elim id (fun h => absurd h hx.2)
    have hrec := trans_sim_aux C hI pos t _ W1 _ _ hr' hT2 hstep
    have hrw : runTrans E ((a :: t).filter fun a => !P pos a.1) τ =
        runTrans E (t.filter fun a => !P pos a.1) (if P pos a.1 then τ else τ.setS a.1 (τ.ev E a.2)) := by
      by_cases hp : P pos a.1 = true
      · simp [hp]
      · simp only [List.filter_cons, hp]; rfl
    rw [hrw]
    show AgreeS _ (runTrans E t (σ.setS a.1 (σ.ev E a.2))) _
    refine hrec.mono fun x hx => ?_
    rcases hx with h | ⟨h1, h2⟩
    · exact Or.inl h
    · refine Or.inr ⟨h1, fun h => h2 ?_⟩
      simp only [List.map_cons, List.mem_cons] at h
      rcases h with h | h | h
      · exact Or.inl (Or.inl h)
      · exact Or.inl (Or.inr h)
      · exact Or.inr h

theorem trans_sim (C : DdeCtx O E P X) {In : String → Prop} (hI : ∀ x, In x → X x) (pos : List Nat) (t : Trans) (st : DefSt)
    (W : String → Prop) (σ τ : St) (hF : Fine P In (defsTrans O pos t st)) (hS : ∀ e ∈ st.opn, W e.1.cont)
    (hT : ∀ x, X x → transTidy x t = true) (hA : AgreeS (Dirty P In W st) σ τ) :
    AgreeS (Dirty P In (fun x => W x ∨ x ∈ t.map (·.1)) (defsTrans O pos t st)) (runTrans E t σ)
      (runTrans E (t.filter fun a => !P pos a.1) τ) := by
  unfold defsTrans at hF ⊢
  have hI0 := readName_isRead (fun _ => True)
  have hF1 := hF.anti (foldl_le (write_le O true) _ _)
  have hclean := reads_clean hI0 _ st hF1 hS fun x _ => trivial
  have hk := hI0.fold_keys (symUsrs pos (t.flatMap fun a => a.2.atoms)) st
  refine trans_sim_aux C hI pos t _ W σ τ ?_ hT (hA.mono fun x hx => hx.keys hk.symm)
  intro a ha x hx hd
  exact hclean ⟨pos, x, [], false, false⟩ (List.mem_map.2 ⟨x, List.mem_flatMap.2 ⟨a, ha, hx⟩, rfl⟩) (hd.keys hk)

/-! ### control flow -/

/-- outcomes carry over to a state with more definitions and to a bigger written set only where allowed -/
theorem Out.abrupt {In W W' : String → Prop} {a b : DefSt} (h : Le a b) {c : Ctl} (hc : c ≠ .normal) {x : String} (ho : Out P X In W a c x) :
    Out P X In W' b c x := by
  have key : ((∃ e ∈ a.all, e.1.cont = x ∧ e.1.art = false ∧ P e.1.pos x = true) ∨ In x) →
      (∃ e ∈ b.all, e.1.cont = x ∧ e.1.art = false ∧ P e.1.pos x = true) ∨ In x := by
    rintro (⟨e, m, h1, h2, h3⟩ | hi)
    · obtain ⟨e', m', k, _⟩ := h.1 e m
      exact Or.inl ⟨e', m', k ▸ h1, k ▸ h2, k ▸ h3⟩
    · exact Or.inr hi
  cases c with
  | normal => exact absurd rfl hc
  | brk => exact key ho
  | cont => exact key ho
  | ret d q => exact ho

/-- the branches: what they write and the state after visiting them -/
def Brs.outs (O : DefOracle) (pos : List Nat) (k : Nat) : Brs → List (List String × DefSt)
  | .nil => []
  | .cons _ s r => (s.assigned, s.defs O (pos ++ [k]) 0 {}) :: r.outs O pos (k + 1)

theorem Brs.outs_defs (O : DefOracle) (pos : List Nat) : ∀ (b : Brs) (k : Nat), b.defs O pos k = (b.outs O pos k).map (·.2)
  | .nil, k => by rw [Brs.defs]; rfl
  | .cons c s r, k => by rw [Brs.defs, r.outs_defs O pos (k + 1)]; rfl

theorem Brs.outs_assigned {O : DefOracle} {pos : List Nat} : ∀ (b : Brs) (k : Nat), ∀ p ∈ b.outs O pos k, ∀ e ∈ p.2.all, e.1.cont ∈ p.1
  | .nil, k, p, hp => by simp [Brs.outs] at hp
  | .cons c s r, k, p, hp => by
    rw [Brs.outs] at hp
    rcases List.mem_cons.1 hp with rfl | hp
    · exact fun e he => ((s.defs_new O (pos ++ [k]) 0 {}).from_empty e he).2
    · exact r.outs_assigned (k + 1) p hp

theorem Brs.outs_sub {O : DefOracle} {pos : List Nat} : ∀ (b : Brs) (k : Nat), ∀ p ∈ b.outs O pos k, ∀ x ∈ p.1, x ∈ b.assigned
  | .nil, k, p, hp => by simp [Brs.outs] at hp
  | .cons c s r, k, p, hp => by
    rw [Brs.outs] at hp
    intro x hx
    rw [Brs.assigned]
    rcases List.mem_cons.1 hp with rfl | hp
    · exact List.mem_append_left _ hx
    · exact List.mem_append_right _ (r.outs_sub (k + 1) p hp x hx)

theorem Brs.outs_all {O : DefOracle} {pos : List Nat} {x : String} : ∀ (b : Brs) (k : Nat), b.allAssign x = true → ∀ p ∈ b.outs O pos k, x ∈ p.1
  | .nil, k, _, p, hp => by simp [Brs.outs] at hp
  | .cons c s r, k, h, p, hp => by
    rw [Brs.outs] at hp
    simp only [Brs.allAssign, Bool.and_eq_true, decide_eq_true_eq] at h
    rcases List.mem_cons.1 hp with rfl | hp
    · exact h.1
    · exact r.outs_all (k + 1) h.2 p hp

/-- a container closed by a complete if-else is written in every branch -/
theorem ifCands_assigned {l : List (List String × DefSt)} (h : ∀ p ∈ l, ∀ e ∈ p.2.all, e.1.cont ∈ p.1) {x : String}
    (hx : x ∈ ifCands (l.map (·.2))) : ∀ p ∈ l, x ∈ p.1 := by
  cases l with
  | nil => intro p hp; cases hp
  | cons q r =>
    simp only [List.map_cons, ifCands, List.mem_filter, List.all_eq_true] at hx
    intro p hp
    rcases List.mem_cons.1 hp with rfl | hp
    · obtain ⟨e, he, rfl⟩ := List.mem_map.1 hx.1
      exact h p (by simp) e he
    · obtain ⟨e, he, hc⟩ := List.any_eq_true.1 (hx.2 p.2 (List.mem_map.2 ⟨p, hp, rfl⟩))
      rw [← of_decide_eq_true hc]
      exact h p (List.mem_cons_of_mem _ hp) e (List.mem_append_left _ he)

theorem header_keys (O : DefOracle) (pos : List Nat) (i : String) (init : Expr) (cond : Cond) (st : DefSt) :
    (defsHeader O pos i init cond st).opn.map (·.1) =
      (DefSt.write O true ((symUsrs (pos ++ [1]) init.atoms).foldl (DefSt.read O) st) ⟨pos ++ [1], i, [], false, false⟩).opn.map (·.1) ++
        [⟨pos ++ [2], i, [], false, false⟩] := by
  unfold defsHeader
  simp only
  rw [(read_isRead O).fold_keys]
  simp

/-- the header of a loop keeps what differs apart from the loop variable -/
theorem header_dirty {In W W' : String → Prop} {pos : List Nat} {i : String} {init : Expr} {cond : Cond} {st : DefSt} {x : String}
    (hx : x ≠ i) (hW : W' x → W x) (h : Dirty P In W st x) : Dirty P In W' (defsHeader O pos i init cond st) x := by
  have h1 := (h.keys ((read_isRead O).fold_keys (symUsrs (pos ++ [1]) init.atoms) st).symm).write_other (O := O) (d := true) (W' := W')
    (w := ⟨pos ++ [1], i, [], false, false⟩) hx hW
  rcases h1 with ⟨e, m, k⟩ | h1
  · have : e.1 ∈ (defsHeader O pos i init cond st).opn.map (·.1) := by
      rw [header_keys]
      exact List.mem_append_left _ (List.mem_map.2 ⟨e, m, rfl⟩)
    obtain ⟨e', m', k'⟩ := List.mem_map.1 this
    exact Or.inl ⟨e', m', by simpa only [k'] using k⟩
  · exact Or.inr h1

/-- conditions of a loop body that may jump: either it does not, or nothing relevant is closed in it -/
theorem jump_split {s : Seq} {b : DefSt} (h : ∀ x, X x → (s.noJump || b.cls.all fun e => decide (e.1.cont ≠ x)) = true) :
    s.noJump = true ∨ ∀ x, X x → ∀ e ∈ b.cls, e.1.cont ≠ x := by
  by_cases hj : s.noJump = true
  · exact Or.inl hj
  · refine Or.inr fun x hx e he => ?_
    have := h x hx
    simp only [hj, Bool.false_or, List.all_eq_true] at this
    simpa using this e he

mutual
theorem Node.dde (C : DdeCtx O E P X) (pure : String → Bool) : (n : Node) → (pos : List Nat) → (st : DefSt) → (In W : String → Prop) →
    (nested : Bool) → Fine P In (n.defs O pos st) → (∀ e ∈ st.opn, W e.1.cont) → (∀ e ∈ st.opn, LeftOf e.1.pos pos) →
    (∀ x, X x → n.tidy O x pos nested = true) → (∀ q ∈ n.bodies pos, O.Skips q) → (nested = false → ∀ x, ¬ In x) → (∀ x, In x → X x) →
    Both (Dirty P In W st) (Out P X In (fun x => W x ∨ x ∈ n.assigned) (n.defs O pos st)) (n.den E) ((n.eraseDefs pure P pos).den E)
  | .block l, pos, st, In, W, nested, hF, hS, hL, hT, hq, hN, hI => by
    rw [Node.defs] at hF
    rw [Node.den, Node.eraseDefs, Node.den, Node.defs, Node.assigned]
    refine Both.upd fun σ τ hA => ?_
    exact block_sim C pure hI pos l 0 st W σ τ hF hS (fun x hx => by have := hT x hx; rwa [Node.tidy] at this) hA
  | .seq s, pos, st, In, W, nested, hF, hS, hL, hT, hq, hN, hI => by
    rw [Node.defs] at hF
    rw [Node.den, Node.eraseDefs, Node.den, Node.defs, Node.assigned]
    rw [Node.bodies] at hq
    exact s.dde C pure pos 0 st In W nested hF hS (fun e he => Or.inl (hL e he)) (fun x hx => by have := hT x hx; rwa [Node.tidy] at this) hq hN hI
  | .ifElse b, pos, st, In, W, nested, hF, hS, hL, hT, hq, hN, hI => by
    rw [Node.defs] at hF
    rw [Node.den, Node.eraseDefs, Node.den, Node.defs, Node.assigned]
    rw [Node.bodies] at hq
    have hT1 : ∀ x, X x → nested = true → x ∈ b.assigned → O.complete b = true ∧ b.allAssign x = true := fun x hx hn ha => by
      have := hT x hx
      simp only [Node.tidy, Bool.and_eq_true, Bool.or_eq_true, hn, ha, decide_true, Bool.not_true, Bool.false_eq_true, false_or] at this
      exact this.1
    have hT2 : ∀ x, X x → b.tidy O x pos 0 = true := fun x hx => by
      have := hT x hx
      simp only [Node.tidy, Bool.and_eq_true] at this
      exact this.2
    have hsc : ∀ x, Dirty P In W st x → O.scalar x = true := fun x hx => C.scalar x (C.dirty hI hx)
    have hk1 := (read_isRead O).fold_keys (symUsrs pos b.condAtoms) st
    have hFm : Fine P In (ifMid O pos b (b.defs O pos 0) st) := hF.anti (if_le_mid O pos b _ st)
    have hF1 : Fine P In ((symUsrs pos b.condAtoms).foldl (DefSt.read O) st) := hFm.anti (foldl_le (read_isRead O).le _ _)
    have hcond : ∀ x ∈ b.condAtoms, ¬ Dirty P In W st x := fun x hx =>
      reads_clean (read_isRead O) _ st hF1 hS hsc ⟨pos, x, [], false, false⟩ (List.mem_map.2 ⟨x, hx, rfl⟩)
    have hund : ∀ r ∈ (b.defs O pos 0).flatMap DefSt.undef, ¬ Dirty P In W st r.cont := fun r hr hd => by
      refine reads_clean (read_isRead O) _ _ hFm ?_ ?_ r hr (hd.keys hk1.symm)
      · intro e he
        obtain ⟨e', m, k⟩ := mem_keys hk1 he
        exact k ▸ hS e' m
      · exact fun x hx => hsc x (hx.keys hk1)
    have hkm : (ifMid O pos b (b.defs O pos 0) st).opn.map (·.1) = st.opn.map (·.1) := by
      unfold ifMid
      rw [(read_isRead O).fold_keys, hk1]
    have hmem : ∀ p ∈ b.outs O pos 0, p.2 ∈ b.defs O pos 0 := fun p hp => by
      rw [Brs.outs_defs]; exact List.mem_map.2 ⟨p, hp, rfl⟩
    -- the open definitions before stay open unless every branch writes the container
    have hstay : ∀ e ∈ st.opn, (O.complete b = true → ¬ e.1.cont ∈ ifCands (b.defs O pos 0)) →
        ∃ e' ∈ (defsIf O pos b (b.defs O pos 0) st).opn, e'.1 = e.1 := by
      intro e he hc
      obtain ⟨e', m, k⟩ := mem_keys hkm.symm he
      refine ⟨e', ?_, k⟩
      unfold defsIf
      simp only
      show e' ∈ DefSt.opn (if O.complete b = true then _ else _)
      split
      · rename_i hcb
        refine List.mem_append_left _ (List.mem_filter.2 ⟨m, ?_⟩)
        rw [k]
        simpa using hc hcb
      · exact List.mem_append_left _ (List.mem_append_left _ m)
    have hfin : ∀ x, Dirty P In W st x → (O.complete b = true → x ∈ ifCands (b.defs O pos 0) → False) →
        (x ∈ b.assigned → ¬ (nested = true)) → Dirty P In (fun x => W x ∨ x ∈ b.assigned) (defsIf O pos b (b.defs O pos 0) st) x := by
      intro x hx hc hn
      rcases hx with ⟨e, m, h1, h2, h3⟩ | ⟨h1, h2⟩
      · obtain ⟨e', m', k⟩ := hstay e m fun hcb h => hc hcb (h1 ▸ h)
        exact Or.inl ⟨e', m', by rw [k]; exact ⟨h1, h2, h3⟩⟩
      · refine Or.inr ⟨h1, fun h => h.elim h2 fun ha => ?_⟩
        cases nested with
        | false => exact hN rfl x h1
        | true => exact hn ha rfl
    have hbr := b.dde C pure pos 0 (Dirty P In W st) (Out P X In (fun x => W x ∨ x ∈ b.assigned) (defsIf O pos b (b.defs O pos 0) st))
      (fun d hd => Fine.body (if_sub hd) hF fun r hr => hund r (List.mem_flatMap.2 ⟨d, hd, hr⟩)) hcond hT2 hq
      (fun x hx => C.dirty hI hx) ?_
    · have hfall : ∀ σ : St, (∀ c ∈ b.conds, σ.cond E c = false) → ∀ x, Dirty P In W st x →
          Out P X In (fun x => W x ∨ x ∈ b.assigned) (defsIf O pos b (b.defs O pos 0) st) .normal x := by
        intro σ hσ x hx
        have hnc : O.complete b = true → False := fun h => by
          obtain ⟨c, hc, ht⟩ := C.complete b h σ
          rw [hσ c hc] at ht
          cases ht
        exact hfin x hx (fun h _ => hnc h) fun ha hn => hnc (hT1 x (C.dirty hI hx) hn ha).1
      refine ⟨fun σ τ hA c σ' h => (hbr σ τ hA (hfall σ)).1 c σ' h, fun σ τ hA c σ' h => ?_⟩
      obtain ⟨τ', h1, h2⟩ := (hbr τ σ hA.symm (hfall τ)).2 c σ' h
      exact ⟨τ', h1, h2.symm⟩
    · intro p hp c x hx
      have habr : ((∃ e ∈ p.2.all, e.1.cont = x ∧ e.1.art = false ∧ P e.1.pos x = true) ∨ Dirty P In W st x) →
          (∃ e ∈ (defsIf O pos b (b.defs O pos 0) st).all, e.1.cont = x ∧ e.1.art = false ∧ P e.1.pos x = true) ∨ In x := by
        rintro (⟨e, m, k⟩ | ⟨e, m, k⟩ | ⟨h, _⟩)
        · obtain ⟨e', m', k', _⟩ := if_sub (O := O) (pos := pos) (b := b) (st := st) (hmem p hp) e m
          exact Or.inl ⟨e', m', by rw [k']; exact k⟩
        · obtain ⟨e', m', k', _⟩ := (if_le O pos b (b.defs O pos 0) st).1 e (List.mem_append_left _ m)
          exact Or.inl ⟨e', m', by rw [k']; exact k⟩
        · exact Or.inr h
      cases c with
      | brk => exact habr hx
      | cont => exact habr hx
      | ret d q => exact hx
      | normal =>
        rcases hx with ⟨e, m, k⟩ | ⟨h1, h2⟩
        · exact Or.inl ⟨e, if_opn (hmem p hp) m, k⟩
        · refine hfin x h1 (fun _ hc => h2 ?_) fun ha hn => h2 ?_
          · rw [Brs.outs_defs] at hc
            exact ifCands_assigned (fun p hp => b.outs_assigned 0 p hp) hc p hp
          · exact b.outs_all 0 (hT1 x (C.dirty hI h1) hn ha).2 p hp
  | .whileL s, pos, st, In, W, nested, hF, hS, hL, hT, hq, hN, hI => by
    rw [Node.defs] at hF
    rw [Node.den, Node.eraseDefs, Node.den, Node.defs, Node.assigned]
    rw [Node.bodies] at hq
    have hT1 : ∀ x, X x → nested = true → x ∈ s.assigned → False := fun x hx hn ha => by
      have := hT x hx
      simp only [Node.tidy, Bool.and_eq_true, Bool.or_eq_true, hn, ha, decide_true, Bool.not_true, Bool.false_eq_true, false_or, false_and] at this
    have hT2 : ∀ x, X x → s.tidy O x (pos ++ [0]) 0 true = true := fun x hx => by
      have := hT x hx
      simp only [Node.tidy, Bool.and_eq_true] at this
      exact this.1.2
    have hT3 := jump_split (X := X) (s := s) (b := s.defs O (pos ++ [0]) 0 {}) fun x hx => by
      have := hT x hx
      simp only [Node.tidy, Bool.and_eq_true] at this
      exact this.2
    generalize hb : s.defs O (pos ++ [0]) 0 {} = b at hF hT3 ⊢
    let D : String → Prop := fun x => ∃ e ∈ b.opn, e.1.cont = x ∧ e.1.art = false ∧ P e.1.pos x = true
    let I : String → Prop := fun x => Dirty P In W st x ∨ D x
    have hIX : ∀ x, I x → X x := fun x hx => hx.elim (fun h => C.dirty hI h) fun ⟨e, _, _, _, h⟩ => C.mem _ _ h
    have hR := readName_isRead (fun _ => True)
    have hund : ∀ r ∈ b.undef, ¬ I r.cont := by
      intro r hr hi
      rcases hi with hd | ⟨e, m, h1, h2, h3⟩
      · refine reads_clean hR b.undef { st with cls := st.cls ++ b.cls } (hF.anti ?_) hS (fun _ _ => trivial) r hr hd
        refine ⟨fun e he => ⟨e, ?_, rfl, fun _ h => h⟩, fun _ h => h⟩
        rcases List.mem_append.1 he with h | h
        · exact List.mem_append_left _ (List.mem_append_left _ h)
        · exact List.mem_append_right _ h
      · have hm : ((e.1, e.2 ++ b.undef.filter fun r => decide (e.1.cont = r.cont)) : Def) ∈ (defsWhile b st).all :=
          List.mem_append_left _ (List.mem_append_right _ (List.mem_map.2 ⟨e, m, rfl⟩))
        have := hF.1 _ hm h2 fun h0 => by
          have : r ∈ e.2 ++ b.undef.filter fun r => decide (e.1.cont = r.cont) :=
            List.mem_append_right _ (List.mem_filter.2 ⟨hr, by simpa using h1⟩)
          simp only at h0
          rw [h0] at this
          cases this
        simp only [h1] at this
        rw [h3] at this
        cases this
    have hFb : Fine P I b := Fine.body (while_sub b st) hF hund
    have hbody := s.dde C pure (pos ++ [0]) 0 {} I (fun _ => False) true (hb ▸ hFb) (fun e he => by cases he) (fun e he => by cases he)
      hT2 hq (fun h => by cases h) hIX
    rw [hb] at hbody
    -- the outcomes of the body
    have hbody' := hbody.restrict (A' := I) (B' := fun c x => match c with | .ret d q => Out P X I (fun _ => False) b (.ret d q) x | _ => I x)
      (fun x hx => Or.inr ⟨hx, id⟩) (fun c => s.noJump = true → c.proper = true) (fun σ c σ' h hj => s.noJump_proper E hj σ c σ' h) ?_
    · refine Both.restrict (A' := Dirty P In W st) (Both.forever (C := Out P X In (fun x => W x ∨ x ∈ s.assigned) (defsWhile b st)) hbody' ?_ ?_ ?_ ?_)
        (fun x hx => Or.inl hx) (fun _ => True) (fun _ _ _ _ => trivial) fun _ _ _ h => h
      · exact fun x hx => hx
      · exact fun x hx => hx
      · intro x hx
        rcases hx with (⟨e, m, k⟩ | ⟨h1, h2⟩) | ⟨e, m, k⟩
        · have hkeys := hR.fold_keys b.undef { st with cls := st.cls ++ b.cls }
          obtain ⟨e', m', k'⟩ := mem_keys hkeys.symm m
          exact Or.inl ⟨e', List.mem_append_left _ m', by rw [k']; exact k⟩
        · refine Or.inr ⟨h1, fun h => h.elim h2 fun ha => ?_⟩
          cases nested with
          | false => exact hN rfl x h1
          | true => exact hT1 x (hI x h1) rfl ha
        · exact Or.inl ⟨_, List.mem_append_right _ (List.mem_map.2 ⟨e, m, rfl⟩), k⟩
      · exact fun d q x hx => hx
    · intro c hc x hx
      have habr : c.proper = false → ((∃ e ∈ b.all, e.1.cont = x ∧ e.1.art = false ∧ P e.1.pos x = true) ∨ I x) → I x := by
        rintro hp (⟨e, m, k⟩ | h)
        · rcases List.mem_append.1 m with m | m
          · exact Or.inr ⟨e, m, k⟩
          · rcases hT3 with hj | hj
            · rw [hc hj] at hp; cases hp
            · exact absurd k.1 (hj x (C.mem _ _ k.2.2) e m)
        · exact h
      cases c with
      | brk => exact habr rfl hx
      | cont => exact habr rfl hx
      | ret d q => exact hx
      | normal =>
        rcases hx with h | ⟨h1, _⟩
        · exact Or.inr h
        · exact h1
  | .loop m i init cond upd s, pos, st, In, W, nested, hF, hS, hL, hT, hq, hN, hI => by
    rw [Node.defs] at hF
    rw [Node.den, Node.eraseDefs, Node.den, Node.defs, Node.assigned]
    rw [Node.bodies] at hq
    have hT2 : ∀ x, X x → s.tidy O x (pos ++ [0]) 0 true = true := fun x hx => by
      have := hT x hx
      simp only [Node.tidy, Bool.and_eq_true] at this
      exact this.1.1
    have hT1 : ∀ x, X x → x ≠ i → x ∈ s.assigned → nested = false ∧ x ∉ cond.atoms ∧ (x ∈ upd.atoms → s.noJump = true) := fun x hx hi ha => by
      have := hT x hx
      simp only [Node.tidy, Bool.and_eq_true, Bool.or_eq_true, hi, ha, decide_true, decide_false, Bool.not_true, Bool.false_eq_true, false_or,
        Bool.not_eq_true', decide_eq_false_iff_not] at this
      exact ⟨this.1.2.1.1, this.1.2.1.2, fun hu => this.1.2.2.elim id fun h => absurd hu h⟩
    have hT3 := jump_split (X := X) (s := s) (b := s.defs O (pos ++ [0]) 0 {}) fun x hx => by
      have := hT x hx
      simp only [Node.tidy, Bool.and_eq_true] at this
      exact this.2
    have hskip : O.Skips (pos ++ [0]) := hq _ List.mem_cons_self
    have hnew0 := s.defs_new O (pos ++ [0]) 0 {}
    generalize hb0 : s.defs O (pos ++ [0]) 0 {} = b0 at hF hT3 hnew0 ⊢
    generalize hh : defsHeader O pos i init cond st = hd at hF ⊢
    generalize hb : (symUsrs (pos ++ [2]) upd.atoms).foldl (DefSt.read O) b0 = b at hF ⊢
    have hbk : b.opn.map (·.1) = b0.opn.map (·.1) := by rw [← hb]; exact (read_isRead O).fold_keys _ _
    have hbc : b.cls = b0.cls := by rw [← hb]; exact (read_isRead O).fold_cls _ _
    have hle0 : Le b0 b := by rw [← hb]; exact foldl_le (read_isRead O).le _ _
    have hbU : ∀ e ∈ b.opn, (pos ++ [0]) <+: e.1.pos ∧ e.1.cont ∈ s.assigned := fun e he => by
      obtain ⟨e', m, k⟩ := mem_keys hbk he
      exact k ▸ hnew0.from_empty e' (List.mem_append_left _ m)
    let W1 : String → Prop := fun x => W x ∨ x = i
    have hSh : ∀ e ∈ hd.opn, W1 e.1.cont := by
      intro e he
      have hn := header_new O pos (fun u => u.cont = i) i init cond st rfl rfl
      rw [hh] at hn
      rcases hn.1 e he with ⟨e0, m, k⟩ | h
      · exact Or.inl (k ▸ hS e0 m)
      · exact Or.inr h
    have hLh : ∀ e ∈ hd.opn, ¬ (pos ++ [0]) <+: e.1.pos := by
      intro e he
      have hn := header_new O pos (fun u => u.pos = pos ++ [1] ∨ u.pos = pos ++ [2]) i init cond st (Or.inl rfl) (Or.inr rfl)
      rw [hh] at hn
      rcases hn.1 e he with ⟨e0, m, k⟩ | h
      · exact k ▸ (hL e0 m).ext.not_under
      · intro hp
        have : (pos ++ [0]) = e.1.pos := hp.eq_of_length (by rcases h with h | h <;> rw [h] <;> simp)
        rcases h with h | h <;> rw [h] at this <;> simp at this
    have hFh : Fine P In hd := hF.anti (for_le O i upd b hd)
    let D : String → Prop := fun x => ∃ e ∈ b.opn, e.1.cont = x ∧ e.1.art = false ∧ P e.1.pos x = true
    have hDs : ∀ x, D x → x ∈ s.assigned := fun x ⟨e, m, h1, _⟩ => h1 ▸ (hbU e m).2
    have hDX : ∀ x, D x → X x := fun x ⟨e, _, _, _, h⟩ => C.mem _ _ h
    let I : String → Prop := fun x => (Dirty P In W1 hd x ∨ D x) ∧ x ≠ i
    have hIX : ∀ x, I x → X x := fun x hx => hx.1.elim (fun h => C.dirty hI h) (hDX x)
    have hscal : ∀ x, Dirty P In W1 hd x → O.scalar x = true := fun x hx => C.scalar x (C.dirty hI hx)
    -- the initial value
    have hinit : ∀ x ∈ init.atoms, ¬ Dirty P In W st x := fun x hx => by
      refine reads_clean (read_isRead O) (symUsrs (pos ++ [1]) init.atoms) st (hFh.anti ?_) hS (fun y hy => C.scalar y (C.dirty hI hy))
        ⟨pos ++ [1], x, [], false, false⟩ (List.mem_map.2 ⟨x, hx, rfl⟩)
      rw [← hh]
      unfold defsHeader
      refine ((write_le O true _ ⟨pos ++ [1], i, [], false, false⟩).trans ?_).trans (foldl_le (read_isRead O).le _ _)
      refine ⟨fun e he => ⟨e, ?_, rfl, fun _ h => h⟩, fun _ h => h⟩
      rcases List.mem_append.1 he with h | h
      · exact List.mem_append_left _ (List.mem_append_left _ h)
      · exact List.mem_append_right _ h
    have hfirst : ∀ x, Dirty P In W st x ∧ x ≠ i → I x := by
      intro x ⟨hx, hi⟩
      refine ⟨Or.inl ?_, hi⟩
      rw [← hh]
      exact header_dirty hi (fun h => h.elim id fun h => absurd h hi) hx
    -- the condition
    have hcond : ∀ x ∈ cond.atoms, ¬ I x := by
      intro x hx ⟨h, hi⟩
      rcases h with h | h
      · have hF' := hFh
        rw [← hh] at h hF'
        unfold defsHeader at h hF'
        have hk := (read_isRead O).fold_keys (symUsrs (pos ++ [3]) cond.atoms)
          { DefSt.write O true ((symUsrs (pos ++ [1]) init.atoms).foldl (DefSt.read O) st) ⟨pos ++ [1], i, [], false, false⟩ with
            opn := (DefSt.write O true ((symUsrs (pos ++ [1]) init.atoms).foldl (DefSt.read O) st) ⟨pos ++ [1], i, [], false, false⟩).opn ++
              [(⟨pos ++ [2], i, [], false, false⟩, [])] }
        refine reads_clean (W := W1) (read_isRead O) _ _ hF' ?_ (fun y hy => C.scalar y (C.dirty hI hy))
          ⟨pos ++ [3], x, [], false, false⟩ (List.mem_map.2 ⟨x, hx, rfl⟩) (h.keys hk)
        intro e he
        obtain ⟨e', m', k'⟩ := mem_keys hk.symm he
        rw [← k']
        refine hSh e' ?_
        rw [← hh]
        exact m'
      · exact (hT1 x (hDX x h) hi (hDs x h)).2.1 hx
    -- undefined reads of the body
    have hund : ∀ r ∈ b.undef, ¬ I r.cont := by
      intro r hr ⟨h, hi⟩
      rcases h with h | ⟨e, m, h1, h2, h3⟩
      · refine reads_clean (W := W1) (forward_isRead O) b.undef { hd with cls := hd.cls ++ b.cls } (hF.anti ?_) hSh
          (fun x hx => hscal x hx) r hr h
        refine ⟨fun e he => ⟨e, ?_, rfl, fun _ h => h⟩, fun _ h => h⟩
        unfold defsFor
        simp only [DefSt.all, List.mem_append, List.mem_filter] at he ⊢
        rcases he with he | he
        · by_cases h : (b.opn.any fun w => O.closes true e.1 w.1) = true
          · exact Or.inr (Or.inr ⟨he, h⟩)
          · exact Or.inl (Or.inl ⟨he, by simp only [Bool.not_eq_true] at h; rw [h]; rfl⟩)
        · exact Or.inr (Or.inl he)
      · have hm : ((e.1, e.2 ++ b.undef.filter fun r => O.carried i upd e.1 r) : Def) ∈ (defsFor O i upd b hd).all :=
          List.mem_append_left _ (List.mem_append_right _ (List.mem_map.2 ⟨e, m, rfl⟩))
        have hs : O.scalar e.1.cont = true := C.scalar _ (h1 ▸ C.mem _ _ h3)
        have := hF.1 _ hm h2 fun h0 => by
          have : r ∈ e.2 ++ b.undef.filter fun r => O.carried i upd e.1 r :=
            List.mem_append_right _ (List.mem_filter.2 ⟨hr, by
              simp only [DefOracle.carried, loopDepends, DefOracle.depends, h1, decide_true, Bool.true_and]
              rw [h1] at hs
              simp [hs]⟩)
          simp only at h0
          rw [h0] at this
          cases this
        simp only [h1] at this
        rw [h3] at this
        cases this
    have hFb : Fine P I b := Fine.body (for_sub O i upd b hd) hF hund
    have hbody := s.dde C pure (pos ++ [0]) 0 {} I (fun _ => False) true (hb0 ▸ hFb.anti hle0) (fun e he => by cases he)
      (fun e he => by cases he) hT2 (fun q hq' => hq q (List.mem_cons_of_mem _ hq')) (fun h => by cases h) hIX
    rw [hb0] at hbody
    -- what may differ when the update runs
    let J : String → Prop := fun x => D x ∨ (I x ∧ (x ∈ s.assigned → s.noJump = false))
    have hupd : ∀ x ∈ upd.atoms, ¬ J x := by
      intro x hx hj
      have hmem : (⟨pos ++ [2], x, [], false, false⟩ : Usr) ∈ symUsrs (pos ++ [2]) upd.atoms := List.mem_map.2 ⟨x, hx, rfl⟩
      have hFb' := hFb
      rw [← hb] at hFb'
      have hcl := reads_clean (W := fun y => y ∈ s.assigned) (In := I) (read_isRead O) (symUsrs (pos ++ [2]) upd.atoms) b0 hFb'
        (fun e he => (hnew0.from_empty e (List.mem_append_left _ he)).2) (fun y hy => C.scalar y (C.dirty hIX hy)) _ hmem
      rcases hj with ⟨e, m, k⟩ | ⟨h1, h2⟩
      · obtain ⟨e', m', k'⟩ := mem_keys hbk m
        exact hcl (Or.inl ⟨e', m', by rw [k']; exact k⟩)
      · by_cases ha : x ∈ s.assigned
        · have := (hT1 x (hIX x h1) h1.2 ha).2.2 hx
          rw [h2 ha] at this
          cases this
        · exact hcl (Or.inr ⟨h1, ha⟩)
    have hDI : ∀ x, I x → Out P X In (fun x => W x ∨ x ∈ i :: s.assigned) (defsFor O i upd b hd) .normal x := by
      intro x ⟨h, hi⟩
      rcases h with (⟨e, m, k⟩ | ⟨h1, h2⟩) | ⟨e, m, k⟩
      · have hkeys := (forward_isRead O).fold_keys b.undef { hd with cls := hd.cls ++ b.cls }
        obtain ⟨e', m', k'⟩ := mem_keys hkeys.symm m
        refine Or.inl ⟨e', List.mem_append_left _ (List.mem_filter.2 ⟨m', ?_⟩), by rw [k']; exact k⟩
        have : b.opn.any (fun w => O.closes true e'.1 w.1) = false := by
          rw [List.any_eq_false]
          intro w hw hc
          simp only [DefOracle.closes, Bool.not_true, Bool.false_or, Bool.and_eq_true] at hc
          have := hskip w.1 e'.1 (hbU w hw).1 (k' ▸ hLh e m)
          rw [this] at hc
          simp at hc
        simp [this]
      · refine Or.inr ⟨h1, fun h => ?_⟩
        rcases h with h | h
        · exact h2 (Or.inl h)
        · rcases List.mem_cons.1 h with h | h
          · exact hi h
          · have := (hT1 x (hI x h1) hi h).1
            exact hN this x h1
      · exact Or.inl ⟨_, List.mem_append_right _ (List.mem_map.2 ⟨e, m, rfl⟩), k⟩
    have hbody' := hbody.restrict (A' := I)
      (B' := fun c x => match c with | .ret d q => Out P X I (fun _ => False) b0 (.ret d q) x | .brk => D x ∨ I x | _ => J x)
      (fun x hx => Or.inr ⟨hx, id⟩) (fun c => s.noJump = true → c.proper = true) (fun σ c σ' h hj => s.noJump_proper E hj σ c σ' h) ?_
    · refine Both.seq (B := fun c => match c with | .normal => I | _ => fun _ => False) (Both.upd fun σ τ hA => ?_) (Both.iter hbody' ?_ ?_ ?_ ?_ ?_ ?_) ?_
      · rw [← hA.ev E hinit]
        exact (hA.setS i _).mono hfirst
      · exact fun σ τ hA => hA.cond E hcond
      · intro σ τ hA
        simp only
        rw [← hA.ev E hupd]
        exact (hA.setS i _).mono fun x ⟨hx, hi⟩ => hx.elim (fun h => ⟨Or.inr h, hi⟩) fun h => h.1
      · intro σ τ hA
        simp only
        rw [← hA.ev E hupd]
        exact (hA.setS i _).mono fun x ⟨hx, hi⟩ => hx.elim (fun h => ⟨Or.inr h, hi⟩) fun h => h.1
      · exact hDI
      · intro x hx
        rcases hx with ⟨e, m, k⟩ | hx
        · exact Or.inl ⟨_, List.mem_append_right _ (List.mem_map.2 ⟨e, m, rfl⟩), k⟩
        · exact hDI x hx
      · exact fun d q x hx => hx
      · intro c hc
        intro x hx
        cases c with
        | normal => exact absurd rfl hc
        | brk => exact hx.elim
        | cont => exact hx.elim
        | ret d q => exact hx.elim
    · intro c hc x hx
      have hD : (∃ e ∈ b0.opn, e.1.cont = x ∧ e.1.art = false ∧ P e.1.pos x = true) → D x := fun ⟨e, m, k⟩ => by
        obtain ⟨e', m', k'⟩ := mem_keys hbk.symm m
        exact ⟨e', m', by rw [k']; exact k⟩
      have habr : c.proper = false → ((∃ e ∈ b0.all, e.1.cont = x ∧ e.1.art = false ∧ P e.1.pos x = true) ∨ I x) → D x ∨ I x := by
        rintro hp (⟨e, m, k⟩ | h)
        · rcases List.mem_append.1 m with m | m
          · exact Or.inl (hD ⟨e, m, k⟩)
          · rcases hT3 with hj | hj
            · rw [hc hj] at hp; cases hp
            · exact absurd k.1 (hj x (C.mem _ _ k.2.2) e m)
        · exact Or.inr h
      cases c with
      | brk => exact habr rfl hx
      | cont =>
        rcases habr rfl hx with h | h
        · exact Or.inl h
        · refine Or.inr ⟨h, fun _ => ?_⟩
          cases hj : s.noJump with
          | false => rfl
          | true => have := hc hj; cases this
      | ret d q => exact hx
      | normal =>
        rcases hx with h | ⟨h1, h2⟩
        · exact Or.inl (hD h)
        · exact Or.inr ⟨h1, fun ha => absurd (Or.inr ha) h2⟩
  | .brk, pos, st, In, W, nested, hF, hS, hL, hT, hq, hN, hI => by
    rw [Node.den, Node.eraseDefs, Node.den, Node.defs, Node.assigned]
    refine Both.exit _ fun x hx => ?_
    rcases hx with ⟨e, m, k⟩ | ⟨h, _⟩
    · exact Or.inl ⟨e, List.mem_append_left _ m, k⟩
    · exact Or.inr h
  | .cont, pos, st, In, W, nested, hF, hS, hL, hT, hq, hN, hI => by
    rw [Node.den, Node.eraseDefs, Node.den, Node.defs, Node.assigned]
    refine Both.exit _ fun x hx => ?_
    rcases hx with ⟨e, m, k⟩ | ⟨h, _⟩
    · exact Or.inl ⟨e, List.mem_append_left _ m, k⟩
    · exact Or.inr h
  | .ret d q, pos, st, In, W, nested, hF, hS, hL, hT, hq, hN, hI => by
    rw [Node.defs] at hF
    rw [Node.den, Node.eraseDefs, Node.den, Node.defs, Node.assigned]
    refine Both.exit _ fun x hx => ⟨C.dirty hI hx, fun h1 h2 h3 => ?_⟩
    subst h1; subst h3
    have hF' : Fine P In (st.readName ⟨pos, x, [], false, false⟩) := by
      refine hF.anti ?_
      unfold defsReturn
      simp only [Bool.false_or, beq_iff_eq, h2, if_false]
      refine ⟨fun e he => ⟨e, ?_, rfl, fun _ h => h⟩, fun _ h => h⟩
      rcases List.mem_append.1 he with h | h
      · exact List.mem_append_right _ (List.mem_append_right _ h)
      · exact List.mem_append_right _ (List.mem_append_left _ h)
    exact reads_clean (readName_isRead (fun _ => True)) [⟨pos, x, [], false, false⟩] st hF' hS (fun _ _ => trivial)
      ⟨pos, x, [], false, false⟩ (by simp) hx
theorem Seq.dde (C : DdeCtx O E P X) (pure : String → Bool) : (s : Seq) → (pos : List Nat) → (k : Nat) → (st : DefSt) →
    (In W : String → Prop) → (nested : Bool) → Fine P In (s.defs O pos k st) → (∀ e ∈ st.opn, W e.1.cont) →
    (∀ e ∈ st.opn, LeftIn pos (2 * k) e.1.pos) → (∀ x, X x → s.tidy O x pos k nested = true) → (∀ q ∈ s.bodies pos k, O.Skips q) →
    (nested = false → ∀ x, ¬ In x) → (∀ x, In x → X x) →
    Both (Dirty P In W st) (Out P X In (fun x => W x ∨ x ∈ s.assigned) (s.defs O pos k st)) (s.den E) ((s.eraseDefs pure P pos k).den E)
  | .nil, pos, k, st, In, W, nested, hF, hS, hL, hT, hq, hN, hI => by
    rw [Seq.den, Seq.eraseDefs, Seq.den, Seq.defs, Seq.assigned]
    refine Both.upd fun σ τ hA => hA.mono fun x hx => ?_
    rcases hx with h | ⟨h1, h2⟩
    · exact Or.inl h
    · exact Or.inr ⟨h1, fun h => h.elim h2 (by simp)⟩
  | .cons n t r, pos, k, st, In, W, nested, hF, hS, hL, hT, hq, hN, hI => by
    rw [Seq.defs] at hF
    rw [Seq.den, Seq.eraseDefs, Seq.den, Seq.defs, Seq.assigned]
    rw [Seq.bodies] at hq
    have hTn : ∀ x, X x → n.tidy O x (pos ++ [2 * k]) nested = true := fun x hx => by
      have := hT x hx; simp only [Seq.tidy, Bool.and_eq_true] at this; exact this.1.1
    have hTt : ∀ x, X x → transTidy x t = true := fun x hx => by
      have := hT x hx; simp only [Seq.tidy, Bool.and_eq_true] at this; exact this.1.2
    have hTr : ∀ x, X x → r.tidy O x pos (k + 1) nested = true := fun x hx => by
      have := hT x hx; simp only [Seq.tidy, Bool.and_eq_true] at this; exact this.2
    have hle2 := r.defs_le O pos (k + 1) (defsTrans O (pos ++ [2 * k + 1]) t (n.defs O (pos ++ [2 * k]) st))
    have hle1 := trans_le O (pos ++ [2 * k + 1]) t (n.defs O (pos ++ [2 * k]) st)
    have hFt := hF.anti hle2
    have hFn := hFt.anti hle1
    have hn := n.dde C pure (pos ++ [2 * k]) st In W nested hFn hS (fun e he => (hL e he).leftOf) hTn
      (fun q h => hq q (List.mem_append_left _ h)) hN hI
    have hnew := n.defs_new O (pos ++ [2 * k]) st
    have hS1 : ∀ e ∈ (n.defs O (pos ++ [2 * k]) st).opn, W e.1.cont ∨ e.1.cont ∈ n.assigned := fun e he => by
      rcases hnew.1 e he with ⟨e0, m, hk⟩ | h
      · exact Or.inl (hk ▸ hS e0 m)
      · exact Or.inr h.2
    have hL1 : ∀ e ∈ (n.defs O (pos ++ [2 * k]) st).opn, LeftIn pos (2 * k + 1) e.1.pos := fun e he => by
      rcases hnew.1 e he with ⟨e0, m, hk⟩ | h
      · exact (hk ▸ hL e0 m).mono (by omega)
      · exact Or.inr ⟨2 * k, by omega, h.1⟩
    have hnewt := trans_new O (pos ++ [2 * k + 1]) (fun u => u.pos = pos ++ [2 * k + 1] ∧ u.cont ∈ t.map (·.1)) t (n.defs O (pos ++ [2 * k]) st)
      fun a ha => ⟨rfl, List.mem_map.2 ⟨a, ha, rfl⟩⟩
    have hS2 : ∀ e ∈ (defsTrans O (pos ++ [2 * k + 1]) t (n.defs O (pos ++ [2 * k]) st)).opn,
        (W e.1.cont ∨ e.1.cont ∈ n.assigned) ∨ e.1.cont ∈ t.map (·.1) := fun e he => by
      rcases hnewt.1 e he with ⟨e0, m, hk⟩ | h
      · exact Or.inl (hk ▸ hS1 e0 m)
      · exact Or.inr h.2
    have hL2 : ∀ e ∈ (defsTrans O (pos ++ [2 * k + 1]) t (n.defs O (pos ++ [2 * k]) st)).opn, LeftIn pos (2 * (k + 1)) e.1.pos := fun e he => by
      rcases hnewt.1 e he with ⟨e0, m, hk⟩ | h
      · exact (hk ▸ hL1 e0 m).mono (by omega)
      · exact Or.inr ⟨2 * k + 1, by omega, h.1 ▸ List.prefix_rfl⟩
    have hr := r.dde C pure pos (k + 1) _ In (fun x => (W x ∨ x ∈ n.assigned) ∨ x ∈ t.map (·.1)) nested hF hS2 hL2 hTr
      (fun q h => hq q (List.mem_append_right _ h)) hN hI
    have hfix : ∀ c x, Out P X In (fun x => ((W x ∨ x ∈ n.assigned) ∨ x ∈ t.map (·.1)) ∨ x ∈ r.assigned)
        (r.defs O pos (k + 1) (defsTrans O (pos ++ [2 * k + 1]) t (n.defs O (pos ++ [2 * k]) st))) c x →
        Out P X In (fun x => W x ∨ x ∈ n.assigned ++ t.map (·.1) ++ r.assigned)
        (r.defs O pos (k + 1) (defsTrans O (pos ++ [2 * k + 1]) t (n.defs O (pos ++ [2 * k]) st))) c x := by
      intro c x h
      cases c with
      | normal =>
        rcases h with h | ⟨h1, h2⟩
        · exact Or.inl h
        · refine Or.inr ⟨h1, fun h => h2 ?_⟩
          simp only [List.mem_append] at h
          rcases h with h | (h | h) | h
          · exact Or.inl (Or.inl (Or.inl h))
          · exact Or.inl (Or.inl (Or.inr h))
          · exact Or.inl (Or.inr h)
          · exact Or.inr h
      | brk => exact h
      | cont => exact h
      | ret d q => exact h
    refine Both.seq hn (Both.seq (B := fun c => Out P X In (fun x => (W x ∨ x ∈ n.assigned) ∨ x ∈ t.map (·.1))
        (defsTrans O (pos ++ [2 * k + 1]) t (n.defs O (pos ++ [2 * k]) st)) c)
      (Both.upd fun σ τ hA => trans_sim C hI _ t _ _ σ τ hFt hS1 hTt hA) (hr.mono (fun x hx => hx) hfix) ?_) ?_
    · exact fun c hc x hx => hfix c x (Out.abrupt hle2 hc hx)
    · exact fun c hc x hx => Out.abrupt (hle1.trans hle2) hc hx
theorem Brs.dde (C : DdeCtx O E P X) (pure : String → Bool) : (b : Brs) → (pos : List Nat) → (k : Nat) → (A : String → Prop) →
    (B : Ctl → String → Prop) → (∀ d ∈ b.defs O pos k, Fine P A d) → (∀ x ∈ b.condAtoms, ¬ A x) → (∀ x, X x → b.tidy O x pos k = true) →
    (∀ q ∈ b.bodies pos k, O.Skips q) → (∀ x, A x → X x) →
    (∀ p ∈ b.outs O pos k, ∀ c x, Out P X A (fun x => x ∈ p.1) p.2 c x → B c x) → ∀ σ τ, AgreeS A σ τ →
    ((∀ c ∈ b.conds, σ.cond E c = false) → ∀ x, A x → B .normal x) →
    (∀ c σ', b.den E σ c σ' → ∃ τ', (b.eraseDefs pure P pos k).den E τ c τ' ∧ AgreeS (B c) σ' τ') ∧
    (∀ c τ', (b.eraseDefs pure P pos k).den E τ c τ' → ∃ σ', b.den E σ c σ' ∧ AgreeS (B c) σ' τ')
  | .nil, pos, k, A, B, hF, hc, hT, hq, hA, hB, σ, τ, hAg, hfall => by
    rw [Brs.den, Brs.eraseDefs, Brs.den]
    have hx := hAg.mono (hfall fun c hc => by cases hc)
    exact ⟨fun c σ' h => ⟨τ, ⟨h.1, rfl⟩, by rw [h.1, h.2]; exact hx⟩, fun c τ' h => ⟨σ, ⟨h.1, rfl⟩, by rw [h.1, h.2]; exact hx⟩⟩
  | .cons c0 s r, pos, k, A, B, hF, hc, hT, hq, hA, hB, σ, τ, hAg, hfall => by
    rw [Brs.den, Brs.eraseDefs, Brs.den]
    rw [Brs.bodies] at hq
    have hcd : σ.cond E c0 = τ.cond E c0 := hAg.cond E fun x hx => hc x (by rw [Brs.condAtoms]; exact List.mem_append_left _ hx)
    simp only [Rel.ite]
    by_cases hcs : σ.cond E c0 = true
    · have hct : τ.cond E c0 = true := hcd ▸ hcs
      simp only [hcs, hct, if_true]
      have hs := s.dde C pure (pos ++ [k]) 0 {} A (fun _ => False) true (hF _ (by rw [Brs.defs]; exact List.mem_cons_self))
        (fun e he => by cases he) (fun e he => by cases he)
        (fun x hx => by have := hT x hx; simp only [Brs.tidy, Bool.and_eq_true] at this; exact this.1)
        (fun q h => hq q (List.mem_append_left _ h)) (fun h => by cases h) hA
      have hB' : ∀ c x, Out P X A (fun x => False ∨ x ∈ s.assigned) (s.defs O (pos ++ [k]) 0 {}) c x → B c x := by
        intro c x h
        refine hB (s.assigned, s.defs O (pos ++ [k]) 0 {}) (by rw [Brs.outs]; exact List.mem_cons_self) c x ?_
        simpa only [false_or] using h
      have hs' := hs.mono (A' := A) (fun x hx => Or.inr ⟨hx, id⟩) hB'
      refine ⟨fun c σ' h => hs'.1 σ τ hAg c σ' h, fun c τ' h => ?_⟩
      obtain ⟨σ', h1, h2⟩ := hs'.2 τ σ hAg.symm c τ' h
      exact ⟨σ', h1, h2.symm⟩
    · have hct : ¬ τ.cond E c0 = true := hcd ▸ hcs
      simp only [hcs, hct]
      refine r.dde C pure pos (k + 1) A B (fun d hd => hF d (by rw [Brs.defs]; exact List.mem_cons_of_mem _ hd))
        (fun x hx => hc x (by rw [Brs.condAtoms]; exact List.mem_append_right _ hx))
        (fun x hx => by have := hT x hx; simp only [Brs.tidy, Bool.and_eq_true] at this; exact this.2)
        (fun q h => hq q (List.mem_append_right _ h)) hA
        (fun p hp => hB p (by rw [Brs.outs]; exact List.mem_cons_of_mem _ hp)) σ τ hAg fun h => hfall fun c hc => ?_
      rw [Brs.conds] at hc
      rcases List.mem_cons.1 hc with rfl | hc
      · simpa using hcs
      · exact h c hc
end

/-! ### the pass -/

/-- the erased definitions are those without recorded reads -/
theorem noReads_fine (ds : List Def) (xs : List String) {e : Def} (he : e ∈ ds) (ha : e.1.art = false) (hr : e.2 ≠ []) :
    (decide (e.1.cont ∈ xs) && noReads ds e.1.pos e.1.cont) = false := by
  have : noReads ds e.1.pos e.1.cont = false := by
    cases h : noReads ds e.1.pos e.1.cont with
    | false => rfl
    | true =>
      simp only [noReads, Bool.and_eq_true, List.all_eq_true] at h
      have := h.2 e he
      simp [ha] at this
      exact absurd this hr
  simp [this]

/-- **DeadDataElimination preserves the program.**  `xs` are scalars whose writes are tidy.  Every execution of the program is matched by one of
the result that ends in the same way, returns the same value and agrees on everything but the scalars `xs`, and conversely. -/
theorem dead_data_elimination_partial (O : DefOracle) (E : Env) (pure : String → Bool) (xs : List String) (p : Seq)
    (hscalar : ∀ x ∈ xs, O.scalar x = true) (hcomplete : ∀ b, O.complete b = true → ∀ σ : St, ∃ c ∈ b.conds, σ.cond E c = true)
    (hskip : ∀ q ∈ p.bodies [] 0, O.Skips q) (htidy : ∀ x ∈ xs, p.tidy O x [] 0 false = true) (σ : St) (c : Ctl) :
    (∀ σ', p.den E σ c σ' → ∃ τ', (deadData O pure xs p).den E σ c τ' ∧ AgreeS (· ∈ xs) σ' τ' ∧
      ∀ d, c = .ret d false → d ≠ "" → σ' d [] = τ' d []) ∧
    (∀ τ', (deadData O pure xs p).den E σ c τ' → ∃ σ', p.den E σ c σ' ∧ AgreeS (· ∈ xs) σ' τ' ∧
      ∀ d, c = .ret d false → d ≠ "" → σ' d [] = τ' d []) := by
  let P : List Nat → String → Bool := fun pos x => decide (x ∈ xs) && noReads (definitions O p) pos x
  have C : DdeCtx O E P (· ∈ xs) := by
    refine ⟨fun pos x h => ?_, hscalar, hcomplete⟩
    simp only [P, Bool.and_eq_true, decide_eq_true_eq] at h
    exact h.1
  have hF : Fine P (fun _ => False) (p.defs O [] 0 {}) := by
    refine ⟨fun e he ha hr => noReads_fine _ xs ?_ ha hr, fun r _ h => h⟩
    rcases List.mem_append.1 he with h | h
    · exact List.mem_append_right _ h
    · exact List.mem_append_left _ h
  have hboth := p.dde C pure [] 0 {} (fun _ => False) (fun _ => False) false hF (fun e he => by cases he) (fun e he => by cases he)
    htidy hskip (fun _ _ h => h) (fun _ h => h.elim)
  have hout : ∀ c x, Out P (· ∈ xs) (fun _ => False) (fun x => False ∨ x ∈ p.assigned) (p.defs O [] 0 {}) c x → x ∈ xs := by
    intro c x h
    cases c with
    | normal => exact C.dirty (In := fun _ => False) (W := fun x => False ∨ x ∈ p.assigned) (st := p.defs O [] 0 {}) (fun _ h => False.elim h) h
    | brk => exact h.elim (fun ⟨e, _, _, _, h⟩ => C.mem _ _ h) fun h => h.elim
    | cont => exact h.elim (fun ⟨e, _, _, _, h⟩ => C.mem _ _ h) fun h => h.elim
    | ret d q => exact h.1
  have hret : ∀ {σ' τ' : St}, AgreeS (Out P (· ∈ xs) (fun _ => False) (fun x => False ∨ x ∈ p.assigned) (p.defs O [] 0 {}) c) σ' τ' →
      ∀ d, c = .ret d false → d ≠ "" → σ' d [] = τ' d [] := by
    intro σ' τ' h d hc hd
    subst hc
    exact h d [] fun hx => absurd rfl (hx.2 rfl hd)
  refine ⟨fun σ' h => ?_, fun τ' h => ?_⟩
  · obtain ⟨τ', h1, h2⟩ := hboth.1 σ σ (AgreeS.refl _ σ) c σ' h
    exact ⟨τ', h1, h2.mono (hout c), hret h2⟩
  · obtain ⟨σ', h1, h2⟩ := hboth.2 σ σ (AgreeS.refl _ σ) c τ' h
    exact ⟨σ', h1, (h2.mono (hout c)).symm, hret h2.symm⟩

end Docc.IR
