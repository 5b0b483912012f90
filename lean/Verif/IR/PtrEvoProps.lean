import Verif.IR.PtrEvo

/-
One iteration before and after the iterator is replaced.
-/
namespace Docc.IR
open Docc.Sym

/-- The window of the iterator `p` is `w.ev e + d` elements further in the original program; nothing else differs, and the symbols of `e` are as in `w`. -/
structure Sh (E : Env) (p : String) (e : Expr) (w : St) (d : Int) (σ τ : St) : Prop where
  off : ∀ x, x ≠ p → σ x = τ x
  win : ∀ a r, σ p (a :: r) = τ p ((a + (w.ev E e + d)) :: r)
  keep : ∀ x ∈ e.atoms, τ x = w x

variable {E : Env} {K : Moves} {p : String} {e : Expr} {w : St} {d : Int}

theorem Sh.ev {σ τ : St} (h : Sh E p e w d σ τ) {f : Expr} (hf : p ∉ f.atoms) : σ.ev E f = τ.ev E f :=
  St.ev_congr E fun x hx => congrFun (h.off x fun q => hf (q ▸ hx)) []

theorem Sh.cond {σ τ : St} (h : Sh E p e w d σ τ) {c : Cond} (hc : p ∉ c.atoms) : σ.cond E c = τ.cond E c :=
  St.cond_congr E fun x hx => congrFun (h.off x fun q => hc (q ▸ hx)) []

theorem Sh.evs {σ τ : St} (h : Sh E p e w d σ τ) {l : List Expr} (hl : p ∉ Expr.atomsL l) : l.map (σ.ev E) = l.map (τ.ev E) :=
  List.map_congr_left fun f hf => h.ev fun q => hl ((Expr.mem_atomsL _ _).mpr ⟨f, hf, q⟩)

theorem Sh.setS {σ τ : St} (h : Sh E p e w d σ τ) {x : String} (hp : x ≠ p) (hx : x ∉ e.atoms) (v : Int) : Sh E p e w d (σ.setS x v) (τ.setS x v) := by
  refine ⟨fun y hy => ?_, fun a r => ?_, fun y hy => ?_⟩
  · funext j; simp only [St.setS, St.set]; rw [h.off y hy]
  · rw [St.setS_other _ _ (Ne.symm hp), St.setS_other _ _ (Ne.symm hp)]; exact h.win a r
  · rw [St.setS_other _ _ fun q : y = x => hx (q ▸ hy)]; exact h.keep y hy

theorem Sh.idx {σ τ : St} (h : Sh E p e w d σ τ) : τ.ev E e = w.ev E e := St.ev_congr E fun x hx => by rw [h.keep x hx]

/-- what an access reads -/
theorem Sh.acc {σ τ : St} {z : Bool} (hd : d = 0 ∨ z = false) (h : Sh E p e w d σ τ) {a : String × List Expr} (ha : accOk p z a = true) :
    σ a.1 (a.2.map (σ.ev E)) = τ (evoAcc p e a).1 ((evoAcc p e a).2.map (τ.ev E)) := by
  simp only [accOk, Bool.and_eq_true, Bool.or_eq_true, decide_eq_true_eq] at ha
  obtain ⟨ha, hs⟩ := ha
  by_cases hp : a.1 = p
  · rcases ha with ha | ⟨hz, ha⟩
    · exact absurd hp ha
    · have hd : d = 0 := hd.elim id fun q => by rw [q] at hz; cases hz
      subst hd
      have h0 : σ.ev E (.int 0) = 0 := rfl
      rw [ha, evoAcc, if_pos hp, hp]
      simp only [List.map_cons, List.map_nil, h.idx, h0]
      rw [h.win, Int.zero_add, Int.add_zero]
  · rw [evoAcc, if_neg hp, h.evs hs, h.off _ hp]

theorem Stmt.sh {z : Bool} (hd : d = 0 ∨ z = false) (hp : p ∉ e.atoms) {s : Stmt} (hs : s.evoOk K p z = true) (hm : s.movesPtr K = false)
    (hw : ∀ x ∈ e.atoms, ¬ writes s.users x) {σ τ : St} (h : Sh E p e w d σ τ) : Sh E p e w d (s.run E σ) ((s.evo p e).run E τ) := by
  cases s with
  | tasklet op ins out sub =>
    simp only [Stmt.evoOk, Bool.and_eq_true, List.all_eq_true] at hs
    have hv : (ins.map fun r => σ r.1 (r.2.map (σ.ev E))) = ((ins.map (evoAcc p e)).map fun r => τ r.1 (r.2.map (τ.ev E))) := by
      rw [List.map_map]
      exact List.map_congr_left fun a ha => h.acc hd (hs.1 a ha)
    have hout : out ∉ e.atoms := fun q => hw out q (by simp [writes, Stmt.users])
    have ha := hs.2
    simp only [accOk, Bool.and_eq_true, Bool.or_eq_true, decide_eq_true_eq] at ha
    simp only [Stmt.run, Stmt.evo]
    rw [← hv]
    generalize E.op op _ = v
    by_cases ho : out = p
    · subst ho
      rcases ha.1 with q | ⟨hz, hsub⟩
      · exact absurd rfl q
      · have hd : d = 0 := hd.elim id fun q => by rw [q] at hz; cases hz
        subst hd
        have h0 : σ.ev E (.int 0) = 0 := rfl
        rw [hsub, evoAcc, if_pos rfl]
        simp only [List.map_cons, List.map_nil, h.idx, h0]
        refine ⟨fun y hy => ?_, fun a r => ?_, fun y hy => ?_⟩
        · rw [St.set_other _ _ _ hy, St.set_other _ _ _ hy]; exact h.off y hy
        · have hw' := h.win a r
          simp only [Int.add_zero] at hw' ⊢
          simp only [St.set, true_and, List.cons.injEq]
          by_cases hc : a = 0 ∧ r = []
          · rw [if_pos hc, if_pos ⟨by rw [hc.1, Int.zero_add], hc.2⟩]
          · rw [if_neg hc, if_neg fun q => hc ⟨by have := q.1; omega, q.2⟩]; exact hw'
        · rw [St.set_other _ _ _ fun q : y = out => hp (q ▸ hy)]; exact h.keep y hy
    · rw [evoAcc, if_neg ho, h.evs ha.2]
      refine ⟨fun y hy => ?_, fun a r => ?_, fun y hy => ?_⟩
      · funext j; simp only [St.set]; rw [h.off y hy]
      · rw [St.set_other _ _ _ (Ne.symm ho), St.set_other _ _ _ (Ne.symm ho)]; exact h.win a r
      · rw [St.set_other _ _ _ fun q : y = out => hout (q ▸ hy)]; exact h.keep y hy
  | lib op rs ws =>
    simp only [Stmt.movesPtr] at hm
    simp only [Stmt.evoOk, hm, Bool.false_or, Bool.and_eq_true, decide_eq_true_eq] at hs
    have hr : rs.map σ = rs.map τ := List.map_congr_left fun x hx => h.off x fun q => hs.1 (q ▸ hx)
    have hw' : ∀ x ∈ e.atoms, x ∉ ws := fun x hx q => hw x hx (by
      simp only [writes, Stmt.users, List.mem_append, List.mem_map]; exact .inr ⟨x, q, rfl⟩)
    simp only [Stmt.run, Stmt.evo, hr]
    refine ⟨fun y hy => ?_, fun a r => ?_, fun y hy => ?_⟩
    · by_cases hm : y ∈ ws
      · exact setMany_mem _ _ _ _ hm
      · rw [setMany_not_mem _ _ _ hm, setMany_not_mem _ _ _ hm]; exact h.off y hy
    · rw [setMany_not_mem _ _ _ hs.2, setMany_not_mem _ _ _ hs.2]; exact h.win a r
    · rw [setMany_not_mem _ _ _ (hw' y hy)]; exact h.keep y hy

theorem block_sh {z : Bool} (hd : d = 0 ∨ z = false) (hp : p ∉ e.atoms) : ∀ (l : List Stmt), l.all (·.evoOk K p z) = true → l.filter (·.movesPtr K) = [] →
    (∀ x ∈ e.atoms, ¬ writes (l.flatMap Stmt.users) x) → ∀ {σ τ : St}, Sh E p e w d σ τ →
    Sh E p e w d (runBlock E l σ) (runBlock E ((l.filter fun s => !s.movesPtr K).map (·.evo p e)) τ)
  | [], _, _, _, σ, τ, h => h
  | s :: r, hs, hm, hw, σ, τ, h => by
    simp only [List.all_cons, Bool.and_eq_true] at hs
    have hms : s.movesPtr K = false := by
      cases hq : s.movesPtr K with
      | false => rfl
      | true => rw [List.filter_cons_of_pos hq] at hm; cases hm
    rw [List.filter_cons_of_neg (by rw [hms]; simp)] at hm
    rw [List.filter_cons_of_pos (by rw [hms]; rfl)]
    exact block_sh hd hp r hs.2 hm (fun x hx q => hw x hx (by rw [List.flatMap_cons, writes_append]; exact .inr q))
      (Stmt.sh hd hp hs.1 hms (fun x hx q => hw x hx (by rw [List.flatMap_cons, writes_append]; exact .inl q)) h)

theorem trans_sh : ∀ (t : Trans), transOk p t = true → (∀ x ∈ e.atoms, ¬ writes (transUsers t) x) → ∀ {σ τ : St}, Sh E p e w d σ τ →
    Sh E p e w d (runTrans E t σ) (runTrans E t τ)
  | [], _, _, σ, τ, h => h
  | a :: t, hs, hw, σ, τ, h => by
    simp only [transOk, List.all_cons, Bool.and_eq_true, decide_eq_true_eq] at hs
    refine trans_sh t hs.2 (fun x hx q => hw x hx ?_) (σ := σ.setS a.1 (σ.ev E a.2)) (τ := τ.setS a.1 (τ.ev E a.2)) ?_
    · simp only [writes, transUsers, readsOf, List.mem_append, List.mem_map] at q ⊢
      rcases q with ⟨_, _, q⟩ | ⟨b, hb, q⟩
      · cases q
      · exact .inr ⟨b, List.mem_cons_of_mem _ hb, q⟩
    · rw [h.ev hs.1.2]
      refine h.setS hs.1.1 (fun q => hw a.1 q ?_) _
      simp only [writes, transUsers, List.mem_append, List.mem_map]
      exact .inr ⟨a, List.mem_cons_self, rfl⟩

mutual
theorem Node.sh_bis {z : Bool} (hd : d = 0 ∨ z = false) (hp : p ∉ e.atoms) : (n : Node) → n.evoOk K p z = true → n.ptrMoves K = [] → (∀ x ∈ e.atoms, ¬ writes n.users x) →
    Rel.bis (Sh E p e w d) (n.den E) ((n.evo K p e).den E)
  | .block l, hs, hm, hw => by
    rw [Node.evo, Node.den, Node.den]
    exact Rel.upd_bis fun σ τ h => block_sh hd hp l hs hm hw h
  | .seq s, hs, hm, hw => by
    rw [Node.evo, Node.den, Node.den]
    exact Seq.sh_bis hd hp s hs hm hw
  | .ifElse b, hs, hm, hw => by
    rw [Node.evo, Node.den, Node.den]
    exact Brs.sh_bis hd hp b hs hm fun x hx q => hw x hx (by rw [Node.users, writes_append]; exact .inr q)
  | .whileL s, hs, hm, hw => by
    rw [Node.evo, Node.den, Node.den]
    exact Rel.forever_bis (Seq.sh_bis hd hp s hs hm hw)
  | .loop m i a c u s, hs, hm, hw => by
    rw [Node.evo, Node.den, Node.den]
    simp only [Node.evoOk, Bool.and_eq_true, decide_eq_true_eq] at hs
    obtain ⟨⟨⟨⟨hi, ha⟩, hc⟩, hu⟩, hs⟩ := hs
    simp only [Node.users, writes_append, not_or] at hw
    have hie : i ∉ e.atoms := fun q => (hw i q).2 (by simp [writes])
    refine Rel.seq_bis (Rel.upd_bis fun σ τ h => ?_) (Rel.iter_bis (fun σ τ h => h.cond hc) (fun σ τ h => ?_) (Seq.sh_bis hd hp s hs hm fun x hx => (hw x hx).1.1.2))
    · rw [h.ev ha]; exact h.setS hi hie _
    · rw [h.ev hu]; exact h.setS hi hie _
  | .brk, _, _, _ => by rw [Node.evo, Node.den]; exact Rel.exit_bis _ _; all_goals simp
  | .cont, _, _, _ => by rw [Node.evo, Node.den]; exact Rel.exit_bis _ _; all_goals simp
  | .ret d q, _, _, _ => by rw [Node.evo, Node.den]; exact Rel.exit_bis _ _; all_goals simp
theorem Seq.sh_bis {z : Bool} (hd : d = 0 ∨ z = false) (hp : p ∉ e.atoms) : (s : Seq) → s.evoOk K p z = true → s.ptrMoves K = [] → (∀ x ∈ e.atoms, ¬ writes s.users x) →
    Rel.bis (Sh E p e w d) (s.den E) ((s.evo K p e).den E)
  | .nil, _, _, _ => by rw [Seq.evo, Seq.den]; exact Rel.upd_bis fun σ τ h => h
  | .cons n t r, hs, hm, hw => by
    rw [Seq.evo, Seq.den, Seq.den]
    cases hr : n.isRet with
    | true =>
      cases n <;> simp only [Node.isRet] at hr <;> try (exact absurd hr (by decide))
      rw [Node.evo, Node.den, Rel.exit_seq _ (by simp), Rel.exit_seq _ (by simp)]
      · exact Rel.exit_bis _ _
      all_goals simp
    | false =>
      simp only [Seq.evoOk, hr, Bool.false_or, Bool.and_eq_true] at hs
      simp only [Seq.ptrMoves, hr, Bool.false_eq_true, if_false, List.append_eq_nil_iff] at hm
      simp only [Seq.users, hr, Bool.false_eq_true, if_false, writes_append, not_or] at hw
      exact Rel.seq_bis (Node.sh_bis hd hp n hs.1 hm.1 fun x hx => (hw x hx).1.1)
        (Rel.seq_bis (Rel.upd_bis fun σ τ h => trans_sh t hs.2.1 (fun x hx => (hw x hx).1.2) h) (Seq.sh_bis hd hp r hs.2.2 hm.2 fun x hx => (hw x hx).2))
theorem Brs.sh_bis {z : Bool} (hd : d = 0 ∨ z = false) (hp : p ∉ e.atoms) : (b : Brs) → b.evoOk K p z = true → b.ptrMoves K = [] → (∀ x ∈ e.atoms, ¬ writes b.users x) →
    Rel.bis (Sh E p e w d) (b.den E) ((b.evo K p e).den E)
  | .nil, _, _, _ => by rw [Brs.evo, Brs.den]; exact Rel.upd_bis fun σ τ h => h
  | .cons c s r, hs, hm, hw => by
    rw [Brs.evo, Brs.den, Brs.den]
    simp only [Brs.evoOk, Bool.and_eq_true, decide_eq_true_eq] at hs
    simp only [Brs.ptrMoves, List.append_eq_nil_iff] at hm
    simp only [Brs.users, writes_append, not_or] at hw
    exact Rel.ite_bis (fun σ τ h => h.cond hs.1.1) (Seq.sh_bis hd hp s hs.1.2 hm.1 fun x hx => (hw x hx).1) (Brs.sh_bis hd hp r hs.2 hm.2 fun x hx => (hw x hx).2)
end

/-- advancing the pointer -/
theorem advance_sh {op : String} (hE : E.Advances op) (hp : p ∉ e.atoms) {σ τ : St} (h : Sh E p e w 0 σ τ) : Sh E p e w 1 ((Stmt.lib op [p] [p]).run E σ) τ := by
  have hr : ∀ y, (Stmt.lib op [p] [p]).run E σ y = if y = p then E.lib op 0 [σ p] else σ y := fun y => rfl
  refine ⟨fun y hy => ?_, fun a r => ?_, h.keep⟩
  · rw [hr, if_neg hy]; exact h.off y hy
  · rw [hr, if_pos rfl, hE, h.win]
    have : a + 1 + (w.ev E e + 0) = a + (w.ev E e + 1) := by omega
    rw [this]

/-- the block that advances the pointer; behind the move the pointer is not used -/
theorem block_advance {op : String} (hE : E.Advances op) (hK : (K op).isSome = true) (hp : p ∉ e.atoms) : ∀ (l1 : List Stmt) {l2 : List Stmt},
    l1.all (·.evoOk K p true) = true → l1.filter (·.movesPtr K) = [] → l2.all (·.evoOk K p false) = true → l2.filter (·.movesPtr K) = [] →
    (∀ x ∈ e.atoms, ¬ writes ((l1 ++ .lib op [p] [p] :: l2).flatMap Stmt.users) x) → ∀ {σ τ : St}, Sh E p e w 0 σ τ →
    Sh E p e w 1 (runBlock E (l1 ++ .lib op [p] [p] :: l2) σ) (runBlock E (((l1 ++ .lib op [p] [p] :: l2).filter fun s => !s.movesPtr K).map (·.evo p e)) τ) := by
  intro l1 l2 h1 m1 h2 m2 hw σ τ h
  have hm : (Stmt.lib op [p] [p]).movesPtr K = true := hK
  have e1 : ((l1 ++ .lib op [p] [p] :: l2).filter fun s => !s.movesPtr K) = (l1.filter fun s => !s.movesPtr K) ++ l2.filter fun s => !s.movesPtr K := by
    rw [List.filter_append, List.filter_cons_of_neg (by rw [hm]; simp)]
  simp only [List.flatMap_append, List.flatMap_cons, writes_append, not_or] at hw
  rw [e1, List.map_append]
  have q1 := block_sh (.inl rfl) hp l1 h1 m1 (fun x hx => (hw x hx).1) h
  have q2 := block_sh (.inr rfl) hp l2 h2 m2 (fun x hx => (hw x hx).2.2) (advance_sh hE hp q1)
  simp only [runBlock, List.foldl_append, List.foldl_cons] at q2 ⊢
  exact q2

end Docc.IR
