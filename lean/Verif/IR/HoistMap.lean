import Verif.IR.HoistProps

/-
Blocks taken out of maps.
-/
namespace Docc.IR
open Docc.Sym

/-- a computation that does not read what it writes gives the same when it is repeated -/
theorem Stmt.idem (E : Env) (x : Stmt) (h : ∀ y, writes x.users y → ¬ reads x.users y) (σ : St) : x.run E (x.run E σ) = x.run E σ := by
  funext z
  by_cases hz : writes x.users z
  · cases x with
    | tasklet op ins out sub =>
      have hr : ∀ y, reads (Stmt.tasklet op ins out sub).users y → (Stmt.tasklet op ins out sub).run E σ y = σ y := fun y hy =>
        Stmt.run_frame E _ σ y fun hw => h y hw hy
      have h1 : sub.map (((Stmt.tasklet op ins out sub).run E σ).ev E) = sub.map (σ.ev E) := evs_at fun y hy =>
        hr y (by simp [Stmt.users, reads, readsOf, hy])
      have h2 : (ins.map fun r => (Stmt.tasklet op ins out sub).run E σ r.1 (r.2.map (((Stmt.tasklet op ins out sub).run E σ).ev E))) =
          ins.map fun r => σ r.1 (r.2.map (σ.ev E)) := by
        refine List.map_congr_left fun m hm => ?_
        have h3 : m.2.map (((Stmt.tasklet op ins out sub).run E σ).ev E) = m.2.map (σ.ev E) := evs_at fun y hy => hr y (by
          simp only [Stmt.users, reads, readsOf, List.mem_append, List.mem_map, List.mem_flatMap]
          exact Or.inl (Or.inl (Or.inr ⟨y, ⟨m, hm, hy⟩, rfl⟩)))
        rw [hr m.1 (by
          simp only [Stmt.users, reads, readsOf, List.mem_append, List.mem_map]
          exact Or.inl (Or.inl (Or.inl ⟨m.1, ⟨m, hm, rfl⟩, rfl⟩))), h3]
      have hrun : ∀ τ : St, (Stmt.tasklet op ins out sub).run E τ =
          τ.set out (sub.map (τ.ev E)) (E.op op (ins.map fun r => τ r.1 (r.2.map (τ.ev E)))) := fun _ => rfl
      rw [hrun ((Stmt.tasklet op ins out sub).run E σ), h1, h2]
      funext j
      simp only [Stmt.run, St.set]
      split <;> rfl
    | lib op rs ws =>
      have h2 : rs.map ((Stmt.lib op rs ws).run E σ) = rs.map σ := List.map_congr_left fun y hy =>
        Stmt.run_frame E _ σ y fun hw => h y hw (by simp [Stmt.users, reads, readsOf, hy])
      have hm : z ∈ ws := by
        simp only [writes, Stmt.users, readsOf, List.mem_append, List.mem_map] at hz
        rcases hz with ⟨_, _, e⟩ | ⟨x, hx, e⟩
        · cases e
        · cases e; exact hx
      have hrun : ∀ τ : St, (Stmt.lib op rs ws).run E τ = τ.setMany ws fun k => E.lib op k (rs.map τ) := fun _ => rfl
      rw [hrun ((Stmt.lib op rs ws).run E σ), h2, hrun σ]
      exact setMany_mem ws _ _ _ hm
  · rw [Stmt.run_frame E _ _ z hz]

/-- repeating the computation changes nothing -/
def Stmt.Done (E : Env) (x : Stmt) (σ : St) : Prop := x.run E σ = σ

theorem Stmt.Done.congr {E : Env} {x : Stmt} {σ τ : St} (h : x.Done E σ) (hst : ∀ y, reads x.users y ∨ writes x.users y → σ y = τ y) : x.Done E τ := by
  funext z
  by_cases hz : writes x.users z
  · rw [← x.run_congr E (fun y hy => hst y (.inl hy)) z (hst z (.inr hz)), show x.run E σ = σ from h, hst z (.inr hz)]
  · rw [x.run_frame E _ z hz]

/-- with the computation done before, repeating it in front of every iteration changes nothing -/
theorem iter_done {E : Env} {x : Stmt} {b : St → Bool} {u : St → St} {R : Rel} (hR : ∀ σ c σ', x.Done E σ → R σ c σ' → x.Done E σ')
    (hu : ∀ σ, x.Done E σ → x.Done E (u σ)) {σ : St} (h : x.Done E σ) (c : Ctl) (σ' : St) :
    Rel.iter b u (fun τ => R (x.run E τ)) σ c σ' ↔ Rel.iter b u R σ c σ' := by
  constructor
  · intro hi
    induction hi with
    | done hb => exact .done hb
    | step k hb hr hk _ ih =>
      have hr : R (x.run E _) k _ := hr
      rw [show x.run E _ = _ from h] at hr
      exact .step k hb hr hk (ih (hu _ (hR _ _ _ h hr)))
    | stop hb hr =>
      have hr : R (x.run E _) _ _ := hr
      rw [show x.run E _ = _ from h] at hr
      exact .stop hb hr
    | ret d q hb hr =>
      have hr : R (x.run E _) _ _ := hr
      rw [show x.run E _ = _ from h] at hr
      exact .ret d q hb hr
  · intro hi
    induction hi with
    | done hb => exact .done hb
    | step k hb hr hk _ ih =>
      refine .step k hb ?_ hk (ih (hu _ (hR _ _ _ h hr)))
      show R (x.run E _) k _
      rw [show x.run E _ = _ from h]; exact hr
    | stop hb hr =>
      refine .stop hb ?_
      show R (x.run E _) _ _
      rw [show x.run E _ = _ from h]; exact hr
    | ret d q hb hr =>
      refine .ret d q hb ?_
      show R (x.run E _) _ _
      rw [show x.run E _ = _ from h]; exact hr

/-- the first iteration can do the computation before it starts -/
theorem iter_first {E : Env} {x : Stmt} (hid : ∀ σ, x.run E (x.run E σ) = x.run E σ) {b : St → Bool} {u : St → St} {R : Rel} {σ : St} (hb : b σ = true)
    (hb' : b (x.run E σ) = true) (c : Ctl) (σ' : St) :
    Rel.iter b u (fun τ => R (x.run E τ)) σ c σ' ↔ Rel.iter b u (fun τ => R (x.run E τ)) (x.run E σ) c σ' := by
  constructor
  · intro hi
    cases hi with
    | done h => rw [hb] at h; cases h
    | step k _ hr hk hi => exact .step k hb' (by show R (x.run E (x.run E σ)) k _; rw [hid]; exact hr) hk hi
    | stop _ hr => exact .stop hb' (by show R (x.run E (x.run E σ)) _ _; rw [hid]; exact hr)
    | ret d q _ hr => exact .ret d q hb' (by show R (x.run E (x.run E σ)) _ _; rw [hid]; exact hr)
  · intro hi
    cases hi with
    | done h => rw [hb'] at h; cases h
    | step k _ hr hk hi =>
      have hr : R (x.run E (x.run E σ)) k _ := hr
      rw [hid] at hr; exact .step k hb hr hk hi
    | stop _ hr =>
      have hr : R (x.run E (x.run E σ)) _ _ := hr
      rw [hid] at hr; exact .stop hb hr
    | ret d q _ hr =>
      have hr : R (x.run E (x.run E σ)) _ _ := hr
      rw [hid] at hr; exact .ret d q hb hr

/-- an assignment to a symbol the computation does not use -/
theorem run_setS {E : Env} {x : Stmt} {i : String} (hi : ¬ reads x.users i ∧ ¬ writes x.users i) (σ : St) (v : Int) :
    x.run E (σ.setS i v) = (x.run E σ).setS i v := by
  have ho : ∀ y, y ≠ i → σ.setS i v y = σ y := fun y hy => St.setS_other _ _ hy
  funext z
  by_cases hz : z = i
  · subst hz
    rw [x.run_frame E _ z hi.2]
    funext j
    simp only [St.setS, St.set, x.run_frame E σ z hi.2]
  · rw [show (x.run E σ).setS i v z = x.run E σ z from St.setS_other _ _ hz]
    exact x.run_congr E (fun y hy => ho y fun e => hi.1 (e ▸ hy)) z (ho z hz)

theorem frontMap_inv {H : HoistEnv} {i : String} {s s' : Seq} {l : List Stmt} (h : H.frontMap i s = some (l, s')) :
    s = .cons (.block l) [] s' ∧ ∃ x, l = [x] := by
  unfold HoistEnv.frontMap at h
  split at h
  · split at h
    · rename_i h1
      cases h
      exact ⟨rfl, front_one h1⟩
    · cases h
  · cases h

/-- **C99** (partial), the front of a map: taking the first block out of the body preserves the executions in which the map has an iteration, if
the block does not read what it writes, neither uses the variable of the map nor writes symbols of its initial value or condition, and the
rest of the body writes nothing the block reads or writes.  Missing: maps without iterations (`empty_map_violated`), bodies that use what the
block resets (`reset_violated`). -/
theorem hoist_map_front_partial {H : HoistEnv} {E : Env} {i : String} {a : Expr} {k : Cond} {u : Expr} {s s' : Seq} {x : Stmt}
    (h : H.frontMap i s = some ([x], s')) (hx : ∀ y, writes x.users y → ¬ reads x.users y) (hi : ¬ reads x.users i ∧ ¬ writes x.users i)
    (hak : ∀ y, writes x.users y → y ∉ a.atoms ∧ y ∉ k.atoms) (hs : ∀ y, reads x.users y ∨ writes x.users y → ¬ writes s'.users y) (t : Trans) (r : Seq)
    {σ : St} (hone : (σ.setS i (σ.ev E a)).cond E k = true) (c : Ctl) (σ' : St) :
    (Seq.cons (.block [x]) [] (.cons (.loop true i a k u s') t r)).den E σ c σ' ↔ (Seq.cons (.loop true i a k u s) t r).den E σ c σ' := by
  obtain ⟨rfl, _⟩ := frontMap_inv h
  have hloop : ∀ c σ', (Node.loop true i a k u s').den E (x.run E σ) c σ' ↔ (Node.loop true i a k u (.cons (.block [x]) [] s')).den E σ c σ' := by
    intro c σ'
    rw [Node.den, Node.den, block_then, Rel.upd_seq, Rel.upd_seq]
    have hev : (x.run E σ).ev E a = σ.ev E a := St.ev_congr E fun y hy => by
      rw [x.run_frame E σ y fun hw => (hak y hw).1 hy]
    show Rel.iter _ _ _ ((x.run E σ).setS i ((x.run E σ).ev E a)) c σ' ↔ Rel.iter _ _ _ (σ.setS i (σ.ev E a)) c σ'
    rw [hev, ← run_setS hi]
    generalize σ.setS i (σ.ev E a) = τ at hone
    have hb' : (x.run E τ).cond E k = true := by
      rw [← hone]
      exact St.cond_congr E fun y hy => by rw [x.run_frame E τ y fun hw => (hak y hw).2 hy]
    have hid := x.idem E hx
    refine Iff.trans ?_ (iter_first (R := s'.den E) hid hone hb' c σ').symm
    refine (iter_done (R := s'.den E) ?_ ?_ (hid τ) c σ').symm
    · intro ρ c ρ' hd hr
      exact hd.congr fun y hy => (Seq.frame_inv E y (ρ y) s' (hs y hy) ρ c ρ' rfl hr).symm
    · intro ρ hd
      exact hd.congr fun y hy => by
        exact (St.setS_other _ _ (fun e : y = i => by subst e; exact hy.elim hi.1 hi.2)).symm
  rw [block_then, Seq.den, Seq.den]
  show Rel.seq _ _ (x.run E σ) c σ' ↔ _
  simp only [Rel.seq, hloop]

theorem backMap_inv {H : HoistEnv} {i : String} {s s' : Seq} {l : List Stmt} (h : H.backMap i s = some (s', l)) :
    s = s' ++ .cons (.block l) [] .nil ∧ ∃ op r w, l = [.lib op r w] ∧ i ∉ r := by
  unfold HoistEnv.backMap at h
  split at h
  · rename_i hs
    split at h
    · rename_i h1
      cases h
      obtain ⟨op, r, w, e, _, h2⟩ := invLib_one h1
      exact ⟨Seq.unsnoc_eq hs, op, r, w, e, h2 i rfl⟩
    · cases h
  · cases h

/-- a loop with an iteration ends with the computation done if every iteration does it last -/
theorem iter_ends_done {E : Env} {x : Stmt} {b : St → Bool} {u : St → St} {R : Rel} (hid : ∀ σ, x.run E (x.run E σ) = x.run E σ)
    (hR : ∀ σ c σ', R σ c σ' → c = .normal) (hu : ∀ σ, x.Done E σ → x.Done E (u σ)) {σ σ' : St} {c : Ctl}
    (h : Rel.iter b u (Rel.seq R (Rel.upd (x.run E))) σ c σ') : (b σ = true → x.Done E σ') ∧ c = .normal := by
  have hn : ∀ {σ c σ'}, Rel.seq R (Rel.upd (x.run E)) σ c σ' → c = .normal ∧ x.Done E σ' := by
    intro σ c σ' h
    rcases h with ⟨τ, _, hc, hσ⟩ | ⟨hc, hr⟩
    · exact ⟨hc, hσ ▸ hid τ⟩
    · exact absurd (hR _ _ _ hr) hc
  induction h with
  | done hb => exact ⟨fun h => (by rw [hb] at h; cases h), rfl⟩
  | step k hb hr hk hi ih =>
    refine ⟨fun _ => ?_, ih.2⟩
    have hd := hu _ (hn hr).2
    cases hi with
    | done => exact hd
    | step k hb' => exact ih.1 hb'
    | stop hb' => exact ih.1 hb'
    | ret d q hb' => exact ih.1 hb'
  | stop hb hr => cases (hn hr).1
  | ret d q hb hr => cases (hn hr).1

theorem lib_agree {E : Env} {op : String} {rs ws : List String} (h : ∀ y ∈ ws, y ∉ rs) {σ τ : St} (hst : AgreeOff (· ∈ ws) σ τ) :
    (Stmt.lib op rs ws).run E σ = (Stmt.lib op rs ws).run E τ := by
  have h2 : rs.map σ = rs.map τ := List.map_congr_left fun y hy => hst y fun hw => h y hw hy
  simp only [Stmt.run, h2]
  funext z
  by_cases hz : z ∈ ws
  · exact setMany_mem ws _ _ _ hz
  · rw [setMany_not_mem ws _ _ hz, setMany_not_mem ws _ _ hz]; exact hst z hz

theorem lib_writes {op : String} {rs ws : List String} {y : String} : writes (Stmt.lib op rs ws).users y ↔ y ∈ ws := by
  simp [writes, Stmt.users, readsOf]

theorem lib_reads {op : String} {rs ws : List String} {y : String} : reads (Stmt.lib op rs ws).users y ↔ y ∈ rs := by
  simp [reads, Stmt.users, readsOf]

/-- **C99** (partial), the back of a map: taking the last block out of the body preserves the executions in which the map has an iteration, if the
rest of the body always finishes normally, nothing in the map reads what the block writes, the block does not write the variable, and the
assignments behind the map have nothing to do with the block.  Missing: maps without iterations, other assignments (`trans_violated`). -/
theorem hoist_map_back_partial {H : HoistEnv} {E : Env} {i : String} {a : Expr} {k : Cond} {u : Expr} {s s' : Seq} {op : String} {rs ws : List String}
    (h : H.backMap i s = some (s', [.lib op rs ws])) (hx : ∀ y ∈ ws, y ∉ rs) (hi : i ∉ ws) (hk : ∀ y ∈ ws, y ∉ k.atoms ∧ y ∉ u.atoms)
    (hs : ∀ y ∈ ws, ¬ reads s'.users y) (hn : ∀ σ c σ', s'.den E σ c σ' → c = .normal) {t : Trans} (ht : TransApart t (.lib op rs ws)) (r : Seq)
    {σ : St} (hone : (σ.setS i (σ.ev E a)).cond E k = true) (c : Ctl) (σ' : St) :
    (Seq.cons (.loop true i a k u s') t (.cons (.block [.lib op rs ws]) [] r)).den E σ c σ' ↔ (Seq.cons (.loop true i a k u s) t r).den E σ c σ' := by
  obtain ⟨rfl, op', rs', ws', e, hir⟩ := backMap_inv h
  cases e
  have hid := (Stmt.lib op rs ws).idem E fun y hy => by rw [lib_writes] at hy; rw [lib_reads]; exact hx y hy
  have hu : ∀ ρ, (Stmt.lib op rs ws).Done E ρ → (Stmt.lib op rs ws).Done E (ρ.setS i (ρ.ev E u)) := fun ρ hd => hd.congr fun y hy => by
    rw [lib_reads, lib_writes] at hy
    exact (St.setS_other _ _ (fun e : y = i => by subst e; exact hy.elim hir hi)).symm
  have hbis : Rel.bis (AgreeOff (· ∈ ws)) (Rel.seq (s'.den E) (Rel.upd (runBlock E [.lib op rs ws]))) (s'.den E) := by
    have h1 := Rel.seq_bis (s'.agree_bis E (· ∈ ws) hs) (Rel.upd_bis (A := AgreeOff (· ∈ ws)) (f := runBlock E [.lib op rs ws]) (g := id) fun ρ τ hρ y hy => by
      show (Stmt.lib op rs ws).run E ρ y = τ y
      rw [Stmt.run_frame E _ ρ y (by rw [lib_writes]; exact hy)]; exact hρ y hy)
    rw [Rel.seq_skip] at h1
    exact h1
  have hit := Rel.iter_bis (A := AgreeOff (· ∈ ws)) (b := fun σ => σ.cond E k) (b' := fun σ => σ.cond E k) (u := fun σ => σ.setS i (σ.ev E u))
    (u' := fun σ => σ.setS i (σ.ev E u))
    (fun ρ τ hρ => St.cond_congr E fun y hy => by rw [hρ y fun hw => (hk y hw).1 hy])
    (fun ρ τ hρ y hy => by
      have : ρ.ev E u = τ.ev E u := St.ev_congr E fun y hy => by rw [hρ y fun hw => (hk y hw).2 hy]
      rw [this]
      funext j
      simp only [St.setS, St.set, hρ y hy]) hbis
  have hcomm := ht.commute E
  -- the two loops
  have hloop : ∀ c ρ, (Node.loop true i a k u (s' ++ .cons (.block [.lib op rs ws]) [] .nil)).den E σ c ρ ↔
      ∃ τ, (Node.loop true i a k u s').den E σ c τ ∧ c = .normal ∧ ρ = (Stmt.lib op rs ws).run E τ := by
    intro c ρ
    rw [Node.den, Node.den, block_last, Rel.upd_seq, Rel.upd_seq]
    show Rel.iter _ _ _ (σ.setS i (σ.ev E a)) c ρ ↔ ∃ τ, Rel.iter _ _ _ (σ.setS i (σ.ev E a)) c τ ∧ _
    constructor
    · intro h1
      obtain ⟨h2, h3⟩ := iter_ends_done (x := .lib op rs ws) hid hn hu h1
      obtain ⟨τ, h4, h5⟩ := hit.1 _ _ _ _ (AgreeOff.refl _ _) h1
      refine ⟨τ, h4, h3, ?_⟩
      rw [← lib_agree hx h5]
      exact (h2 hone).symm
    · rintro ⟨τ, h1, h3, rfl⟩
      obtain ⟨ρ, h4, h5⟩ := hit.2 _ _ _ _ (AgreeOff.refl _ _) h1
      obtain ⟨h2, _⟩ := iter_ends_done (x := .lib op rs ws) hid hn hu h4
      rw [← lib_agree hx h5, show (Stmt.lib op rs ws).run E ρ = ρ from h2 hone]
      exact h4
  have hnorm : ∀ c τ, (Node.loop true i a k u s').den E σ c τ → c = .normal := by
    intro c τ h1
    rw [Node.den, Rel.upd_seq] at h1
    obtain ⟨ρ, h4, _⟩ := hit.2 _ _ _ _ (AgreeOff.refl _ _) h1
    exact (iter_ends_done (x := .lib op rs ws) hid hn hu h4).2
  rw [Seq.den, block_then, Seq.den, Rel.upd_seq, Rel.upd_seq]
  constructor
  · rintro (⟨τ, h3, h4⟩ | ⟨hc, h3⟩)
    · refine .inl ⟨_, (hloop _ _).mpr ⟨τ, h3, rfl, rfl⟩, ?_⟩
      show r.den E (runTrans E t _) c σ'
      rw [hcomm]; exact h4
    · exact absurd (hnorm _ _ h3) hc
  · rintro (⟨ρ, h3, h4⟩ | ⟨hc, h3⟩)
    · obtain ⟨τ, h5, _, rfl⟩ := (hloop _ _).mp h3
      refine .inl ⟨τ, h5, ?_⟩
      have h4 : r.den E (runTrans E t ((Stmt.lib op rs ws).run E τ)) c σ' := h4
      rw [hcomm] at h4; exact h4
    · obtain ⟨_, _, h5, _⟩ := (hloop _ _).mp h3
      exact absurd h5 hc

end Docc.IR
