import Verif.IR.MapFusionLemmas

/-
C83: MapFusion and the behaviour of the program.
-/
namespace Docc.IR
open Docc.Sym

/-- neither loop changes the container: it is not a loop variable, the map's block does not write it, nor does the second loop's body -/
def Untouched (i k : String) (B : List Stmt) (body : Seq) (n : String) : Prop :=
  n ≠ i ∧ n ≠ k ∧ n ∉ blockWrites B ∧ ¬ writes body.users n

/-- symbols assigned by the transitions of the sequence -/
def Seq.assignedIn : Seq → List String
  | .nil => []
  | .cons _ t r => t.map (·.1) ++ r.assignedIn

/-- The temporaries are new: distinct, and not used by either loop. -/
def FreshTemps (cs : List Cand) (n1 n2 : Node) : Prop :=
  (cs.map (·.tmp)).Nodup ∧ ∀ c ∈ cs, ∀ u, (u, c.tmp) ∉ n1.users ∧ (u, c.tmp) ∉ n2.users

/-- Recomputing an element the second loop reads gives what the map stored.  `vs`: iterations of the map (variable `i`, block `B`),
`ws`: iterations of the second loop (variable `k`), both from memory `σ`. -/
structure Recomputable (E : Env) (P : PolyEngine) (σ : St) (i k : String) (B : List Stmt) (body : Seq) (cs : List Cand) (vs ws : List Int) : Prop where
  /-- the block reads containers it does not write, and scalars it has computed before -/
  order : opsOk (blockWrites B) [] B
  /-- neither loop changes what the block reads -/
  input : ∀ s ∈ B, ∀ n ∈ s.opds, n ∉ blockWrites B → Untouched i k B body n
  /-- the subsets of the block use the map's variable and symbols neither loop changes, and have values in every iteration -/
  dims : ∀ s ∈ B, ∀ d ∈ s.subDims, (∀ n ∈ d.atoms, n = i ∨ Untouched i k B body n) ∧ ∀ v ∈ vs, (σ.setS i v).defd E d
  /-- different iterations write different elements -/
  inj : ∀ c ∈ cs, ∀ p, producerOf c.cont B = some p → (∀ v, (σ.setS i v).defd E p) ∧
    (∀ v v', (σ.setS i v).ev E p = (σ.setS i v').ev E p → v = v') ∧ ∀ D, P.poly p [i] = some D → ∀ t ∈ D, i ∉ t.2.atoms
  /-- the map wrote every element the second loop reads -/
  covered : ∀ c ∈ cs, (∀ n ∈ c.idx.atoms, n = k ∨ Untouched i k B body n) ∧ ∀ w ∈ ws, (σ.setS k w).defd E c.idx ∧
    ∀ p, producerOf c.cont B = some p → ∃ v ∈ vs, (σ.setS k w).ev E c.idx = (σ.setS i v).ev E p
  /-- the block's other results are not used by the second loop -/
  scratch : ∀ x ∈ blockWrites B, (∀ c ∈ cs, c.cont ≠ x) → ∀ u, (u, x) ∉ body.users
  /-- the loop variables are not changed by the loops -/
  vars : i ∉ blockWrites B ∧ k ∉ blockWrites B ∧ ¬ writes body.users k

/-- the names the transformation may leave with other contents: the temporaries, and the block's results that are not passed on -/
def FusedAway (B : List Stmt) (cs : List Cand) (y : String) : Prop :=
  (∃ c ∈ cs, c.tmp = y) ∨ (y ∈ blockWrites B ∧ ∀ c ∈ cs, c.cont ≠ y)

/-! ### one copy of the block -/

section
variable {E : Env} {P : PolyEngine} {σ : St} {i k : String} {B : List Stmt} {body : Seq} {cs : List Cand} {vs ws : List Int}

/-- names whose contents both loops keep -/
def Kept (i k : String) (B : List Stmt) (body : Seq) (cs : List Cand) (n : String) : Prop := Untouched i k B body n ∧ ∀ c ∈ cs, c.tmp ≠ n

/-- the memory holds what the map has produced -/
structure Produced (E : Env) (σ : St) (i k : String) (B : List Stmt) (body : Seq) (cs : List Cand) (vs : List Int) (σ1 : St) : Prop where
  kept : ∀ n, Kept i k B body cs n → σ1 n = σ n
  prod : ∀ c ∈ cs, ∀ p, producerOf c.cont B = some p → ∀ v ∈ vs, σ1 c.cont [(σ.setS i v).ev E p] = runBlock E B (σ.setS i v) c.cont [(σ.setS i v).ev E p]

theorem pair_id (l : List Stmt) : l.map (Stmt.pair id none) = l := by
  refine (List.map_congr_left fun s _ => ?_).trans (List.map_id l)
  cases s <;> simp [Stmt.pair]

theorem mem_dims_atoms {s : Stmt} {d : Expr} (hd : d ∈ s.subDims) {n : String} (hn : n ∈ d.atoms) : reads s.users n := by
  cases s with
  | lib => simp [Stmt.subDims] at hd
  | tasklet op ins out sub =>
    simp only [Stmt.subDims, List.mem_append, List.mem_flatMap] at hd
    simp only [Stmt.users, reads_append, reads_readsOf, List.mem_flatMap, Expr.mem_atomsL]
    rcases hd with ⟨r, hr, hd⟩ | hd
    · exact Or.inl (Or.inl (Or.inr ⟨r, hr, d, hd, hn⟩))
    · exact Or.inl (Or.inr ⟨d, hd, hn⟩)

theorem mem_opds_reads {s : Stmt} {n : String} (hn : n ∈ s.opds) : reads s.users n := by
  cases s with
  | lib op rs ws => simp only [Stmt.users, reads_append, reads_readsOf]; exact Or.inl hn
  | tasklet op ins out sub => simp only [Stmt.users, reads_append, reads_readsOf]; exact Or.inl (Or.inl (Or.inl hn))

theorem writes_mem {l : List Stmt} {s : Stmt} (hs : s ∈ l) {n : String} (h : writes s.users n) : n ∈ blockWrites l := by
  rw [mem_blockWrites]
  exact List.mem_flatMap.2 ⟨s, hs, h⟩

/-- the facts about one iteration of the map -/
theorem map_iteration (R : Recomputable E P σ i k B body cs vs ws) (hcs : ∀ c ∈ cs, ∃ p, producerOf c.cont B = some p)
    (hft : ∀ c ∈ cs, ∀ s ∈ B, ∀ u, (u, c.tmp) ∉ s.users) {v : Int} (hv : v ∈ vs) {τ : St}
    (hk : ∀ n, Kept i k B body cs n → τ n = σ n) (hi : τ i [] = v) :
    (∀ n, n ∉ blockWrites B → runBlock E B τ n = τ n) ∧ ∀ c ∈ cs, ∀ p, producerOf c.cont B = some p → ∀ j,
      runBlock E B τ c.cont j = if j = [(σ.setS i v).ev E p] then runBlock E B (σ.setS i v) c.cont [(σ.setS i v).ev E p] else τ c.cont j := by
  have hP : PairOk E (Kept i k B body cs) (blockWrites B) id none (σ.setS i v) τ B := by
    refine ⟨fun n h => h.1.2.2.1, fun s hs n h => writes_mem hs h, fun s hs n hn h => ⟨R.input s hs n hn h, fun c hc e => ?_⟩, ?_, fun _ _ e => by cases e⟩
    · exact hft c hc s hs .read (e ▸ mem_opds_reads hn)
    · intro s hs d hd ρ τ' h1 h2
      refine St.ev_congr E fun n hn => ?_
      rcases (R.dims s hs d hd).1 n hn with rfl | h
      · rw [h1 _ R.vars.1, h2 _ R.vars.1 (fun _ _ e => by cases e), St.setS_same, hi]
      · rw [h1 n h.2.2.1, h2 n h.2.2.1 (fun _ _ e => by cases e), St.setS_other _ _ h.1,
          hk n ⟨h, fun c hc e => hft c hc s hs .read (e ▸ mem_dims_atoms hd hn)⟩]
  refine ⟨fun n hn => block_still (fun s hs h => hn (writes_mem hs h)) τ, fun c hc p hp j => ?_⟩
  have hW : c.cont ∈ blockWrites B := by
    obtain ⟨l, op, ins, r, rfl, -⟩ := producerOf_split hp
    exact writes_mem (s := .tasklet op ins c.cont [p]) (by simp) (by simp [Stmt.users, writes])
  have := (pair_result hP (fun n h => by rw [St.setS_other _ _ h.1.1, hk n h]) R.order hp hW).2 (fun t e => by cases e) j
  rw [pair_id] at this
  rw [this]
  have e : τ.ev E (id p) = (σ.setS i v).ev E p := by
    obtain ⟨l, op, ins, r, hB, -⟩ := producerOf_split hp
    exact (hP.dim (.tasklet op ins c.cont [p]) (by rw [hB]; simp) p (by simp [Stmt.subDims]) _ _ (fun _ _ => rfl) (fun _ _ _ => rfl)).symm
  rw [e]

/-- the map produces the elements -/
theorem map_produces (R : Recomputable E P σ i k B body cs vs ws) (hcs : ∀ c ∈ cs, ∃ p, producerOf c.cont B = some p)
    (hft : ∀ c ∈ cs, ∀ s ∈ B, ∀ u, (u, c.tmp) ∉ s.users) {m : Bool} {a : Expr} {q : Cond} {u : Expr} {e : Int}
    (hI : Iters E i q u σ (σ.ev E a) vs e) (ha : i ∉ a.atoms)
    (hh : ∀ n, (n ∈ a.atoms ∨ n ∈ q.atoms ∨ n ∈ u.atoms) → n ≠ i → Kept i k B body cs n) :
    ∃ σ1, (Node.loop m i a q u (.cons (.block B) [] .nil)).den E σ .normal σ1 ∧ Produced E σ i k B body cs vs σ1 := by
  refine Exists.imp (fun σ1 h => ⟨h.1, h.2.1, fun c hc p hp v hv => h.2.2 c hc p hp v (by rw [List.take_length]; exact hv)⟩) (loop_steps (m := m) (s := .cons (.block B) [] .nil)
    (P := fun n τ => (∀ n, Kept i k B body cs n → τ n = σ n) ∧ ∀ c ∈ cs, ∀ p, producerOf c.cont B = some p → ∀ v ∈ vs.take n,
      τ c.cont [(σ.setS i v).ev E p] = runBlock E B (σ.setS i v) c.cont [(σ.setS i v).ev E p]) hI ha ?_ ?_ ?_ σ
    ⟨fun _ _ => rfl, fun c hc p hp v hv => by simp at hv⟩)
  · intro n τ x _ hP hx hxi
    rw [hP.1 x (hh x hx hxi)]
  · intro n τ b hP
    refine ⟨fun m hm => by rw [St.setS_other _ _ hm.1.1]; exact hP.1 m hm, fun c hc p hp v hv => ?_⟩
    rw [← hP.2 c hc p hp v hv]
    simp [St.setS, St.set]
  · intro n hn τ hP hi
    obtain ⟨a1, a2⟩ := map_iteration R hcs hft (List.getElem_mem hn) hP.1 hi
    refine ⟨.normal, runBlock E B τ, Or.inl rfl, ?_, ⟨fun m hm => ?_, fun c hc p hp v hv => ?_⟩, ?_⟩
    · rw [one_child_den]; exact ⟨rfl, rfl⟩
    · rw [a1 m hm.1.2.2.1]; exact hP.1 m hm
    · rw [a2 c hc p hp]
      split
      · rename_i he
        have := (R.inj c hc p hp).2.1 _ _ (by simpa using he)
        rw [this]
      · rename_i he
        rw [List.take_succ_eq_append_getElem hn] at hv
        rcases List.mem_append.1 hv with hv | hv
        · exact hP.2 c hc p hp v hv
        · have hv : v = vs[n] := by simpa using hv
          subst hv
          exact absurd rfl he
    · show runBlock E B τ i [] = _
      rw [a1 i R.vars.1]; exact hi

/-- the copy in terms of `Stmt.pair` -/
theorem copyFor_pair {c : Cand} {p : Expr} (hp : producerOf c.cont B = some p) :
    B.map (Stmt.copyFor P i c) = B.map (Stmt.pair (fun d => P.expand (d.subs (.sym i) c.map)) (some (c.cont, c.tmp))) := by
  refine List.map_congr_left fun s hs => ?_
  have key : ∀ n ∈ s.opds, n ≠ c.cont := by
    intro n hn e
    subst e
    obtain ⟨op, ins, rfl, h⟩ := producerOf_touch hp hs (by
      cases s with
      | tasklet op ins out sub =>
        simp only [Stmt.opds, List.mem_map] at hn
        obtain ⟨r, hr, e⟩ := hn
        simp only [Stmt.touches, Bool.or_eq_true, List.any_eq_true, beq_iff_eq]
        exact Or.inl ⟨r, hr, e⟩
      | lib op rs ws =>
        simp only [Stmt.opds] at hn
        simp [Stmt.touches, hn])
    simp only [Stmt.opds, List.mem_map] at hn
    obtain ⟨r, hr, e⟩ := hn
    exact h r hr e
  cases s with
  | tasklet op ins out sub =>
    simp only [Stmt.copyFor, Stmt.pair]
    congr 1
    refine List.map_congr_left fun r hr => ?_
    rw [if_neg (key r.1 (opds_mem hr))]
  | lib op rs ws =>
    simp only [Stmt.copyFor, Stmt.pair]
    have hw : ∀ n ∈ ws, n ≠ c.cont := by
      intro n hn e
      subst e
      obtain ⟨_, _, h, _⟩ := producerOf_touch hp hs (by simp [Stmt.touches, hn])
      cases h
    congr 1
    · exact (List.map_congr_left fun n hn => if_neg (key n hn)).trans (List.map_id rs)
    · exact (List.map_congr_left fun n hn => if_neg (hw n hn)).trans (List.map_id ws)

/-- one copy of the block in the second loop: it leaves the element in the temporary, and everything else (but the block's own scratch) as it was -/
theorem copy_step (R : Recomputable E P σ i k B body cs vs ws) (hE : ∀ ρ, P.Sound ρ) (hN : P.NormSound) (hC : NoNewSyms P) (hi : i ≠ constName)
    (hft : ∀ c ∈ cs, ∀ s ∈ B, ∀ u, (u, c.tmp) ∉ s.users) (hcs : ∀ c ∈ cs, ∃ p, producerOf c.cont B = some p) (hfe : ∀ c ∈ cs, ∀ c' ∈ cs, c.tmp ∉ c'.idx.atoms)
    (hfk : ∀ c ∈ cs, c.tmp ≠ k) (hfi : ∀ c ∈ cs, c.tmp ∉ blockWrites B) (hnd : (cs.map (·.tmp)).Nodup)
    {c : Cand} (hc : c ∈ cs) {p : Expr} (hp : producerOf c.cont B = some p) (hm : mapIndex P i p c.idx = some c.map)
    {w : Int} (hw : w ∈ ws) {σ1 τ : St} (hS : Produced E σ i k B body cs vs σ1) (hk : σ1 k [] = w) (hA : AgreeOff (FusedAway B cs) σ1 τ) :
    AgreeOff (FusedAway B cs) σ1 (runBlock E (B.map (Stmt.copyFor P i c)) τ) ∧
      runBlock E (B.map (Stmt.copyFor P i c)) τ c.tmp [] = σ1 c.cont [σ1.ev E c.idx] ∧
      ∀ c' ∈ cs, c' ≠ c → runBlock E (B.map (Stmt.copyFor P i c)) τ c'.tmp = τ c'.tmp := by
  have hkD : ¬ FusedAway B cs k := by
    rintro (⟨c', hc', e⟩ | ⟨h, -⟩)
    · exact hfk c' hc' e
    · exact R.vars.2.1 h
  have hKD : ∀ n, Kept i k B body cs n → ¬ FusedAway B cs n := by
    rintro n hn (⟨c', hc', e⟩ | ⟨h, -⟩)
    · exact hn.2 c' hc' e
    · exact hn.1.2.2.1 h
  have hτK : ∀ n, Kept i k B body cs n → τ n = σ n := fun n hn => by rw [← hA n (hKD n hn), hS.kept n hn]
  have hWin : ∀ c ∈ cs, ∀ p, producerOf c.cont B = some p → c.cont ∈ blockWrites B := by
    intro c _ p hp
    obtain ⟨l, op, ins, r, rfl, -⟩ := producerOf_split hp
    exact writes_mem (s := .tasklet op ins c.cont [p]) (by simp) (by simp [Stmt.users, writes])
  have hpd : ∀ c ∈ cs, ∀ p, producerOf c.cont B = some p → ∃ s ∈ B, p ∈ s.subDims := by
    intro c _ p hp
    obtain ⟨l, op, ins, r, rfl, -⟩ := producerOf_split hp
    exact ⟨.tasklet op ins c.cont [p], by simp, by simp [Stmt.subDims]⟩
  have hKd : ∀ s ∈ B, ∀ d ∈ s.subDims, ∀ n ∈ d.atoms, n ≠ i → Kept i k B body cs n := by
    intro s hs d hd n hn hne
    rcases (R.dims s hs d hd).1 n hn with h | h
    · exact absurd h hne
    · exact ⟨h, fun c' hc' e => hft c' hc' s hs .read (e ▸ mem_dims_atoms hd hn)⟩
  have hKe : ∀ n ∈ c.idx.atoms, n = k ∨ Kept i k B body cs n := by
    intro n hn
    rcases (R.covered c hc).1 n hn with h | h
    · exact Or.inl h
    · exact Or.inr ⟨h, fun c' hc' e => hfe c' hc' c hc (e ▸ hn)⟩
  have hev : ∀ υ : St, υ k [] = w → (∀ n, Kept i k B body cs n → υ n = σ n) → ∀ n ∈ c.idx.atoms, υ n [] = (σ.setS k w) n [] := by
    intro υ h1 h2 n hn
    rcases hKe n hn with rfl | h
    · rw [St.setS_same]; exact h1
    · rw [St.setS_other _ _ h.1.2.1, h2 n h]
  have hτk : τ k [] = w := by rw [← hA k hkD]; exact hk
  have heτ : τ.ev E c.idx = (σ.setS k w).ev E c.idx := St.ev_congr E (hev τ hτk hτK)
  have heσ : σ1.ev E c.idx = (σ.setS k w).ev E c.idx := St.ev_congr E (hev σ1 hk hS.kept)
  obtain ⟨hed, hcov⟩ := (R.covered c hc).2 w hw
  obtain ⟨v, hv, hve⟩ := hcov p hp
  have hdτ : τ.defd E c.idx := by
    obtain ⟨m, hm⟩ := hed
    exact ⟨m, by rw [← hm]; exact eval_congr_atoms _ _ _ rfl (hev τ hτk hτK)⟩
  obtain ⟨hinj1, hinj2, hinj3⟩ := R.inj c hc p hp
  obtain ⟨sp, hsp, hpsp⟩ := hpd c hc p hp
  obtain ⟨hg, hga⟩ := mapIndex_value hE hN hC hi hm hinj3 hinj1 hinj2 (τ := τ)
    (fun n hn hne => by rw [hτK n (hKd sp hsp p hpsp n hn hne)]) hdτ (v := v) (by rw [heτ, hve])
  have hgK : ∀ n ∈ c.map.atoms, n = k ∨ Kept i k B body cs n := by
    intro n hn
    rcases hga n hn with h | ⟨h1, h2⟩
    · exact hKe n h
    · exact Or.inr (hKd sp hsp p hpsp n h1 h2)
  rw [copyFor_pair hp]
  have hP : PairOk E (Kept i k B body cs) (blockWrites B) (fun d => P.expand (d.subs (.sym i) c.map)) (some (c.cont, c.tmp)) (σ.setS i v) τ B := by
    refine ⟨fun n h => h.1.2.2.1, fun s hs n h => writes_mem hs h, fun s hs n hn h => ⟨R.input s hs n hn h, fun c' hc' e => ?_⟩, ?_, ?_⟩
    · exact hft c' hc' s hs .read (e ▸ mem_opds_reads hn)
    · intro s hs d hd ρ τ' h1 h2
      have hτ' : ∀ n, Kept i k B body cs n → τ' n = σ n := fun n hn => by
        rw [h2 n hn.1.2.2.1 (fun a t e => by
          simp only [Option.some.injEq, Prod.mk.injEq] at e
          rw [← e.2]; exact fun e => hn.2 c hc e.symm), hτK n hn]
      have hg' : c.map.eval (τ'.val E) = .fin v := by
        rw [← hg]
        refine eval_congr_atoms _ _ _ rfl fun n hn => ?_
        show τ' n [] = τ n []
        rcases hgK n hn with rfl | h
        · rw [h2 n R.vars.2.1 (fun a t e => by
            simp only [Option.some.injEq, Prod.mk.injEq] at e
            rw [← e.2]; exact fun e => hfk c hc e.symm)]
        · rw [hτ' n h, hτK n h]
      have e1 : d.eval (ρ.val E) = d.eval ((σ.setS i v).val E) := by
        refine eval_congr_atoms _ _ _ rfl fun n hn => ?_
        show ρ n [] = (σ.setS i v) n []
        by_cases e : n = i
        · rw [e, h1 i R.vars.1]
        · rw [h1 n (hKd s hs d hd n hn e).1.2.2.1]
      have hdd := St.eval_of_defd ((R.dims s hs d hd).2 v hv)
      have e2 : (P.expand (d.subs (.sym i) c.map)).eval (τ'.val E) = .fin ((σ.setS i v).ev E d) := by
        apply (hE _).expand_val
        rw [eval_subs_sym _ _ _ _ _ hg', ← hdd]
        refine eval_congr_atoms _ _ _ rfl fun n hn => ?_
        show (if n = i then v else τ' n []) = (σ.setS i v) n []
        by_cases e : n = i
        · rw [if_pos e, e, St.setS_same]
        · rw [if_neg e, St.setS_other _ _ e, hτ' n (hKd s hs d hd n hn e)]
      rw [St.ev_of_eval e2, St.ev_of_eval (e1.trans hdd)]
    · intro a t e
      simp only [Option.some.injEq, Prod.mk.injEq] at e
      obtain ⟨rfl, rfl⟩ := e
      refine ⟨hfi c hc, fun h => h.2 c hc rfl, fun s hs ht => ?_⟩
      obtain ⟨op, ins, h1, h2⟩ := producerOf_touch hp hs ht
      exact ⟨op, ins, p, h1, h2⟩
  have hK0 : ∀ n, Kept i k B body cs n → (σ.setS i v) n = τ n := fun n h => by rw [St.setS_other _ _ h.1.1, hτK n h]
  have hfr : ∀ n, n ∉ blockWrites B → n ≠ c.tmp →
      runBlock E (B.map (Stmt.pair (fun d => P.expand (d.subs (.sym i) c.map)) (some (c.cont, c.tmp)))) τ n = τ n := by
    intro n h1 h2
    refine block_still (fun s' hs' hwr => ?_) τ
    obtain ⟨s, hs, rfl⟩ := List.mem_map.1 hs'
    rcases pair_writes hwr with ⟨h, -⟩ | ⟨a, e, -⟩
    · exact h1 (writes_mem hs h)
    · simp only [Option.some.injEq, Prod.mk.injEq] at e
      exact h2 e.2.symm
  refine ⟨fun n hn => ?_, ?_, fun c' hc' hne => hfr _ (hfi c' hc') fun e => hne ?_⟩
  · have hnt : ∀ c' ∈ cs, c'.tmp ≠ n := fun c' hc' e => hn (Or.inl ⟨c', hc', e⟩)
    by_cases hnW : n ∈ blockWrites B
    · obtain ⟨c', hc', rfl⟩ : ∃ c' ∈ cs, c'.cont = n := by
        refine Classical.byContradiction fun h => hn (Or.inr ⟨hnW, fun c' hc' e => h ⟨c', hc', e⟩⟩)
      rw [hA _ hn]
      obtain ⟨p', hp'⟩ := hcs c' hc'
      have hres := pair_result hP hK0 R.order hp' hnW
      by_cases e : c'.cont = c.cont
      · exact (hres.1 c.tmp (by rw [e])).2.symm
      · funext j
        rw [hres.2 (fun t h => by simp only [Option.some.injEq, Prod.mk.injEq] at h; exact e h.1.symm) j]
        split
        · rename_i hj
          obtain ⟨s', hs', hps'⟩ := hpd c' hc' p' hp'
          have hd := hP.dim s' hs' p' hps' _ _ (fun _ _ => rfl) (fun _ _ _ => rfl)
          rw [hj, ← hd, ← hA _ hn, hS.prod c' hc' p' hp' v hv]
        · rfl
    · rw [hA n hn]; exact (hfr n hnW fun e => hnt c hc e.symm).symm
  · rw [((pair_result hP hK0 R.order hp (hWin c hc p hp)).1 c.tmp rfl).1, heσ, hve, hS.prod c hc p hp v hv]
  · exact List.inj_on_of_nodup_map hnd hc' hc e

/-! ### the second loop's body -/

/-- the two memories while the second loop's body runs -/
def Redirected (E : Env) (D : String → Prop) (cs : List Cand) (σ τ : St) : Prop :=
  AgreeOff D σ τ ∧ ∀ c ∈ cs, τ c.tmp [] = σ c.cont [σ.ev E c.idx]

theorem redirect_keep {D : String → Prop} {σ τ σ' τ' : St} {u : List User} (hQ : Redirected E D cs σ τ) (hA : AgreeOff D σ' τ')
    (h1 : ∀ n, ¬ writes u n → σ' n = σ n) (h2 : ∀ n, ¬ writes u n → τ' n = τ n)
    (hc : ∀ c ∈ cs, ¬ writes u c.cont ∧ ¬ writes u c.tmp ∧ ∀ n ∈ c.idx.atoms, ¬ writes u n) : Redirected E D cs σ' τ' := by
  refine ⟨hA, fun c hm => ?_⟩
  obtain ⟨a, b, d⟩ := hc c hm
  rw [h1 _ a, h2 _ b, hQ.2 c hm, St.ev_congr E fun n hn => (congrFun (h1 n (d n hn)) []).symm]

theorem redirect_stmt {D : String → Prop} {s : Stmt} (hD : ∀ u n, (u, n) ∈ s.users → ¬ D n)
    (hc : ∀ c ∈ cs, ¬ writes s.users c.cont ∧ ¬ writes s.users c.tmp ∧ ∀ n ∈ c.idx.atoms, ¬ writes s.users n) {σ τ : St} (hQ : Redirected E D cs σ τ) :
    Redirected E D cs (s.run E σ) ((s.redirect false cs).run E τ) := by
  refine redirect_keep (u := s.users) hQ ?_ (fun n hn => Stmt.run_frame E s σ n hn) (fun n hn => Stmt.run_frame E _ τ n ?_) hc
  · cases s with
    | tasklet op ins out sub =>
      simp only [Stmt.redirect, Stmt.run, Bool.false_eq_true, if_false]
      have hdim : ∀ d ∈ (Stmt.tasklet op ins out sub).subDims, σ.ev E d = τ.ev E d := fun d hd =>
        hQ.1.ev E fun n hn => hD .read n (mem_dims_atoms hd hn)
      have hsub : sub.map (σ.ev E) = sub.map (τ.ev E) := List.map_congr_left fun d hd => hdim d (by simp [Stmt.subDims, hd])
      have hv : ins.map (fun r => σ r.1 (r.2.map (σ.ev E))) = (ins.map (redirectOpd cs)).map fun r => τ r.1 (r.2.map (τ.ev E)) := by
        rw [List.map_map]
        refine List.map_congr_left fun r hr => ?_
        simp only [Function.comp, redirectOpd]
        split
        · rename_i c hf
          have h1 := List.mem_of_find?_eq_some hf
          have h2 := List.find?_some hf
          simp only [Bool.and_eq_true, beq_iff_eq] at h2
          rw [← h2.1, h2.2]
          exact (hQ.2 c h1).symm
        · rw [hQ.1 r.1 (hD .read _ (mem_opds_reads (opds_mem hr))),
            List.map_congr_left fun d hd => hdim d (by simp only [Stmt.subDims, List.mem_append, List.mem_flatMap]; exact Or.inl ⟨r, hr, hd⟩)]
      rw [hv, hsub]
      exact hQ.1.set _ _ _
    | lib op rs ws =>
      simp only [Stmt.redirect, Stmt.run, Bool.false_eq_true, if_false]
      have hr : rs.map σ = rs.map τ := List.map_congr_left fun n hn => hQ.1 n (hD .read n (mem_opds_reads (s := .lib op rs ws) hn))
      rw [hr]
      exact hQ.1.setMany _ _
  · cases s with
    | tasklet op ins out sub => simpa [Stmt.redirect, Stmt.users, writes, readsOf] using hn
    | lib op rs ws => exact hn

theorem redirect_block {D : String → Prop} {l : List Stmt} (hD : ∀ s ∈ l, ∀ u n, (u, n) ∈ s.users → ¬ D n)
    (hc : ∀ s ∈ l, ∀ c ∈ cs, ¬ writes s.users c.cont ∧ ¬ writes s.users c.tmp ∧ ∀ n ∈ c.idx.atoms, ¬ writes s.users n) {σ τ : St}
    (hQ : Redirected E D cs σ τ) : Redirected E D cs (runBlock E l σ) (runBlock E (l.map (Stmt.redirect false cs)) τ) := by
  induction l generalizing σ τ with
  | nil => exact hQ
  | cons s l ih =>
    exact ih (fun s hs => hD s (by simp [hs])) (fun s hs => hc s (by simp [hs]))
      (redirect_stmt (hD s (by simp)) (hc s (by simp)) hQ)

/-- the body of the second loop with redirected reads -/
theorem redirect_body {D : String → Prop} {x : String} : (s : Seq) → (∃ es, s.consumed x = some es) → (∀ u n, (u, n) ∈ s.users → ¬ D n) →
    (∀ c ∈ cs, ¬ writes s.users c.cont ∧ ¬ writes s.users c.tmp ∧ ∀ n ∈ c.idx.atoms, ¬ writes s.users n) → ∀ {σ τ : St}, Redirected E D cs σ τ →
    ∃ σ' τ', s.den E σ .normal σ' ∧ (s.redirect false cs).den E τ .normal τ' ∧ Redirected E D cs σ' τ'
  | .nil, _, _, _, σ, τ, hQ => ⟨σ, τ, ⟨rfl, rfl⟩, ⟨rfl, rfl⟩, hQ⟩
  | .cons (.block l) t r, hes, hD, hc, σ, τ, hQ => by
    have hu : (Seq.cons (.block l) t r).users = l.flatMap Stmt.users ++ transUsers t ++ r.users := by simp [Seq.users, Node.isRet, Node.users]
    rw [hu] at hD
    simp only [hu] at hc
    have h1 := redirect_block (E := E) (D := D) (cs := cs) (l := l)
      (fun s hs u n h => hD u n (by simp only [List.mem_append, List.mem_flatMap]; exact Or.inl (Or.inl ⟨s, hs, h⟩)))
      (fun s hs c hm => by
        obtain ⟨a, b, d⟩ := hc c hm
        have key : ∀ n, writes s.users n → writes (l.flatMap Stmt.users ++ transUsers t ++ r.users) n := fun n h => by
          simp only [writes, List.mem_append, List.mem_flatMap]; exact Or.inl (Or.inl ⟨s, hs, h⟩)
        exact ⟨fun h => a (key _ h), fun h => b (key _ h), fun n hn h => d n hn (key _ h)⟩) hQ
    have h2 : Redirected E D cs (runTrans E t (runBlock E l σ)) (runTrans E t (runBlock E (l.map (Stmt.redirect false cs)) τ)) := by
      refine redirect_keep (u := transUsers t) h1 (runTrans_agree E D t (fun x hx h => hD .read x (by
        simp only [List.mem_append]; exact Or.inl (Or.inr h)) hx) _ _ h1.1) (fun n hn => runTrans_frame E t _ n hn) (fun n hn => runTrans_frame E t _ n hn) fun c hm => ?_
      obtain ⟨a, b, d⟩ := hc c hm
      have key : ∀ n, writes (transUsers t) n → writes (l.flatMap Stmt.users ++ transUsers t ++ r.users) n := fun n h => by
        rw [writes_append, writes_append]; exact Or.inl (Or.inr h)
      exact ⟨fun h => a (key _ h), fun h => b (key _ h), fun n hn h => d n hn (key _ h)⟩
    obtain ⟨σ', τ', a, b, d⟩ := redirect_body r (by
        obtain ⟨es, h⟩ := hes
        simp only [Seq.consumed] at h
        split at h
        · rename_i _ b _ hb; exact ⟨b, hb⟩
        · cases h)
      (fun u n h => hD u n (by simp only [List.mem_append]; exact Or.inr h))
      (fun c hm => by
        obtain ⟨a, b, d⟩ := hc c hm
        have key : ∀ n, writes r.users n → writes (l.flatMap Stmt.users ++ transUsers t ++ r.users) n := fun n h => by
          rw [writes_append]; exact Or.inr h
        exact ⟨fun h => a (key _ h), fun h => b (key _ h), fun n hn h => d n hn (key _ h)⟩) h2
    refine ⟨σ', τ', ?_, ?_, d⟩
    · rw [Seq.den, Node.den, Rel.upd_seq, Rel.upd_seq]; exact a
    · rw [Seq.redirect, Seq.den, Node.den, Rel.upd_seq, Rel.upd_seq]; exact b
  | .cons (.seq _) _ _, hes, _, _, _, _, _ => by obtain ⟨_, h⟩ := hes; cases h
  | .cons (.ifElse _) _ _, hes, _, _, _, _, _ => by obtain ⟨_, h⟩ := hes; cases h
  | .cons (.whileL _) _ _, hes, _, _, _, _, _ => by obtain ⟨_, h⟩ := hes; cases h
  | .cons (.loop _ _ _ _ _ _) _ _, hes, _, _, _, _, _ => by obtain ⟨_, h⟩ := hes; cases h
  | .cons .brk _ _, hes, _, _, _, _, _ => by obtain ⟨_, h⟩ := hes; cases h
  | .cons .cont _ _, hes, _, _, _, _, _ => by obtain ⟨_, h⟩ := hes; cases h
  | .cons (.ret _ _) _ _, hes, _, _, _, _, _ => by obtain ⟨_, h⟩ := hes; cases h

/-- all copies run before the rest of the body -/
theorem copies_run {G : (Cand → Prop) → St → Prop} {Q : St → Prop} (hmono : ∀ C C' τ, (∀ c, C' c → C c) → G C τ → G C' τ) :
    (ds : List Cand) → (∀ c ∈ ds, ∀ C τ, G C τ → G (fun d => C d ∨ d = c) (runBlock E (B.map (Stmt.copyFor P i c)) τ)) → (S : Seq) → (C : Cand → Prop) →
    (∀ τ, G (fun d => C d ∨ d ∈ ds) τ → ∃ τ', S.den E τ .normal τ' ∧ Q τ') → ∀ τ, G C τ →
    ∃ τ', (insertCopies P i B S ds).den E τ .normal τ' ∧ Q τ'
  | [], _, S, C, hS, τ, hG => hS τ (hmono _ _ τ (fun c h => by simpa using h) hG)
  | c :: ds, hstep, S, C, hS, τ, hG => by
    rw [insertCopies]
    refine copies_run hmono ds (fun d hd => hstep d (by simp [hd])) _ C (fun τ1 h1 => ?_) τ hG
    obtain ⟨τ', a, b⟩ := hS _ (hmono _ _ _ (fun d h => by
      rcases h with h | h
      · exact Or.inl (Or.inl h)
      · rcases List.mem_cons.1 h with h | h
        · exact Or.inr h
        · exact Or.inl (Or.inr h)) (hstep c (by simp) _ τ1 h1))
    refine ⟨τ', ?_, b⟩
    rw [Seq.den, Node.den, Rel.upd_seq]
    show (Rel.seq (Rel.upd id) (S.den E)) _ _ _
    rw [Rel.upd_seq]; exact a

/-- two loops with the same header, in step -/
theorem two_loops {a : Expr} {q : Cond} {u : Expr} {s s' : Seq} {m : Bool} {A : St → St → Prop} {σ σ1 τ1 : St} {e : Int} {ws : List Int}
    (hI : Iters E k q u σ (σ.ev E a) ws e) (ha : k ∉ a.atoms)
    (hsame : ∀ σ1 τ1 x, A σ1 τ1 → (x ∈ a.atoms ∨ x ∈ q.atoms ∨ x ∈ u.atoms) → x ≠ k → σ1 x [] = σ x [] ∧ τ1 x [] = σ x [])
    (hset : ∀ σ1 τ1 b, A σ1 τ1 → A (σ1.setS k b) (τ1.setS k b))
    (hstep : ∀ w ∈ ws, ∀ σ1 τ1, A σ1 τ1 → σ1 k [] = w → τ1 k [] = w →
      ∃ σ2 τ2, s.den E σ1 .normal σ2 ∧ s'.den E τ1 .normal τ2 ∧ A σ2 τ2 ∧ σ2 k [] = w ∧ τ2 k [] = w) (h0 : A σ1 τ1) :
    ∃ σ2 τ2, (Node.loop m k a q u s).den E σ1 .normal σ2 ∧ (Node.loop m k a q u s').den E τ1 .normal τ2 ∧ A σ2 τ2 := by
  have hva : σ1.ev E a = σ.ev E a ∧ τ1.ev E a = σ.ev E a :=
    ⟨St.ev_congr E fun x hx => (hsame _ _ x h0 (Or.inl hx) fun e => ha (e ▸ hx)).1, St.ev_congr E fun x hx => (hsame _ _ x h0 (Or.inl hx) fun e => ha (e ▸ hx)).2⟩
  have hag : ∀ σ1 τ1 v, A σ1 τ1 → σ1 k [] = v → τ1 k [] = v → ∀ x, (x ∈ q.atoms ∨ x ∈ u.atoms) → σ1 x [] = (σ.setS k v) x [] ∧ τ1 x [] = (σ.setS k v) x [] := by
    intro σ1 τ1 v h h1 h2 x hx
    by_cases e : x = k
    · rw [e, St.setS_same]; exact ⟨h1, h2⟩
    · rw [St.setS_other _ _ e]; exact hsame _ _ x h (Or.inr hx) e
  have key : ∀ {v ws e}, Iters E k q u σ v ws e → (∀ w ∈ ws, ∀ σ1 τ1, A σ1 τ1 → σ1 k [] = w → τ1 k [] = w →
      ∃ σ2 τ2, s.den E σ1 .normal σ2 ∧ s'.den E τ1 .normal τ2 ∧ A σ2 τ2 ∧ σ2 k [] = w ∧ τ2 k [] = w) → ∀ σ1 τ1, A σ1 τ1 → σ1 k [] = v → τ1 k [] = v →
      ∃ σ2 τ2, Rel.iter (fun σ => σ.cond E q) (fun σ => σ.setS k (σ.ev E u)) (s.den E) σ1 .normal σ2 ∧
        Rel.iter (fun σ => σ.cond E q) (fun σ => σ.setS k (σ.ev E u)) (s'.den E) τ1 .normal τ2 ∧ A σ2 τ2 := by
    intro v ws e hI
    induction hI with
    | @done v hc =>
      intro _ σ1 τ1 hA h1 h2
      refine ⟨σ1, τ1, .done ?_, .done ?_, hA⟩
      · rw [← hc]; exact St.cond_congr E fun x hx => (hag _ _ v hA h1 h2 x (Or.inl hx)).1
      · rw [← hc]; exact St.cond_congr E fun x hx => (hag _ _ v hA h1 h2 x (Or.inl hx)).2
    | @step v ws e hc _ ih =>
      intro hs σ1 τ1 hA h1 h2
      obtain ⟨σ2, τ2, a1, a2, a3, a4, a5⟩ := hs v (by simp) σ1 τ1 hA h1 h2
      have u1 : σ2.ev E u = (σ.setS k v).ev E u := St.ev_congr E fun x hx => (hag _ _ v a3 a4 a5 x (Or.inr hx)).1
      have u2 : τ2.ev E u = (σ.setS k v).ev E u := St.ev_congr E fun x hx => (hag _ _ v a3 a4 a5 x (Or.inr hx)).2
      obtain ⟨σ3, τ3, b1, b2, b3⟩ := ih (fun w hw => hs w (by simp [hw])) (σ2.setS k (σ2.ev E u)) (τ2.setS k (τ2.ev E u))
        (by rw [u1, u2]; exact hset _ _ _ a3) (by rw [St.setS_same, u1]) (by rw [St.setS_same, u2])
      refine ⟨σ3, τ3, .step .normal ?_ a1 (Or.inl rfl) b1, .step .normal ?_ a2 (Or.inl rfl) b2, b3⟩
      · rw [← hc]; exact St.cond_congr E fun x hx => (hag _ _ v hA h1 h2 x (Or.inl hx)).1
      · rw [← hc]; exact St.cond_congr E fun x hx => (hag _ _ v hA h1 h2 x (Or.inl hx)).2
  obtain ⟨σ2, τ2, b1, b2, b3⟩ := key hI hstep (σ1.setS k (σ1.ev E a)) (τ1.setS k (τ1.ev E a)) (by rw [hva.1, hva.2]; exact hset _ _ _ h0)
    (by rw [St.setS_same, hva.1]) (by rw [St.setS_same, hva.2])
  exact ⟨σ2, τ2, by rw [Node.den, Rel.upd_seq]; exact b1, by rw [Node.den, Rel.upd_seq]; exact b2, b3⟩

end

theorem consumed_stmt {x : String} {s : Stmt} {es : List Expr} (h : s.consumed x = some es) : ¬ writes s.users x := by
  cases s with
  | tasklet op ins out sub =>
    simp only [Stmt.consumed] at h
    split at h
    · cases h
    · rename_i hne
      intro hw
      simp only [Stmt.users, writes, List.mem_append, readsOf] at hw
      simp at hw
      exact hne (by simp [hw])
  | lib op rs ws =>
    simp only [Stmt.consumed] at h
    split at h
    · cases h
    · rename_i hne
      intro hw
      simp [Stmt.users, writes, readsOf] at hw
      simp [hw] at hne

theorem consumed_stmt_reads {x : String} {s : Stmt} {es : List Expr} (h : s.consumed x = some es) {d : Expr} (hd : d ∈ es) {n : String}
    (hn : n ∈ d.atoms) : reads s.users n := by
  cases s with
  | tasklet op ins out sub =>
    simp only [Stmt.consumed] at h
    split at h
    · cases h
    · split at h
      · simp only [Option.some.injEq] at h
        subst h
        obtain ⟨r, hr, hd⟩ := List.mem_flatMap.1 hd
        split at hd
        · exact mem_dims_atoms (d := d) (by simp only [Stmt.subDims, List.mem_append, List.mem_flatMap]; exact Or.inl ⟨r, hr, hd⟩) hn
        · simp at hd
      · cases h
  | lib op rs ws =>
    simp only [Stmt.consumed] at h
    split at h
    · cases h
    · simp only [Option.some.injEq] at h; subst h; simp at hd

theorem consumed_block_reads {x : String} : {l : List Stmt} → {es : List Expr} → blockConsumed x l = some es → ∀ d ∈ es, ∀ n ∈ d.atoms,
    reads (l.flatMap Stmt.users) n
  | [], _, h, d, hd, _, _ => by simp only [blockConsumed, Option.some.injEq] at h; subst h; simp at hd
  | s :: l, es, h, d, hd, n, hn => by
    simp only [blockConsumed] at h
    split at h
    · rename_i a b h1 h2
      simp only [Option.some.injEq] at h; subst h
      rw [List.flatMap_cons, reads_append]
      rcases List.mem_append.1 hd with hd | hd
      · exact Or.inl (consumed_stmt_reads h1 hd hn)
      · exact Or.inr (consumed_block_reads h2 d hd n hn)
    · cases h

theorem consumed_seq_reads {x : String} : (s : Seq) → {es : List Expr} → s.consumed x = some es → ∀ d ∈ es, ∀ n ∈ d.atoms, reads s.users n
  | .nil, _, h, d, hd, _, _ => by simp only [Seq.consumed, Option.some.injEq] at h; subst h; simp at hd
  | .cons (.block l) t r, es, h, d, hd, n, hn => by
    have hu : (Seq.cons (.block l) t r).users = l.flatMap Stmt.users ++ transUsers t ++ r.users := by simp [Seq.users, Node.isRet, Node.users]
    simp only [Seq.consumed] at h
    split at h
    · rename_i a b h1 h2
      simp only [Option.some.injEq] at h; subst h
      rw [hu, reads_append, reads_append]
      rcases List.mem_append.1 hd with hd | hd
      · exact Or.inl (Or.inl (consumed_block_reads h1 d hd n hn))
      · exact Or.inr (consumed_seq_reads r h2 d hd n hn)
    · cases h
  | .cons (.seq _) _ _, _, h, _, _, _, _ => by cases h
  | .cons (.ifElse _) _ _, _, h, _, _, _, _ => by cases h
  | .cons (.whileL _) _ _, _, h, _, _, _, _ => by cases h
  | .cons (.loop _ _ _ _ _ _) _ _, _, h, _, _, _, _ => by cases h
  | .cons .brk _ _, _, h, _, _, _, _ => by cases h
  | .cons .cont _ _, _, h, _, _, _, _ => by cases h
  | .cons (.ret _ _) _ _, _, h, _, _, _, _ => by cases h

theorem consumed_block {x : String} : {l : List Stmt} → {es : List Expr} → blockConsumed x l = some es → ¬ writes (l.flatMap Stmt.users) x
  | [], _, _ => by simp [writes]
  | s :: l, es, h => by
    simp only [blockConsumed] at h
    split at h
    · rename_i a b h1 h2
      rw [List.flatMap_cons, writes_append]
      rintro (h | h)
      · exact consumed_stmt h1 h
      · exact consumed_block h2 h
    · cases h

theorem consumed_seq {x : String} : (s : Seq) → {es : List Expr} → s.consumed x = some es → x ∉ s.assignedIn → ¬ writes s.users x
  | .nil, _, _, _ => by simp [writes, Seq.users]
  | .cons (.block l) t r, es, h, hx => by
    have hu : (Seq.cons (.block l) t r).users = l.flatMap Stmt.users ++ transUsers t ++ r.users := by simp [Seq.users, Node.isRet, Node.users]
    simp only [Seq.consumed] at h
    simp only [Seq.assignedIn, List.mem_append, not_or] at hx
    split at h
    · rename_i a b h1 h2
      rw [hu, writes_append, writes_append]
      rintro ((h | h) | h)
      · exact consumed_block h1 h
      · apply hx.1
        simp only [transUsers, writes_append] at h
        rcases h with h | h
        · exact absurd h writes_readsOf
        · simpa [writes] using h
      · exact consumed_seq r h2 hx.2 h
    · cases h
  | .cons (.seq _) _ _, _, h, _ => by cases h
  | .cons (.ifElse _) _ _, _, h, _ => by cases h
  | .cons (.whileL _) _ _, _, h, _ => by cases h
  | .cons (.loop _ _ _ _ _ _) _ _, _, h, _ => by cases h
  | .cons .brk _ _, _, h, _ => by cases h
  | .cons .cont _ _, _, h, _ => by cases h
  | .cons (.ret _ _) _ _, _, h, _ => by cases h

/-- **C83** (partial): if MapFusion accepts a map and the loop after it, both loops run to their end, the loops' headers do not depend on what
the loops write, and recomputing gives what the map stored (`Recomputable`), then the two loops still run to their end after the
transformation and leave the same memory, except for the new temporaries and those results of the map's block that are not passed on to the
second loop.  Missing: `can_be_applied` checks none of the conditions of `Recomputable` (see the `_violated` theorems); loops that do not
terminate; access nodes shared by reads of different elements. -/
theorem map_fusion_partial {E : Env} {P : PolyEngine} (hE : ∀ ρ, P.Sound ρ) (hN : P.NormSound) (hC : NoNewSyms P) {arr arg : String → Bool}
    {tmp : String → Expr → String} {xs : List String} {m m' : Bool} {i k : String} {a a' : Expr} {q q' : Cond} {u u' : Expr} {B : List Stmt} {body : Seq}
    {t t1 : Trans} {rest : Seq} {cs : List Cand} {n1 n2 : Node} (h1 : n1 = .loop m' i a q u (.cons (.block B) t1 rest)) (h2 : n2 = .loop m k a' q' u' body)
    (hc : canFuse P arr arg tmp xs n1 t n2 = some cs) (hf : FreshTemps cs n1 n2) (hi : i ≠ constName)
    (hsym : ∀ x ∈ body.assignedIn, arr x = false) {σ : St} {vs ws : List Int} {e e' : Int}
    (hI : Iters E i q u σ (σ.ev E a) vs e) (hJ : Iters E k q' u' σ (σ.ev E a') ws e') (ha : i ∉ a.atoms) (ha' : k ∉ a'.atoms)
    (hh : ∀ n, (n ∈ a.atoms ∨ n ∈ q.atoms ∨ n ∈ u.atoms) → n ≠ i → Untouched i k B body n)
    (hh' : ∀ n, (n ∈ a'.atoms ∨ n ∈ q'.atoms ∨ n ∈ u'.atoms) → n ≠ k → Untouched i k B body n)
    (R : Recomputable E P σ i k B body cs vs ws) :
    ∃ σ' τ', (Seq.cons n1 t (.cons n2 [] .nil)).den E σ .normal σ' ∧ (Seq.cons n1 t (.cons (fuseLoop P false cs n1 n2) [] .nil)).den E σ .normal τ' ∧
      AgreeOff (FusedAway B cs) σ' τ' := by
  obtain ⟨rfl, rfl, rfl, rfl⟩ : m' = true ∧ t1 = [] ∧ rest = .nil ∧ t = [] := by
    subst h1 h2
    unfold canFuse at hc
    split at hc
    · rename_i h _
      simp only [Node.loop.injEq, Seq.cons.injEq] at h
      exact ⟨h.1, h.2.2.2.2.2.2.1, h.2.2.2.2.2.2.2, rfl⟩
    · cases hc
  subst h1 h2
  simp only [canFuse] at hc
  split at hc
  · cases hc
  · rename_i hxs
    split at hc
    · rename_i hX
      obtain ⟨hX1, hX2⟩ := hX
      have hcands : fuseCands P (fuseParam arr arg (.loop true i a q u (.cons (.block B) [] .nil)) (.loop m k a' q' u' body)) i k B body tmp xs = some cs := by
        split at hc
        · cases hc
        · exact hc
      obtain ⟨hm1, hm2⟩ := fuseCands_mem hcands
      have hu1 : (Node.loop true i a q u (.cons (.block B) [] .nil)).users =
          readsOf a.atoms ++ [(.write, i)] ++ readsOf q.atoms ++ (B.flatMap Stmt.users ++ transUsers [] ++ []) ++ readsOf u.atoms ++ [(.write, i)] := by
        simp [Node.users, Seq.users, Node.isRet]
      have hu2 : (Node.loop m k a' q' u' body).users =
          readsOf a'.atoms ++ [(.write, k)] ++ readsOf q'.atoms ++ body.users ++ readsOf u'.atoms ++ [(.write, k)] := by
        simp [Node.users]
      obtain ⟨hnd, hfr⟩ := hf
      rw [hu1, hu2] at hfr
      have hft : ∀ c ∈ cs, ∀ s ∈ B, ∀ w, (w, c.tmp) ∉ s.users := fun c hc s hs w h => (hfr c hc w).1 (by
        simp only [List.mem_append, List.mem_flatMap]; exact Or.inl (Or.inl (Or.inr (Or.inl (Or.inl ⟨s, hs, h⟩)))))
      have hfb : ∀ c ∈ cs, ∀ w, (w, c.tmp) ∉ body.users := fun c hc w h => (hfr c hc w).2 (by
        simp only [List.mem_append]; exact Or.inl (Or.inl (Or.inr h)))
      have hfk : ∀ c ∈ cs, c.tmp ≠ k := fun c hc h => (hfr c hc .write).2 (by simp [h])
      have hfh1 : ∀ c ∈ cs, ∀ n, (n ∈ a.atoms ∨ n ∈ q.atoms ∨ n ∈ u.atoms) → c.tmp ≠ n := fun c hc n hn h => (hfr c hc .read).1 (by
        subst h; simp only [List.mem_append, readsOf, List.mem_map]
        rcases hn with h | h | h
        · exact Or.inl (Or.inl (Or.inl (Or.inl (Or.inl ⟨_, h, rfl⟩))))
        · exact Or.inl (Or.inl (Or.inl (Or.inr ⟨_, h, rfl⟩)))
        · exact Or.inl (Or.inr ⟨_, h, rfl⟩))
      have hfh2 : ∀ c ∈ cs, ∀ n, (n ∈ a'.atoms ∨ n ∈ q'.atoms ∨ n ∈ u'.atoms) → c.tmp ≠ n := fun c hc n hn h => (hfr c hc .read).2 (by
        subst h; simp only [List.mem_append, readsOf, List.mem_map]
        rcases hn with h | h | h
        · exact Or.inl (Or.inl (Or.inl (Or.inl (Or.inl ⟨_, h, rfl⟩))))
        · exact Or.inl (Or.inl (Or.inl (Or.inr ⟨_, h, rfl⟩)))
        · exact Or.inl (Or.inr ⟨_, h, rfl⟩))
      have hcs : ∀ c ∈ cs, ∃ p, producerOf c.cont B = some p := fun c hc => by
        obtain ⟨⟨-, p, h, -⟩, -⟩ := hm1 c hc; exact ⟨p, h⟩
      have hfi : ∀ c ∈ cs, c.tmp ∉ blockWrites B := fun c hc h => by
        rw [mem_blockWrites] at h
        obtain ⟨s, hs, h⟩ := List.mem_flatMap.1 h
        exact hft c hc s hs .write h
      have hcw : ∀ c ∈ cs, ¬ writes body.users c.cont := by
        intro c hc
        obtain ⟨⟨hx, -⟩, -⟩ := hm1 c hc
        obtain ⟨es, h1, -⟩ := hm2 _ hx
        refine consumed_seq body h1 fun hb => ?_
        have h3 := ((hX2 c.cont (List.mem_append_right _ hx)).1 hx).2.1
        rw [hsym _ hb] at h3; cases h3
      have hfe : ∀ c ∈ cs, ∀ c' ∈ cs, c.tmp ∉ c'.idx.atoms := by
        intro c hc c' hc' h
        obtain ⟨-, es, h1, h2⟩ := hm1 c' hc'
        exact hfb c hc .read (consumed_seq_reads body h1 _ h2 _ h)
      have hDu : ∀ w n, (w, n) ∈ body.users → ¬ FusedAway B cs n := by
        rintro w n hn (⟨c, hc, rfl⟩ | ⟨h1, h2⟩)
        · exact hfb c hc w hn
        · exact R.scratch n h1 h2 w hn
      have hcb : ∀ c ∈ cs, ¬ writes body.users c.cont ∧ ¬ writes body.users c.tmp ∧ ∀ n ∈ c.idx.atoms, ¬ writes body.users n := by
        refine fun c hc => ⟨hcw c hc, hfb c hc .write, fun n hn => ?_⟩
        rcases (R.covered c hc).1 n hn with rfl | h
        · exact R.vars.2.2
        · exact h.2.2.2
      have hes : ∃ x es, body.consumed x = some es := by
        cases xs with
        | nil => simp at hxs
        | cons x xs => obtain ⟨es, h, -⟩ := hm2 x (by simp); exact ⟨x, es, h⟩
      obtain ⟨x0, hes⟩ := hes
      obtain ⟨σ1, hd1, hp1⟩ := map_produces (m := true) R hcs hft hI ha (fun n hn hne => ⟨hh n hn hne, fun c hc => hfh1 c hc n hn⟩)
      have hKD : ∀ n, Kept i k B body cs n → ¬ FusedAway B cs n := by
        rintro n hn (⟨c', hc', e⟩ | ⟨h, -⟩)
        · exact hn.2 c' hc' e
        · exact hn.1.2.2.1 h
      have hkD : ¬ FusedAway B cs k := by
        rintro (⟨c', hc', e⟩ | ⟨h, -⟩)
        · exact hfk c' hc' e
        · exact R.vars.2.1 h
      suffices hT : ∃ σ' τ', (Node.loop m k a' q' u' body).den E σ1 .normal σ' ∧
          (Node.loop m k a' q' u' (insertCopies P i B (body.redirect false cs) cs)).den E σ1 .normal τ' ∧
          Produced E σ i k B body cs vs σ' ∧ AgreeOff (FusedAway B cs) σ' τ' by
        obtain ⟨σ', τ', b1, b2, -, b3⟩ := hT
        refine ⟨σ', τ', ?_, ?_, b3⟩
        · rw [Seq.den]
          refine Or.inl ⟨σ1, hd1, ?_⟩
          show (Rel.seq (Rel.upd id) _) _ _ _
          rw [Rel.upd_seq, one_child_den]; exact b1
        · rw [Seq.den]
          refine Or.inl ⟨σ1, hd1, ?_⟩
          show (Rel.seq (Rel.upd id) _) _ _ _
          rw [Rel.upd_seq, one_child_den]; exact b2
      refine two_loops (m := m) (s := body) (s' := insertCopies P i B (body.redirect false cs) cs) (σ1 := σ1) (τ1 := σ1)
        (A := fun s t => Produced E σ i k B body cs vs s ∧ AgreeOff (FusedAway B cs) s t) hJ ha' ?_ ?_ ?_ ⟨hp1, AgreeOff.refl _ _⟩
      · rintro s t x ⟨h1, h2⟩ hx hne
        have hK : Kept i k B body cs x := ⟨hh' x hx hne, fun c hc => hfh2 c hc x hx⟩
        rw [← h2 x (hKD x hK), h1.kept x hK]; exact ⟨rfl, rfl⟩
      · rintro s t b ⟨h1, h2⟩
        refine ⟨⟨fun n hn => by rw [St.setS_other _ _ hn.1.2.1]; exact h1.kept n hn, fun c hc p hp v hv => ?_⟩, h2.setS _ _⟩
        rw [← h1.prod c hc p hp v hv]
        simp [St.setS, St.set]
      · rintro w hw s t ⟨h1, h2⟩ hs ht
        have hrun := copies_run (E := E) (P := P) (i := i) (B := B)
          (G := fun C t => AgreeOff (FusedAway B cs) s t ∧ ∀ c, C c → c ∈ cs ∧ t c.tmp [] = s c.cont [s.ev E c.idx])
          (Q := fun t => ∃ s', body.den E s .normal s' ∧ Redirected E (FusedAway B cs) cs s' t)
          (fun C C' t h hG => ⟨hG.1, fun c hc => hG.2 c (h c hc)⟩) cs
          (fun c hc C t hG => by
            obtain ⟨⟨-, p, hp, hm, -⟩, -⟩ := hm1 c hc
            obtain ⟨r1, r2, r3⟩ := copy_step R hE hN hC hi hft hcs hfe hfk hfi hnd hc hp hm hw h1 hs hG.1
            refine ⟨r1, fun d hd => ?_⟩
            by_cases e : d = c
            · subst e; exact ⟨hc, r2⟩
            · rcases hd with hd | hd
              · obtain ⟨g1, g2⟩ := hG.2 d hd
                exact ⟨g1, by rw [r3 d g1 e]; exact g2⟩
              · exact absurd hd e)
          (body.redirect false cs) (fun _ => False)
          (fun t hG => by
            obtain ⟨s', t', q1, q2, q3⟩ := redirect_body (E := E) (D := FusedAway B cs) (cs := cs) body hes hDu hcb (σ := s) (τ := t)
              ⟨hG.1, fun c hc => (hG.2 c (Or.inr hc)).2⟩
            exact ⟨t', q2, s', q1, q3⟩) t ⟨h2, fun c h => h.elim⟩
        obtain ⟨t', q2, s', q1, q3⟩ := hrun
        have hfrm : ∀ n, ¬ writes body.users n → s' n = s n := fun n hn =>
          body.frame_inv E n (s n) hn s .normal s' rfl q1
        refine ⟨s', t', q1, q2, ⟨⟨fun n hn => ?_, fun c hc p hp v hv => ?_⟩, q3.1⟩, ?_, ?_⟩
        · rw [hfrm n hn.1.2.2.2]; exact h1.kept n hn
        · rw [hfrm _ (hcw c hc)]; exact h1.prod c hc p hp v hv
        · rw [hfrm k R.vars.2.2]; exact hs
        · rw [← q3.1 k hkD, hfrm k R.vars.2.2]; exact hs
    · cases hc

end Docc.IR
