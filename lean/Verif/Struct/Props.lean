import Verif.Struct.Mach

namespace Docc.Struct
open Docc.Sym Docc.IR

/-! ### the emitted code -/

theorem blockOf_den (E : Env) (l : List Stmt) (t : Trans) (r : Seq) :
    (blockOf l t r).den E = fun σ => r.den E (runTrans E t (runBlock E l σ)) := by
  unfold blockOf
  split
  · rename_i h
    simp only [Bool.and_eq_true, List.isEmpty_iff] at h
    rw [h.1, h.2]; rfl
  · simp only [Seq.den, Node.den, Rel.upd_seq]

/-- the code cannot be left at its end -/
def NN (E : Env) (R : Rel) : Prop := ∀ σ τ, ¬ R σ .normal τ

theorem seq_den_cons (E : Env) (n : Node) (r : Seq) : (Seq.cons n [] r).den E = Rel.seq (n.den E) (r.den E) := by
  simp only [Seq.den]
  have : runTrans E [] = id := rfl
  rw [this, Rel.skip_seq]

theorem one_exit_den (E : Env) (n : Node) (k : Ctl) (h : n.den E = Rel.exit k) (hk : k ≠ .normal) :
    (Seq.cons n [] .nil).den E = Rel.exit k := by
  rw [seq_den_cons, h, Rel.exit_seq k hk]

mutual
/-- every if-else has a case for every memory -/
def Complete (E : Env) : Node → Prop
  | .block _ => True
  | .seq s => CompleteS E s
  | .ifElse b => CompleteB E b ∧ ∀ σ : St, ¬ AllFalse E σ b
  | .whileL s => CompleteS E s
  | .loop _ _ _ _ _ s => CompleteS E s
  | .brk => True
  | .cont => True
  | .ret _ _ => True
/-- of a sequence -/
def CompleteS (E : Env) : Seq → Prop
  | .nil => True
  | .cons n _ r => Complete E n ∧ CompleteS E r
/-- of the cases -/
def CompleteB (E : Env) : Brs → Prop
  | .nil => True
  | .cons _ s r => CompleteS E s ∧ CompleteB E r
/-- no condition of the cases holds -/
def AllFalse (E : Env) (σ : St) : Brs → Prop
  | .nil => True
  | .cons c _ r => σ.cond E c = false ∧ AllFalse E σ r
end

mutual
theorem falls_node (E : Env) : (n : Node) → Complete E n → Node.falls n = false → NN E (n.den E)
  | .block _, _, h => by simp [Node.falls] at h
  | .seq s, hc, h => by
    rw [Complete] at hc
    exact falls_seq E s hc (by simpa [Node.falls] using h)
  | .ifElse b, hc, h => by
    rw [Complete] at hc
    intro σ τ hr
    exact hc.2 σ (falls_brs E b hc.1 (by simpa [Node.falls] using h) σ τ hr)
  | .whileL _, _, h => by simp [Node.falls] at h
  | .loop .., _, h => by simp [Node.falls] at h
  | .brk, _, _ => by rintro σ τ ⟨h, _⟩; cases h
  | .cont, _, _ => by rintro σ τ ⟨h, _⟩; cases h
  | .ret _ _, _, _ => by rintro σ τ ⟨h, _⟩; cases h
theorem falls_seq (E : Env) : (s : Seq) → CompleteS E s → Seq.falls s = false → NN E (s.den E)
  | .nil, _, h => by simp [Seq.falls] at h
  | .cons n t r, hc, h => by
    rw [CompleteS] at hc
    simp only [Seq.falls, Bool.and_eq_false_iff] at h
    rintro σ τ (⟨σ1, h1, h2⟩ | ⟨hn, _⟩)
    · rcases h with h | h
      · exact falls_node E n hc.1 h _ _ h1
      · rw [Rel.upd_seq] at h2
        exact falls_seq E r hc.2 h _ _ h2
    · exact hn rfl
theorem falls_brs (E : Env) : (b : Brs) → CompleteB E b → Brs.falls b = false → ∀ σ τ, b.den E σ .normal τ → AllFalse E σ b
  | .nil, _, _, _, _, _ => by rw [AllFalse]; trivial
  | .cons c s r, hc, h, σ, τ, hr => by
    rw [CompleteB] at hc
    simp only [Brs.falls, Bool.or_eq_false_iff] at h
    rw [AllFalse]
    simp only [Brs.den, Rel.ite] at hr
    split at hr
    · exact absurd hr (falls_seq E s hc.1 h.1 _ _)
    · rename_i hf
      exact ⟨by simpa using hf, falls_brs E r hc.2 h.2 σ τ hr⟩
end

theorem blockOf_falls (l : List Stmt) (t : Trans) (r : Seq) : Seq.falls (blockOf l t r) = Seq.falls r := by
  unfold blockOf
  split
  · rfl
  · simp [Seq.falls, Node.falls]

theorem blockOf_complete (E : Env) (l : List Stmt) (t : Trans) (r : Seq) (h : CompleteS E r) : CompleteS E (blockOf l t r) := by
  unfold blockOf
  split
  · exact h
  · rw [CompleteS, Complete]; exact ⟨trivial, h⟩

/-! ### inversion of the algorithm -/

mutual
/-- How `region` can succeed; one constructor for each way through structured_sdfg_builder.cpp:160-378. -/
inductive Reg (M : Mach) (T : Trees) : (exit : Option Nat) → (brks : List EdgeId) → (L : Option LoopCtx) → Option Nat → Seq → List Ev → Prop
  | stop {exit brks L} : Reg M T exit brks L exit .nil []
  | loop {exit brks L c I body eb r er} : some c ≠ exit → isHeader M T c = true → (∀ l, L = some l → c ≠ l.header) → loopAt M T c = some I →
    Reg M T (some I.exit) (I.exits ++ brks) (some ⟨c, I.body, I.exit⟩) (some c) body eb →
    Reg M T exit brks L (some I.exit) r er →
    Reg M T exit brks L (some c) (.cons (.whileL body) [] r) (eb ++ (L.map fun l => Ev.inner I.exit l).toList ++ er)
  | sink {exit brks L c d q} : some c ≠ exit → (isHeader M T c = false ∨ ∃ l, L = some l ∧ l.header = c) → M.outE c = [] → (M.at c).ret = some (d, q) →
    Reg M T exit brks L (some c) (blockOf (M.at c).stmts [] (.cons (.ret d q) [] .nil)) []
  | cont {exit brks l c e} : some c ≠ exit → (isHeader M T c = false ∨ l.header = c) → M.outE c = [e] → e.2.cond = .tt → e.1 ∈ T.back →
    Reg M T exit brks (some l) (some c) (blockOf (M.at c).stmts e.2.asg (.cons .cont [] .nil)) [Ev.cont e.2 l]
  | brk {exit brks l c e} : some c ≠ exit → (isHeader M T c = false ∨ l.header = c) → M.outE c = [e] → e.2.cond = .tt →
    e.1 ∉ T.back → e.1 ∈ brks →
    Reg M T exit brks (some l) (some c) (blockOf (M.at c).stmts e.2.asg (.cons .brk [] .nil)) [Ev.brk e.2 l]
  | next {exit brks L c e r er} : some c ≠ exit → (isHeader M T c = false ∨ ∃ l, L = some l ∧ l.header = c) → M.outE c = [e] → e.2.cond = .tt →
    e.1 ∉ T.back → e.1 ∉ brks → Reg M T exit brks L (some e.2.dst) r er →
    Reg M T exit brks L (some c) (blockOf (M.at c).stmts e.2.asg r) er
  | branch {exit brks L c m bs eb r er} : some c ≠ exit → (isHeader M T c = false ∨ ∃ l, L = some l ∧ l.header = c) → 1 < (M.outE c).length →
    RegB M T m brks L (M.outE c) bs eb → Reg M T exit brks L m r er →
    Reg M T exit brks L (some c) (blockOf (M.at c).stmts [] (.cons (.ifElse bs) [] r)) (eb ++ if Brs.falls bs then er else [])
/-- The same for the cases of a branch. -/
inductive RegB (M : Mach) (T : Trees) : (merge : Option Nat) → (brks : List EdgeId) → (L : Option LoopCtx) → List (EdgeId × MEdge) → Brs → List Ev → Prop
  | nil {m brks L} : RegB M T m brks L [] .nil []
  | cont {m brks l e es bs ebs} : e.1 ∈ T.back → RegB M T m brks (some l) es bs ebs →
    RegB M T m brks (some l) (e :: es) (.cons e.2.cond (blockOf [] e.2.asg (.cons .cont [] .nil)) bs) (Ev.cont e.2 l :: ebs)
  | brk {m brks l e es bs ebs} : e.1 ∉ T.back → e.1 ∈ brks → RegB M T m brks (some l) es bs ebs →
    RegB M T m brks (some l) (e :: es) (.cons e.2.cond (blockOf [] e.2.asg (.cons .brk [] .nil)) bs) (Ev.brk e.2 l :: ebs)
  | sub {m brks L e es s ev bs ebs} : e.1 ∉ T.back → e.1 ∉ brks → Reg M T m brks L (some e.2.dst) s ev →
    RegB M T m brks L es bs ebs →
    RegB M T m brks L (e :: es) (.cons e.2.cond (blockOf [] e.2.asg s) bs) (ev ++ ebs)
end

theorem mergeOf_none (M : Mach) (T : Trees) (c : Nat) (exit : Option Nat) (vis : List Nat) : mergeOf M T c exit vis = none → exit = none := by
  unfold mergeOf
  intro h
  dsimp only at h
  split at h
  · exact h
  · cases h

mutual
theorem region_reg (M : Mach) (T : Trees) : (fuel : Nat) → ∀ {exit brks L cur vis b s ev},
    (cur = none → exit = none) → (b = true → ∃ l, L = some l ∧ cur = some l.header) → (∀ l, L = some l → b = true ∨ l.header ∈ vis) →
    region M T exit brks L fuel cur vis b = some (s, ev) → Reg M T exit brks L cur s ev
  | 0, _, _, _, _, _, _, _, _, _, _, _, h => by simp [region] at h
  | fuel + 1, exit, brks, L, cur, vis, b, s, ev, hn, hb0, hv, h => by
    rw [region.eq_def] at h; dsimp only at h
    split at h
    · rename_i hx
      cases h; subst hx; exact .stop
    · rename_i hx
      split at h
      · rename_i hc
        exact absurd (hn rfl).symm hx
      · rename_i c
        split at h
        · cases h
        · rename_i hvis
          split at h
          · rename_i hh
            simp only [Bool.and_eq_true, Bool.not_eq_true'] at hh
            obtain ⟨rfl, hh⟩ := hh
            split at h
            · cases h
            · rename_i I hI
              split at h
              · cases h
              · rename_i body eb hb
                split at h
                · cases h
                · rename_i r er hr
                  cases h
                  refine .loop hx hh ?_ hI (region_reg M T fuel (by simp) (fun _ => ⟨_, rfl, rfl⟩) (fun _ _ => Or.inl rfl) hb)
                    (region_reg M T fuel (by simp) (by simp) (fun l hl => ?_) hr)
                  · intro l hl hc
                    rcases hv l hl with h' | h'
                    · cases h'
                    · exact hvis (by rw [hc]; simpa using h')
                  · rcases hv l hl with h' | h'
                    · cases h'
                    · exact Or.inr (List.mem_cons_of_mem _ h')
          · rename_i hh
            have hb : isHeader M T c = false ∨ ∃ l, L = some l ∧ l.header = c := by
              cases hbb : b with
              | false => rw [hbb] at hh; left; simpa using hh
              | true =>
                obtain ⟨l, hl, hc⟩ := hb0 hbb
                exact Or.inr ⟨l, hl, by simpa using hc.symm⟩
            have hv' : ∀ l, L = some l → false = true ∨ l.header ∈ c :: vis := by
              intro l hl
              rcases hv l hl with h' | h'
              · obtain ⟨l', hl', hc⟩ := hb0 h'
                rw [hl] at hl'; cases hl'; cases hc
                exact Or.inr (by simp)
              · exact Or.inr (List.mem_cons_of_mem _ h')
            split at h
            · rename_i ho
              split at h
              · cases h
              · rename_i d q hd
                cases h
                exact .sink hx hb ho hd
            · rename_i e he
              split at h
              · rename_i ht
                split at h
                · rename_i hk
                  split at h
                  · cases h
                  · cases h
                    exact .cont hx (by simpa using hb) he ht (by simpa using hk)
                · rename_i hk
                  split at h
                  · rename_i hk2
                    split at h
                    · cases h
                    · cases h
                      exact .brk hx (by simpa using hb) he ht (by simpa using hk) (by simpa using hk2)
                  · rename_i hk2
                    split at h
                    · cases h
                    · rename_i r er hr
                      cases h
                      exact .next hx hb he ht (by simpa using hk) (by simpa using hk2) (region_reg M T fuel (by simp) (by simp) hv' hr)
              · cases h
            · rename_i es h0 h1
              split at h
              · cases h
              · rename_i bs eb hbs
                split at h
                · cases h
                · rename_i r er hr
                  cases h
                  refine .branch hx hb ?_ (branches_reg M T fuel hv' hbs) (region_reg M T fuel (mergeOf_none M T c exit _) (by simp) hv' hr)
                  match hM : M.outE c with
                  | [] => exact absurd hM h0
                  | [e] => exact absurd hM (h1 e)
                  | _ :: _ :: _ => simp
theorem branches_reg (M : Mach) (T : Trees) : (fuel : Nat) → ∀ {m brks L es vis bs ev}, (∀ l, L = some l → false = true ∨ l.header ∈ vis) →
    branches M T m brks L fuel es vis = some (bs, ev) → RegB M T m brks L es bs ev
  | 0, _, _, _, _, _, _, _, _, h => by simp [branches] at h
  | fuel + 1, m, brks, L, [], vis, bs, ev, hv, h => by
    rw [branches] at h; cases h; exact .nil
  | fuel + 1, m, brks, L, e :: es, vis, bs, ev, hv, h => by
    rw [branches] at h
    split at h
    · cases h
    · rename_i bs' ebs hb
      split at h
      · rename_i hk
        split at h
        · cases h
        · cases h
          exact .cont (by simpa using hk) (branches_reg M T fuel hv hb)
      · rename_i hk
        split at h
        · rename_i hk2
          split at h
          · cases h
          · cases h
            exact .brk (by simpa using hk) (by simpa using hk2) (branches_reg M T fuel hv hb)
        · rename_i hk2
          split at h
          · cases h
          · rename_i s' es' hs
            cases h
            exact .sub (by simpa using hk) (by simpa using hk2) (region_reg M T fuel (by simp) (by simp) hv hs) (branches_reg M T fuel hv hb)
end

end Docc.Struct
