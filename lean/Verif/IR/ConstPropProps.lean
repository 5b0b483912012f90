import Verif.IR.ConstProp

/-! C76: removing the second of two identical definitions. -/
namespace Docc.IR
open Docc.Sym

namespace Dfn
/-- where the definition stores -/
def loc (E : Env) (d : Dfn) (σ : St) : List Int := d.subset.map (σ.ev E)
/-- what it stores -/
def val (E : Env) : Dfn → St → Int
  | .asg _ e, σ => σ.ev E e
  | .task op ins _ _, σ => E.op op (ins.map fun r => σ r.1 (r.2.map (σ.ev E)))
/-- all names it depends on -/
def deps (d : Dfn) : List String := d.inputs.map (·.1) ++ d.indices
/-- the definition -/
def run (E : Env) (d : Dfn) (σ : St) : St := σ.set d.name (d.loc E σ) (d.val E σ)
/-- the value is there -/
def There (E : Env) (d : Dfn) (σ : St) : Prop := σ d.name (d.loc E σ) = d.val E σ
end Dfn

theorem ev_of_atoms {E : Env} {σ τ : St} {e : Expr} (h : ∀ y ∈ e.atoms, σ y = τ y) : σ.ev E e = τ.ev E e := by
  unfold St.ev
  rw [eval_congr_atoms e (σ.val E) (τ.val E) rfl fun y hy => by simp only [St.val, h y hy]]

theorem evs_of_atoms {E : Env} {σ τ : St} {l : List Expr} (h : ∀ y ∈ Expr.atomsL l, σ y = τ y) : l.map (σ.ev E) = l.map (τ.ev E) := by
  refine List.map_congr_left fun e he => ev_of_atoms fun y hy => h y ?_
  rw [Expr.mem_atomsL]; exact ⟨e, he, hy⟩

theorem Dfn.loc_congr {E : Env} {d : Dfn} {σ τ : St} (h : ∀ y ∈ d.deps, σ y = τ y) : d.loc E σ = d.loc E τ :=
  evs_of_atoms fun y hy => h y (by simp [Dfn.deps, Dfn.indices, hy])

theorem Dfn.val_congr {E : Env} {d : Dfn} {σ τ : St} (h : ∀ y ∈ d.deps, σ y = τ y) : d.val E σ = d.val E τ := by
  cases d with
  | asg x e => exact ev_of_atoms fun y hy => h y (by simp [Dfn.deps, Dfn.inputs, hy])
  | task op ins x sub =>
    simp only [Dfn.val]
    congr 1
    refine List.map_congr_left fun m hm => ?_
    rw [h m.1 (by simp only [Dfn.deps, Dfn.inputs, List.mem_append, List.mem_map]; exact Or.inl ⟨m, hm, rfl⟩)]
    congr 1
    refine evs_of_atoms fun y hy => h y ?_
    simp only [Dfn.deps, Dfn.indices, Dfn.inputs, List.mem_append, List.mem_flatMap]
    exact Or.inr (Or.inr ⟨m, hm, hy⟩)

theorem Dfn.There.keep {E : Env} {d : Dfn} {σ τ : St} (h : d.There E σ) (hk : ∀ y ∈ d.name :: d.deps, τ y = σ y) : d.There E τ := by
  unfold Dfn.There at *
  rw [hk _ (by simp), Dfn.loc_congr (τ := σ) fun y hy => hk y (by simp [hy]), Dfn.val_congr (τ := σ) fun y hy => hk y (by simp [hy]), h]

theorem Dfn.run_there {E : Env} {d : Dfn} (hx : d.name ∉ d.deps) (σ : St) : d.There E (d.run E σ) := by
  have hk : ∀ y ∈ d.deps, d.run E σ y = σ y := fun y hy => by
    have hne : y ≠ d.name := fun h => hx (h ▸ hy)
    exact St.set_other _ _ _ hne
  unfold Dfn.There
  rw [Dfn.loc_congr hk, Dfn.val_congr hk]
  simp [Dfn.run, St.set]

theorem Dfn.There.run {E : Env} {d : Dfn} {σ : St} (h : d.There E σ) : d.run E σ = σ := by
  unfold Dfn.There at h
  funext y j
  unfold Dfn.run St.set
  split
  · rename_i hc; rw [hc.1, hc.2, h]
  · rfl

theorem Dfn.isAsg_run {E : Env} {d : Dfn} {a : String × Expr} (h : d.isAsg a = true) (σ : St) : σ.setS a.1 (σ.ev E a.2) = d.run E σ := by
  have : d = .asg a.1 a.2 := by simpa [Dfn.isAsg] using h
  subst this
  rfl

theorem Dfn.isStmt_run {E : Env} {d : Dfn} {s : Stmt} (h : d.isStmt s = true) (σ : St) : s.run E σ = d.run E σ := by
  cases s with
  | lib => simp [Dfn.isStmt] at h
  | tasklet op ins x sub =>
    have : d = .task op ins x sub := by simpa [Dfn.isStmt] using h
    subst this
    rfl

/-- if the last use of the history that concerns the definition is one of `w1`, `w2`, then the value is there -/
def Avail2 (E : Env) (d : Dfn) (w1 w2 : V) (h : List V) (σ : St) : Prop :=
  ∀ a w b, (w = w1 ∨ w = w2) → h = a ++ w :: b → (∀ v ∈ b, ∀ y ∈ d.name :: d.deps, v.wr y = false) → d.There E σ

theorem avail2_emit {E : Env} {d : Dfn} {w1 w2 : V} {us : List V} {f : St → St} (h1 : w1 ∉ us) (h2 : w2 ∉ us)
    (hf : ∀ σ, ∀ y, (∀ v ∈ us, v.wr y = false) → f σ y = σ y) (h : List V) (σ : St) (hI : Avail2 E d w1 w2 h σ) :
    Avail2 E d w1 w2 (h ++ us) (f σ) := by
  intro a w b hw hab hb
  have hwu : w ∉ us := by rcases hw with rfl | rfl <;> assumption
  rcases List.append_eq_append_iff.mp hab with ⟨c, rfl, hc⟩ | ⟨c, hh, hc⟩
  · exfalso; exact hwu (by rw [hc]; simp)
  · cases c with
    | nil => exfalso; simp at hc; exact hwu (by rw [← hc]; simp)
    | cons v c =>
      simp only [List.cons_append, List.cons.injEq] at hc
      obtain ⟨rfl, rfl⟩ := hc
      exact (hI a _ c hw hh fun v hv => hb v (by simp [hv])).keep fun y hy => hf σ y fun v hv => hb v (by simp [hv]) y hy

theorem Avail2.of {E : Env} {d : Dfn} {w1 w2 : V} {h : List V} {σ : St} (ht : d.There E σ) : Avail2 E d w1 w2 h σ := fun _ _ _ _ _ _ => ht

theorem stmt_frame (E : Env) (s : Stmt) (k : Nat) (σ : St) (y : String) (hy : ∀ v ∈ evs k s.users, v.wr y = false) : s.run E σ y = σ y :=
  runBlock_frame E [s] σ y (by simpa using wr_evs.1 hy)

theorem avail2_stmt {E : Env} {d : Dfn} {w1 w2 : V} (hx : d.name ∉ d.deps) {s : Stmt} {k : Nat}
    (h1 : (!decide (w1 ∈ evs k s.users) || d.isStmt s) = true) (h2 : (!decide (w2 ∈ evs k s.users) || d.isStmt s) = true)
    (h : List V) (σ : St) (hI : Avail2 E d w1 w2 h σ) : Avail2 E d w1 w2 (h ++ evs k s.users) (s.run E σ) := by
  by_cases hs : d.isStmt s = true
  · rw [Dfn.isStmt_run hs]; exact .of (Dfn.run_there hx σ)
  · simp only [hs, Bool.or_false, Bool.not_eq_true', decide_eq_false_iff_not] at h1 h2
    exact avail2_emit h1 h2 (fun σ y hy => stmt_frame E s k σ y hy) h σ hI

theorem avail2_asg {E : Env} {d : Dfn} {w1 w2 : V} (hx : d.name ∉ d.deps) {a : String × Expr} {k : Nat}
    (h1 : (!decide (V.ev k (.write, a.1) = w1) || d.isAsg a) = true) (h2 : (!decide (V.ev k (.write, a.1) = w2) || d.isAsg a) = true)
    (h : List V) (σ : St) (hI : Avail2 E d w1 w2 h σ) : Avail2 E d w1 w2 (h ++ [.ev k (.write, a.1)]) (σ.setS a.1 (σ.ev E a.2)) := by
  by_cases hs : d.isAsg a = true
  · rw [Dfn.isAsg_run hs]; exact .of (Dfn.run_there hx σ)
  · simp only [hs, Bool.or_false, Bool.not_eq_true', decide_eq_false_iff_not] at h1 h2
    refine avail2_emit (f := fun σ => σ.setS a.1 (σ.ev E a.2)) (by simpa [eq_comm] using h1) (by simpa [eq_comm] using h2) (fun σ y hy => ?_) h σ hI
    exact St.setS_other _ _ fun he => by
      subst he
      have := hy (.ev k (.write, a.1)) (by simp)
      simp [V.wr] at this

theorem avail2_block {E : Env} {d : Dfn} {w1 w2 : V} (hx : d.name ∉ d.deps) : ∀ (l : List Stmt) (k : Nat),
    stmtDfn d w1 l k = true → stmtDfn d w2 l k = true → ∀ h σ, Avail2 E d w1 w2 h σ →
    Avail2 E d w1 w2 (h ++ evs k (l.flatMap Stmt.users)) (runBlock E l σ)
  | [], k, _, _, h, σ, hI => by simpa [evs, runBlock] using hI
  | s :: l, k, h1, h2, h, σ, hI => by
    rw [stmtDfn, Bool.and_eq_true] at h1 h2
    rw [List.flatMap_cons, evs_append, ← List.append_assoc]
    exact avail2_block hx l _ h1.2 h2.2 _ _ (avail2_stmt hx h1.1 h2.1 h σ hI)

theorem avail2_writes {E : Env} {d : Dfn} {w1 w2 : V} (hx : d.name ∉ d.deps) : ∀ (t : Trans) (k : Nat),
    asgDfn d w1 t k = true → asgDfn d w2 t k = true → ∀ h σ, Avail2 E d w1 w2 h σ →
    Avail2 E d w1 w2 (h ++ evs k (t.map fun a => (Use.write, a.1))) (runTrans E t σ)
  | [], k, _, _, h, σ, hI => by simpa [evs, runTrans] using hI
  | a :: t, k, h1, h2, h, σ, hI => by
    rw [asgDfn, Bool.and_eq_true] at h1 h2
    rw [List.map_cons, evs_cons, ← List.singleton_append, ← List.append_assoc]
    exact avail2_writes hx t _ h1.2 h2.2 _ _ (avail2_asg hx h1.1 h2.1 h σ hI)

theorem avail2_trans {E : Env} {d : Dfn} {w1 w2 : V} (hx : d.name ∉ d.deps) {t : Trans} {k : Nat}
    (r1 : w1 ∉ evs k (readsOnce (t.flatMap fun a => a.2.atoms))) (r2 : w2 ∉ evs k (readsOnce (t.flatMap fun a => a.2.atoms)))
    (h1 : asgDfn d w1 t (k + (readsOnce (t.flatMap fun a => a.2.atoms)).length) = true)
    (h2 : asgDfn d w2 t (k + (readsOnce (t.flatMap fun a => a.2.atoms)).length) = true) (h : List V) (σ : St) (hI : Avail2 E d w1 w2 h σ) :
    Avail2 E d w1 w2 (h ++ evs k (transUses t)) (runTrans E t σ) := by
  unfold transUses
  rw [evs_append, ← List.append_assoc]
  exact avail2_writes hx t _ h1 h2 _ _ (avail2_emit (f := id) r1 r2 (fun σ y _ => rfl) h σ hI)

mutual
theorem Node.avail2 {E : Env} {d : Dfn} {w1 w2 : V} (hx : d.name ∉ d.deps) :
    (n : Node) → ∀ k, n.dfn d w1 k = true → n.dfn d w2 k = true → TR.Keeps (Avail2 E d w1 w2) (n.tr E k)
  | .block l, k, h, g => by
    rw [Node.dfn] at h g
    rw [Node.tr]
    exact TR.keeps_emit (avail2_block hx l _ h g)
  | .seq s, k, h, g => by rw [Node.dfn] at h g; rw [Node.tr]; exact s.avail2 hx _ h g
  | .ifElse b, k, h, g => by
    rw [Node.dfn, Bool.and_eq_true] at h g
    rw [Node.tr]
    exact TR.keeps_seq (TR.keeps_emit (avail2_emit (by simpa using h.1) (by simpa using g.1) fun σ y _ => rfl)) (b.avail2 hx _ h.2 g.2)
  | .whileL s, k, h, g => by rw [Node.dfn] at h g; rw [Node.tr]; exact TR.keeps_forever (s.avail2 hx _ h g)
  | .loop m i init cond upd s, k, h, g => by
    rw [Node.dfn] at h g
    simp only [Bool.and_eq_true] at h g
    obtain ⟨⟨⟨h1, h2⟩, h3⟩, h4⟩ := h
    obtain ⟨⟨⟨g1, g2⟩, g3⟩, g4⟩ := g
    rw [Node.tr]
    refine TR.keeps_seq (TR.keeps_emit (avail2_emit (by simpa using h1) (by simpa using g1)
      fun σ y hy => setS_frame E i init _ (writes_initUses i init) _ σ y hy)) ?_
    refine TR.keeps_iter (s.avail2 hx _ h4 g4) (avail2_emit (f := id) (by simpa using h2) (by simpa using g2) fun σ y _ => rfl)
      (avail2_emit (by simpa using h3) (by simpa using g3) fun σ y hy => setS_frame E i upd _ (writes_updUses i upd) _ σ y hy)
  | .brk, k, _, _ => by rw [Node.tr]; exact TR.keeps_jump fun h σ hI => by simpa using hI
  | .cont, k, _, _ => by rw [Node.tr]; exact TR.keeps_jump fun h σ hI => by simpa using hI
  | .ret c q, k, h, g => by
    rw [Node.tr]
    rw [Node.dfn] at h g
    refine TR.keeps_jump fun p σ hI => avail2_emit (f := id) ?_ ?_ (fun σ y _ => rfl) p σ hI
    · split
      · simp
      · simpa using h
    · split
      · simp
      · simpa using g
theorem Seq.avail2 {E : Env} {d : Dfn} {w1 w2 : V} (hx : d.name ∉ d.deps) :
    (s : Seq) → ∀ k, s.dfn d w1 k = true → s.dfn d w2 k = true → TR.Keeps (Avail2 E d w1 w2) (s.tr E k)
  | .nil, k, _, _ => by rw [Seq.tr]; exact TR.keeps_emit fun h σ hI => by simpa using hI
  | .cons n t q, k, h, g => by
    rw [Seq.dfn] at h g
    simp only [Bool.and_eq_true] at h g
    obtain ⟨⟨⟨h1, h2⟩, h3⟩, h4⟩ := h
    obtain ⟨⟨⟨g1, g2⟩, g3⟩, g4⟩ := g
    rw [Seq.tr]
    exact TR.keeps_seq (n.avail2 hx _ h1 g1) (TR.keeps_seq (TR.keeps_emit (avail2_trans hx (by simpa using h2) (by simpa using g2) h3 g3))
      (q.avail2 hx _ h4 g4))
theorem Brs.avail2 {E : Env} {d : Dfn} {w1 w2 : V} (hx : d.name ∉ d.deps) :
    (b : Brs) → ∀ k, b.dfn d w1 k = true → b.dfn d w2 k = true → TR.Keeps (Avail2 E d w1 w2) (b.tr E k)
  | .nil, k, _, _ => by rw [Brs.tr]; exact TR.keeps_emit fun h σ hI => by simpa using hI
  | .cons c s q, k, h, g => by
    rw [Brs.dfn, Bool.and_eq_true] at h g
    rw [Brs.tr]
    exact TR.keeps_ite (s.avail2 hx _ h.1 g.1) (q.avail2 hx _ h.2 g.2)
end

/-- what the analyses provide: when `w2` is performed, the last use that concerned the definition was `w1` or `w2` -/
def LastIs2 (d : Dfn) (w1 w2 : V) (Perf : List V → Prop) : Prop :=
  ∀ l, Perf (l ++ [w2]) → ∃ a w b, (w = w1 ∨ w = w2) ∧ l = a ++ w :: b ∧ ∀ v ∈ b, ∀ y ∈ d.name :: d.deps, v.wr y = false

theorem dropStmt_run {E : Env} {d : Dfn} {w1 w2 : V} {Perf : List V → Prop} (hx : d.name ∉ d.deps) (hw1 : w1.wr d.name = true)
    (hw2 : w2.wr d.name = true) (hL : LastIs2 d w1 w2 Perf) : ∀ (L : List Stmt) (k : Nat) (h : List V) (σ : St),
    stmtDfn d w1 L k = true → stmtDfn d w2 L k = true → Avail2 E d w1 w2 h σ →
    (∀ l, l <+: evs k (L.flatMap Stmt.users) → Perf (h ++ l)) → runBlock E (dropStmt w2 L k) σ = runBlock E L σ
  | [], _, _, _, _, _, _, _ => rfl
  | s :: L, k, h, σ, h1, h2, hI, hP => by
    rw [stmtDfn, Bool.and_eq_true] at h1 h2
    rw [List.flatMap_cons, evs_append] at hP
    have hI' := avail2_stmt hx h1.1 h2.1 h σ hI
    have hP' : ∀ l, l <+: evs (k + s.users.length) (L.flatMap Stmt.users) → Perf (h ++ evs k s.users ++ l) := fun l hl => by
      rw [List.append_assoc]
      obtain ⟨z, hz⟩ := hl
      exact hP _ ⟨z, by rw [List.append_assoc, hz]⟩
    rw [dropStmt]
    split
    · rename_i hm
      have hs : d.isStmt s = true := by simpa [hm] using h2.1
      have ht : d.There E σ := by
        obtain ⟨u1, u2, hu⟩ := List.append_of_mem hm
        obtain ⟨a, w, b, hw, hab, hb⟩ := hL (h ++ u1) (by
          rw [List.append_assoc]; exact hP _ (by rw [hu]; exact ⟨u2 ++ evs (k + s.users.length) (L.flatMap Stmt.users), by simp⟩))
        -- only the last use of the tasklet is a write
        have hr : ∀ v ∈ u1, v.wr d.name = false := by
          obtain ⟨A, W, hAW, hA, hW⟩ := readsFirst_stmt s
          cases s with
          | lib => simp [Dfn.isStmt] at hs
          | tasklet op ins x sub =>
            rw [Stmt.users, evs_append] at hu
            generalize hA' : readsOf (ins.map (·.1)) ++ readsOf (ins.flatMap fun r => Expr.atomsL r.2) ++ readsOf (Expr.atomsL sub) = A' at hu
            have hrA : ∀ v ∈ evs k A', v.wr d.name = false := wr_evs.2 (by
              subst hA'
              unfold writes
              simp [readsOf])
            simp only [evs, List.zipIdx_cons, List.zipIdx_nil, List.map_cons, List.map_nil] at hu
            rcases List.append_eq_append_iff.mp hu with ⟨c, rfl, hc⟩ | ⟨c, hh, hc⟩
            · cases c with
              | nil => intro v hv; rw [List.append_nil] at hv; exact hrA v hv
              | cons z c => simp at hc
            · intro v hv
              exact hrA v (by show v ∈ evs k A'; rw [show evs k A' = u1 ++ c from hh]; simp [hv])
        have hwh : w ∉ u1 := fun hm => by
          have := hr w hm
          rcases hw with rfl | rfl
          · rw [hw1] at this; cases this
          · rw [hw2] at this; cases this
        rcases List.append_eq_append_iff.mp hab with ⟨c, rfl, hc⟩ | ⟨c, hh, hc⟩
        · exact absurd (by rw [hc]; simp) hwh
        · cases c with
          | nil => simp only [List.nil_append] at hc; exact absurd (by rw [← hc]; simp) hwh
          | cons v c =>
            simp only [List.cons_append, List.cons.injEq] at hc
            obtain ⟨rfl, rfl⟩ := hc
            exact hI a w c hw hh fun v hv => hb v (by simp [hv])
      have hrun : s.run E σ = σ := (Dfn.isStmt_run hs σ).trans ht.run
      show _ = runBlock E L (s.run E σ)
      rw [hrun] at hI' ⊢
      exact dropStmt_run hx hw1 hw2 hL L _ _ _ h1.2 h2.2 hI' hP'
    · show runBlock E _ (s.run E σ) = runBlock E L (s.run E σ)
      exact dropStmt_run hx hw1 hw2 hL L _ _ _ h1.2 h2.2 hI' hP'

theorem dropAsg_run {E : Env} {d : Dfn} {w1 w2 : V} {Perf : List V → Prop} (hx : d.name ∉ d.deps) (hL : LastIs2 d w1 w2 Perf) :
    ∀ (t : Trans) (k : Nat) (h : List V) (σ : St), asgDfn d w1 t k = true → asgDfn d w2 t k = true → Avail2 E d w1 w2 h σ →
    (∀ l, l <+: evs k (t.map fun a => (Use.write, a.1)) → Perf (h ++ l)) → runTrans E (dropAsg w2 t k) σ = runTrans E t σ
  | [], _, _, _, _, _, _, _ => rfl
  | a :: t, k, h, σ, h1, h2, hI, hP => by
    rw [asgDfn, Bool.and_eq_true] at h1 h2
    rw [List.map_cons, evs_cons, ← List.singleton_append] at hP
    have hI' := avail2_asg hx h1.1 h2.1 h σ hI
    have hP' : ∀ l, l <+: evs (k + 1) (t.map fun a => (Use.write, a.1)) → Perf (h ++ [.ev k (.write, a.1)] ++ l) := fun l hl => by
      rw [List.append_assoc]
      obtain ⟨z, hz⟩ := hl
      exact hP _ ⟨z, by rw [List.append_assoc, hz]⟩
    rw [dropAsg]
    split
    · rename_i hm
      have hs : d.isAsg a = true := by simpa [hm] using h2.1
      obtain ⟨p, w, b, hw, hab, hb⟩ := hL h (by rw [← hm]; exact hP _ (List.prefix_append _ _))
      have hrun : σ.setS a.1 (σ.ev E a.2) = σ := (Dfn.isAsg_run hs σ).trans (hI p w b hw hab hb).run
      show _ = runTrans E t (σ.setS a.1 (σ.ev E a.2))
      rw [hrun] at hI' ⊢
      exact dropAsg_run hx hL t _ _ _ h1.2 h2.2 hI' hP'
    · show runTrans E _ (σ.setS a.1 (σ.ev E a.2)) = runTrans E t (σ.setS a.1 (σ.ev E a.2))
      exact dropAsg_run hx hL t _ _ _ h1.2 h2.2 hI' hP'

mutual
theorem Node.drop_same {E : Env} {d : Dfn} {w1 w2 : V} {Perf : List V → Prop} (hx : d.name ∉ d.deps) (hw1 : w1.wr d.name = true)
    (hw2 : w2.wr d.name = true) (hL : LastIs2 d w1 w2 Perf) :
    (n : Node) → ∀ k, n.dfn d w1 k = true → n.dfn d w2 k = true → TR.Same (Avail2 E d w1 w2) Perf ((n.drop w2 k).den E) (n.tr E k)
  | .block l, k, h, g => by
    rw [Node.dfn] at h g
    rw [Node.tr, Node.drop, Node.den]
    exact TR.same_emit fun p σ hI hP => dropStmt_run hx hw1 hw2 hL l _ p σ h g hI hP
  | .seq s, k, h, g => by
    rw [Node.dfn] at h g; rw [Node.tr, Node.drop, Node.den]
    exact s.drop_same hx hw1 hw2 hL _ h g
  | .ifElse b, k, h, g => by
    rw [Node.dfn, Bool.and_eq_true] at h g
    rw [Node.tr, Node.drop, Node.den, ← Rel.skip_seq ((b.drop w2 (k + 2 + (readsOnce b.condAtoms).length)).den E)]
    exact TR.same_seq (TR.same_emit fun _ _ _ _ => rfl)
      (TR.keeps_emit (avail2_emit (by simpa using h.1) (by simpa using g.1) fun σ y _ => rfl)) (b.drop_same hx hw1 hw2 hL _ h.2 g.2)
  | .whileL s, k, h, g => by
    rw [Node.dfn] at h g; rw [Node.tr, Node.drop, Node.den]
    exact TR.same_forever (s.drop_same hx hw1 hw2 hL _ h g) (s.avail2 hx _ h g)
  | .loop m i' init cond upd s, k, h, g => by
    rw [Node.dfn] at h g
    simp only [Bool.and_eq_true] at h g
    obtain ⟨⟨⟨h1, h2⟩, h3⟩, h4⟩ := h
    obtain ⟨⟨⟨g1, g2⟩, g3⟩, g4⟩ := g
    rw [Node.tr, Node.drop, Node.den]
    have k1 := avail2_emit (E := E) (d := d) (f := fun σ => σ.setS i' (σ.ev E init)) (by simpa using h1) (by simpa using g1)
      fun σ y hy => setS_frame E i' init _ (writes_initUses i' init) _ σ y hy
    have k3 := avail2_emit (E := E) (d := d) (f := fun σ => σ.setS i' (σ.ev E upd)) (by simpa using h3) (by simpa using g3)
      fun σ y hy => setS_frame E i' upd _ (writes_updUses i' upd) _ σ y hy
    refine TR.same_seq (TR.same_emit fun p σ hI hP => rfl) (TR.keeps_emit k1) ?_
    exact TR.same_iter (s.drop_same hx hw1 hw2 hL _ h4 g4) (s.avail2 hx _ h4 g4)
        (avail2_emit (f := id) (by simpa using h2) (by simpa using g2) fun σ y _ => rfl) k3 (fun p σ hI hP => rfl) (fun p σ hI hP => rfl)
  | .brk, k, _, _ => by rw [Node.tr, Node.drop, Node.den]; exact TR.same_jump _ _
  | .cont, k, _, _ => by rw [Node.tr, Node.drop, Node.den]; exact TR.same_jump _ _
  | .ret c q, k, _, _ => by rw [Node.tr, Node.drop, Node.den]; exact TR.same_jump _ _
theorem Seq.drop_same {E : Env} {d : Dfn} {w1 w2 : V} {Perf : List V → Prop} (hx : d.name ∉ d.deps) (hw1 : w1.wr d.name = true)
    (hw2 : w2.wr d.name = true) (hL : LastIs2 d w1 w2 Perf) :
    (s : Seq) → ∀ k, s.dfn d w1 k = true → s.dfn d w2 k = true → TR.Same (Avail2 E d w1 w2) Perf ((s.drop w2 k).den E) (s.tr E k)
  | .nil, k, _, _ => by rw [Seq.tr, Seq.drop, Seq.den]; exact TR.same_emit fun _ _ _ _ => rfl
  | .cons n t q, k, h, g => by
    rw [Seq.dfn] at h g
    simp only [Bool.and_eq_true] at h g
    obtain ⟨⟨⟨h1, h2⟩, h3⟩, h4⟩ := h
    obtain ⟨⟨⟨g1, g2⟩, g3⟩, g4⟩ := g
    rw [Seq.tr, Seq.drop, Seq.den]
    refine TR.same_seq (n.drop_same hx hw1 hw2 hL _ h1 g1) (n.avail2 hx _ h1 g1) (TR.same_seq (TR.same_emit fun p σ hI hP => ?_)
      (TR.keeps_emit (avail2_trans hx (by simpa using h2) (by simpa using g2) h3 g3)) (q.drop_same hx hw1 hw2 hL _ h4 g4))
    unfold transUses at hP
    rw [evs_append] at hP
    refine dropAsg_run hx hL t _ (p ++ evs (k + n.vn) (readsOnce (t.flatMap fun a => a.2.atoms))) σ h3 g3
      (avail2_emit (f := id) (by simpa using h2) (by simpa using g2) (fun σ y _ => rfl) p σ hI) fun l hl => ?_
    rw [List.append_assoc]
    obtain ⟨z, hz⟩ := hl
    exact hP _ ⟨z, by rw [List.append_assoc, hz]⟩
theorem Brs.drop_same {E : Env} {d : Dfn} {w1 w2 : V} {Perf : List V → Prop} (hx : d.name ∉ d.deps) (hw1 : w1.wr d.name = true)
    (hw2 : w2.wr d.name = true) (hL : LastIs2 d w1 w2 Perf) :
    (b : Brs) → ∀ k, b.dfn d w1 k = true → b.dfn d w2 k = true → TR.Same (Avail2 E d w1 w2) Perf ((b.drop w2 k).den E) (b.tr E k)
  | .nil, k, _, _ => by rw [Brs.tr, Brs.drop, Brs.den]; exact TR.same_emit fun _ _ _ _ => rfl
  | .cons c s q, k, h, g => by
    rw [Brs.dfn, Bool.and_eq_true] at h g
    rw [Brs.tr, Brs.drop, Brs.den]
    exact TR.same_ite (s.drop_same hx hw1 hw2 hL _ h.1 g.1) (q.drop_same hx hw1 hw2 hL _ h.2 g.2)
end

/-- removing the definition `w2` preserves the behaviour when `w1` or `w2` is the last relevant use before it -/
theorem drop_last {E : Env} {d : Dfn} {w1 w2 : V} (hx : d.name ∉ d.deps) (hw1 : w1.wr d.name = true) (hw2 : w2.wr d.name = true) (s : Seq)
    (h1 : s.dfn d w1 2 = true) (h2 : s.dfn d w2 2 = true) (hL : LastIs2 d w1 w2 fun l => ∃ σ o, s.Performs E σ l o) :
    (s.drop w2 2).den E = s.den E := by
  funext σ c τ
  have := s.drop_same (E := E) hx hw1 hw2 hL 2 h1 h2 [] σ (fun a w b _ h => by simp at h) (fun l hl => ⟨σ, none, hl⟩) c τ
  rw [Seq.tr_rel] at this
  exact propext this

/-! ### the criteria of the pass -/

mutual
theorem Node.flowOk_forsOk : (n : Node) → n.flowOk = true → n.forsOk = true
  | .block _, _ => rfl
  | .seq s, h => by rw [Node.flowOk] at h; rw [Node.forsOk]; exact s.flowOk_forsOk h
  | .ifElse b, h => by rw [Node.flowOk] at h; rw [Node.forsOk]; exact b.flowOk_forsOk h
  | .whileL s, h => by rw [Node.flowOk] at h; rw [Node.forsOk]; exact s.flowOk_forsOk h
  | .loop _ _ _ _ _ s, h => by
    rw [Node.flowOk, Bool.and_eq_true] at h
    rw [Node.forsOk, h.1, s.flowOk_noJump h.2, s.flowOk_forsOk h.2]; rfl
  | .brk, _ => rfl
  | .cont, _ => rfl
  | .ret _ _, _ => rfl
theorem Seq.flowOk_forsOk : (s : Seq) → s.flowOk = true → s.forsOk = true
  | .nil, _ => rfl
  | .cons n _ r, h => by
    rw [Seq.flowOk, Bool.and_eq_true] at h
    rw [Seq.forsOk, n.flowOk_forsOk h.1, r.flowOk_forsOk h.2]; rfl
theorem Brs.flowOk_forsOk : (b : Brs) → b.flowOk = true → b.forsOk = true
  | .nil, _ => rfl
  | .cons _ s r, h => by
    rw [Brs.flowOk, Bool.and_eq_true] at h
    rw [Brs.forsOk, s.flowOk_forsOk h.1, r.flowOk_forsOk h.2]; rfl
end

theorem Path.prefix {G : List (V × V)} {q : List V} : ∀ {p : List V}, Path G (p ++ q) → Path G p
  | [], _ => trivial
  | [_], _ => trivial
  | a :: b :: p, h => ⟨h.1, Path.prefix (p := b :: p) (q := q) h.2⟩

/-- what dominates `w1` cannot lie between `w1` and a `w2` dominated by it -/
theorem before_not_between {G : List (V × V)} {src u w1 w2 : V} (hu : Dominates G src u w1) (hd : Dominates G src w1 w2)
    (hr : ∃ p, Path G (src :: p) ∧ (src :: p).getLast? = some w1) : ¬ UsedBetween G w1 w2 u := by
  rintro ⟨h1, h2, q, hq, hql, hqn⟩
  obtain ⟨p, hp, hpl⟩ := hr
  -- a path that reaches `w1` only at its end
  have hm : w1 ∈ src :: p := List.mem_of_getLast? hpl
  obtain ⟨p0, p1, he, hn⟩ := List.eq_append_cons_of_mem hm
  have hp0 : Path G (p0 ++ [w1]) := by
    have : src :: p = (p0 ++ [w1]) ++ p1 := by simp [he]
    rw [this] at hp
    exact hp.prefix
  have hsrc : ∃ r, p0 ++ [w1] = src :: r := by
    cases p0 with
    | nil => simp at he; exact ⟨[], by simp [he.1]⟩
    | cons a p0 => simp at he; exact ⟨p0 ++ [w1], by simp [he.1]⟩
  obtain ⟨r, hr⟩ := hsrc
  have hu' := hu.2 r (hr ▸ hp0) (by rw [← hr]; simp)
  rw [← hr] at hu'
  have hu0 : u ∈ p0 := by
    rcases List.mem_append.mp hu' with h | h
    · exact h
    · exact absurd (by simpa using h) h1
  obtain ⟨a, b, rfl⟩ := List.append_of_mem hu0
  have hpu : Path G (a ++ [u]) := by
    have : a ++ u :: b ++ [w1] = (a ++ [u]) ++ (b ++ [w1]) := by simp
    rw [this] at hp0
    exact hp0.prefix
  have hj := hpu.join (b := u) (q := q) (by simp) hq
  have hjl : (a ++ [u] ++ q).getLast? = some w2 := getLast?_join (by simp) hql
  obtain ⟨c, hc⟩ : ∃ c, a ++ [u] ++ q = src :: c := by
    cases a with
    | nil => simp at hr; exact ⟨q, by simp [hr.1]⟩
    | cons x a => simp at hr; exact ⟨a ++ [u] ++ q, by simp [hr.1]⟩
  rw [hc] at hj hjl
  have := hd.2 c hj hjl
  rw [← hc] at this
  rcases List.mem_append.mp this with h | h
  · rcases List.mem_append.mp h with h | h
    · exact hn (by simp [h])
    · exact h1 (List.mem_singleton.mp h).symm
  · exact hqn (by simp [h])

theorem last_of' {α : Type} (p : α → Bool) : ∀ l : List α, (∃ w ∈ l, p w = true) → ∃ a w b, l = a ++ w :: b ∧ p w = true ∧ ∀ v ∈ b, p v = false
  | [], ⟨_, h, _⟩ => by cases h
  | v :: l, ⟨w, h, hw⟩ => by
    by_cases hl : ∃ w ∈ l, p w = true
    · obtain ⟨a, w, b, rfl, h1, h2⟩ := last_of' p l hl
      exact ⟨v :: a, w, b, rfl, h1, h2⟩
    · rcases List.mem_cons.mp h with rfl | h
      · exact ⟨[], w, l, rfl, hw, fun z hz => by
          cases hz' : p z with
          | false => rfl
          | true => exact absurd ⟨z, hz, hz'⟩ hl⟩
      · exact absurd ⟨w, h, hw⟩ hl

/-- **C76.** If the criteria of the pass hold for two definitions of `x` that are identical, then the program without the dominated one behaves
as before.  Missing, each with a counterexample: definitions that differ in the operation or the right-hand side (the pass
compares inputs only), and definitions whose subsets use the defined container.  Also missing (partial answers of the users graph): break, continue, loop
conditions without symbols. -/
theorem constant_propagation_partial {E : Env} {C : Brs → Bool} (hC : CompleteSound E C) {s : Seq} (hs : s.flowOk = true) {d : Dfn} {i j : Nat}
    (hst : V.ev j (.write, d.name) ∉ s.stale 2) (h1 : s.dfn d (.ev i (.write, d.name)) 2 = true) (h2 : s.dfn d (.ev j (.write, d.name)) 2 = true)
    (ha : TwoDefs (s.graph C) d d (.ev i (.write, d.name)) (.ev j (.write, d.name))) (hx : d.name ∉ d.indices) :
    (s.drop (.ev j (.write, d.name)) 2).den E = s.den E := by
  have hxd : d.name ∉ d.deps := by
    simp only [Dfn.deps, List.mem_append, List.mem_map, not_or]
    refine ⟨?_, hx⟩
    rintro ⟨m, hm, he⟩
    exact ha.recur m hm he
  refine drop_last hxd (by simp [V.wr]) (by simp [V.wr]) s h1 h2 ?_
  rintro l ⟨σ, o, hl⟩
  generalize hw1 : V.ev i (Use.write, d.name) = w1 at *
  generalize hw2 : V.ev j (Use.write, d.name) = w2 at *
  -- `w1` has been performed
  have hm1 : w1 ∈ l := by
    subst hw1
    exact dominates_sound_partial hC (s.flowOk_forsOk hs) ha.dom (l2 := []) hl
  obtain ⟨a, w, b, rfl, hw, hb⟩ := last_of' (fun v => decide (v = w1 ∨ v = w2)) l ⟨w1, hm1, by simp⟩
  refine ⟨a, w, b, by simpa using hw, rfl, fun v hv y hy => ?_⟩
  cases hwr : v.wr y with
  | false => rfl
  | true =>
    exfalso
    have hb1 : ∀ v ∈ b, v ≠ w1 ∧ v ≠ w2 := fun v hv => by simpa using hb v hv
    obtain ⟨hv1, hv2⟩ := hb1 v hv
    obtain ⟨b1, b2, rfl⟩ := List.append_of_mem hv
    have hu : UsedBetween (s.graph C) w1 w2 v := by
      subst hw1
      exact uses_between_complete_partial hC hs (l0 := a ++ w :: b1) (l1 := b2) (l2 := []) (σ := σ) (o := o) (by simpa using hl)
        hv1 (fun h => ha.dom.1 h.symm) (fun h => (hb1 _ (by simp [h])).1 rfl) hv2 hst
    obtain ⟨z, hz⟩ : ∃ z, (v, z) ∈ s.graph C := by
      obtain ⟨_, _, p, hp, hpl, _⟩ := hu
      cases p with
      | nil => simp at hpl; exact absurd hpl hv2
      | cons z p => exact ⟨z, hp.1⟩
    rcases List.mem_cons.mp hy with rfl | hy
    · rcases ha.writers v z hz hwr with h | h
      · exact hv1 h
      · exact hv2 h
    · rcases List.mem_append.mp hy with hy | hy
      · obtain ⟨m, hm, rfl⟩ := List.mem_map.mp hy
        refine before_not_between (ha.before m hm v z hz hwr) ha.dom ?_ hu
        obtain ⟨l1, l2, hl12⟩ := List.append_of_mem hm1
        have hr := (Seq.starts hC (P := fun _ => True) (fun _ => trivial) s (s.flowOk_forsOk hs) (.nop 0) (.nop 1) 2 trivial σ _ o hl).1 l1 w1
          (l2 ++ [w2]) (by rw [hl12]; simp) (fun _ _ => trivial)
        obtain ⟨p, hp1, hp2, _⟩ := hr.path
        exact ⟨p, hp1, hp2⟩
      · exact ha.fixed v z hz y hy hwr hu

end Docc.IR
