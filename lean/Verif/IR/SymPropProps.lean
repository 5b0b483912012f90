import Verif.IR.SymPropLemmas

/-! C75: forward propagation of symbols. -/
namespace Docc.IR
open Docc.Sym

theorem evs_append (k : Nat) (a b : List User) : evs k (a ++ b) = evs k a ++ evs (k + a.length) b := by
  unfold evs
  rw [List.zipIdx_append, List.map_append]

theorem evs_cons (k : Nat) (u : User) (b : List User) : evs k (u :: b) = .ev k u :: evs (k + 1) b := by
  unfold evs
  simp [List.zipIdx_cons]

theorem evs_split {k : Nat} : ∀ {us : List User} {a b : List V} {v : V}, evs k us = a ++ v :: b →
    ∃ u1 u u2, us = u1 ++ u :: u2 ∧ a = evs k u1 ∧ v = .ev (k + u1.length) u ∧ b = evs (k + u1.length + 1) u2 := by
  intro us
  induction us generalizing k with
  | nil => intro a b v h; simp [evs] at h
  | cons u us ih =>
    intro a b v h
    rw [evs_cons] at h
    cases a with
    | nil => cases h; exact ⟨[], u, us, rfl, rfl, rfl, rfl⟩
    | cons x a =>
      injection h with h1 h2
      subst h1
      obtain ⟨u1, w, u2, rfl, rfl, rfl, rfl⟩ := ih h2
      refine ⟨u :: u1, w, u2, rfl, ?_, ?_, ?_⟩
      · rw [evs_cons]
      · simp [Nat.add_comm, Nat.add_left_comm]
      · congr 1; simp; omega

theorem wr_evs {k : Nat} {us : List User} {y : String} : (∀ v ∈ evs k us, v.wr y = false) ↔ ¬ writes us y := by
  unfold writes
  constructor
  · intro h hm
    obtain ⟨a, b, rfl⟩ := List.append_of_mem hm
    have := h (.ev (k + a.length) (.write, y)) (by rw [evs_append, evs_cons]; simp)
    simp [V.wr] at this
  · intro h v hv
    obtain ⟨a, b, hab⟩ := List.append_of_mem hv
    obtain ⟨u1, u, u2, rfl, _, rfl, _⟩ := evs_split hab
    simp only [V.wr, decide_eq_false_iff_not]
    rintro rfl
    exact h (by simp)

/-- an element that does not contain the write `w` and changes only what it writes -/
theorem avail_emit {E : Env} {x : String} {e : Expr} {w : V} {us : List V} {f : St → St} (hw : w ∉ us)
    (hf : ∀ σ, ∀ y, (∀ v ∈ us, v.wr y = false) → f σ y = σ y) (h : List V) (σ : St) (hI : Avail E x e w h σ) :
    Avail E x e w (h ++ us) (f σ) := by
  intro a b hab hb
  rcases List.append_eq_append_iff.mp hab with ⟨c, rfl, hc⟩ | ⟨c, hh, hc⟩
  · exfalso; exact hw (by rw [hc]; simp)
  · cases c with
    | nil => exfalso; simp at hc; exact hw (by rw [← hc]; simp)
    | cons v c =>
      simp only [List.cons_append, List.cons.injEq] at hc
      obtain ⟨rfl, rfl⟩ := hc
      refine (hI a c hh fun v hv => hb v (by simp [hv])).keep fun y hy => hf σ y fun v hv => hb v (by simp [hv]) y hy

theorem runTrans_app (E : Env) (t t' : Trans) (σ : St) : runTrans E (t ++ t') σ = runTrans E t' (runTrans E t σ) := by
  simp [runTrans, List.foldl_append]

theorem runTrans_other (E : Env) : ∀ (t : Trans) (σ : St) (y : String), (∀ a ∈ t, a.1 ≠ y) → runTrans E t σ y = σ y
  | [], _, _, _ => rfl
  | a :: t, σ, y, h => by
    have := runTrans_other E t (σ.setS a.1 (σ.ev E a.2)) y fun b hb => h b (by simp [hb])
    rw [St.setS_other _ _ (Ne.symm (h a (by simp)))] at this
    exact this

theorem avail_trans {E : Env} {x : String} {e : Expr} {w : V} (hx : x ∉ e.atoms) (hd : ∀ σ : St, ∃ n, e.eval (σ.val E) = .fin n) {t : Trans}
    {k : Nat} (h1 : w ∉ evs k (readsOnce (t.flatMap fun a => a.2.atoms)))
    (h2 : ((t.zipIdx (k + (readsOnce (t.flatMap fun a => a.2.atoms)).length)).all fun p =>
        !decide (V.ev p.2 (.write, p.1.1) = w) || decide (p.1 = (x, e))) = true) (h : List V) (σ : St) (hI : Avail E x e w h σ) :
    Avail E x e w (h ++ evs k (transUses t)) (runTrans E t σ) := by
  by_cases hw : w ∈ evs k (transUses t)
  · unfold transUses at hw ⊢
    rw [evs_append] at hw ⊢
    generalize evs k (readsOnce (t.flatMap fun a => a.2.atoms)) = r1 at *
    generalize k + (readsOnce (t.flatMap fun a => a.2.atoms)).length = j at *
    intro a b hab hb
    -- the last write `w` lies in the transition
    have key : ∃ u1 u2, evs j (t.map fun a => (Use.write, a.1)) = u1 ++ w :: u2 ∧ ∀ v ∈ u2, ∀ y ∈ x :: e.atoms, v.wr y = false := by
      have hw : w ∈ evs j (t.map fun a => (Use.write, a.1)) := by
        rcases List.mem_append.mp hw with h | h
        · exact absurd h h1
        · exact h
      rcases List.append_eq_append_iff.mp hab with ⟨c, rfl, hc⟩ | ⟨c, hh, hc⟩
      · rcases List.append_eq_append_iff.mp hc with ⟨d, rfl, hd'⟩ | ⟨d, hh, hd'⟩
        · exact ⟨d, b, hd', hb⟩
        · cases d with
          | nil => simp at hd'; exact ⟨[], b, by simpa using hd'.symm, hb⟩
          | cons z d =>
            simp only [List.cons_append, List.cons.injEq] at hd'
            obtain ⟨rfl, rfl⟩ := hd'
            exact absurd (by rw [hh]; simp) h1
      · cases c with
        | nil =>
          simp only [List.append_nil, List.nil_append] at hh hc
          rcases List.cons_eq_append_iff.mp hc with ⟨hr, hc⟩ | ⟨r', hr, hc⟩
          · exact ⟨[], b, by simpa using hc, hb⟩
          · exact absurd (by rw [hr]; simp) h1
        | cons z c =>
          simp only [List.cons_append, List.cons.injEq] at hc
          obtain ⟨rfl, rfl⟩ := hc
          obtain ⟨u1, u2, hu⟩ := List.append_of_mem hw
          refine ⟨u1, u2, hu, fun v hv => hb v ?_⟩
          rw [hu]; simp [hv]
    obtain ⟨u1, u2, hu, hu2⟩ := key
    obtain ⟨v1, v, v2, hv, rfl, rfl, rfl⟩ := evs_split hu
    obtain ⟨t1, t', rfl, rfl, ht'⟩ := List.map_eq_append_iff.mp hv
    obtain ⟨a0, t2, rfl, rfl, rfl⟩ := List.map_eq_cons_iff.mp ht'
    have ha : a0 = (x, e) := by
      rw [List.all_eq_true] at h2
      have := h2 (a0, j + t1.length) (by
        rw [List.zipIdx_append, List.mem_append]; right; simp [List.zipIdx_cons])
      simpa [List.length_map] using this
    subst ha
    rw [runTrans_app]
    show Eqv E x e (runTrans E t2 ((runTrans E t1 σ).setS x ((runTrans E t1 σ).ev E e)))
    generalize runTrans E t1 σ = τ
    have h3 : Eqv E x e (τ.setS x (τ.ev E e)) := by
      unfold Eqv
      obtain ⟨n, hn⟩ := hd τ
      rw [show τ.ev E e = n by simp [St.ev, hn]]
      have h5 : e.eval ((τ.setS x n).val E) = e.eval (τ.val E) := by
        refine eval_congr_atoms e _ _ rfl fun z hz => ?_
        have : z ≠ x := fun h => hx (h ▸ hz)
        simp only [St.val, St.setS_other _ _ this]
      rw [h5, hn]
      simp [St.setS, St.set]
    refine h3.keep fun y hy => runTrans_other E t2 _ y fun a ha hay => ?_
    have h4 := (wr_evs (us := t2.map fun a => (Use.write, a.1))).1 (fun v hv => hu2 v hv y hy)
    exact h4 (by unfold writes; simp only [List.mem_map]; exact ⟨a, ha, by rw [hay]⟩)
  · refine avail_emit hw (fun σ y hy => ?_) h σ hI
    refine runTrans_other E t σ y fun a ha hay => ?_
    have := wr_evs.1 hy
    exact this (by unfold writes transUses; simp only [List.mem_append, List.mem_map]; exact Or.inr ⟨a, ha, by rw [hay]⟩)

theorem setS_frame (E : Env) (i : String) (d : Expr) (us : List User) (hi : writes us i) (k : Nat) (σ : St) (y : String)
    (hy : ∀ v ∈ evs k us, v.wr y = false) : σ.setS i (σ.ev E d) y = σ y := by
  refine St.setS_other _ _ fun h => ?_
  exact wr_evs.1 hy (h ▸ hi)

theorem writes_initUses (i : String) (d : Expr) : writes (initUses i d) i := by simp [writes, initUses]
theorem writes_updUses (i : String) (d : Expr) : writes (updUses i d) i := by simp [writes, updUses]

theorem writes_transUses (t : Trans) (y : String) : writes (transUses t) y ↔ ∃ a ∈ t, a.1 = y := by
  unfold writes transUses readsOnce readsOf
  simp

mutual
theorem Node.avail {E : Env} {x : String} {e : Expr} {w : V} (hx : x ∉ e.atoms) (hd : ∀ σ : St, ∃ n, e.eval (σ.val E) = .fin n) :
    (n : Node) → ∀ k, n.asg x e w k = true → TR.Keeps (Avail E x e w) (n.tr E k)
  | .block l, k, h => by
    rw [Node.asg] at h
    rw [Node.tr]
    exact TR.keeps_emit (avail_emit (by simpa using h) fun σ y hy => runBlock_frame E l σ y (wr_evs.1 hy))
  | .seq s, k, h => by rw [Node.asg] at h; rw [Node.tr]; exact s.avail hx hd _ h
  | .ifElse b, k, h => by
    rw [Node.asg, Bool.and_eq_true] at h
    rw [Node.tr]
    exact TR.keeps_seq (TR.keeps_emit (avail_emit (by simpa using h.1) fun σ y _ => rfl)) (b.avail hx hd _ h.2)
  | .whileL s, k, h => by rw [Node.asg] at h; rw [Node.tr]; exact TR.keeps_forever (s.avail hx hd _ h)
  | .loop m i init cond upd s, k, h => by
    rw [Node.asg] at h
    simp only [Bool.and_eq_true] at h
    obtain ⟨⟨⟨h1, h2⟩, h3⟩, h4⟩ := h
    rw [Node.tr]
    refine TR.keeps_seq (TR.keeps_emit (avail_emit (by simpa using h1) fun σ y hy => setS_frame E i init _ (writes_initUses i init) _ σ y hy)) ?_
    refine TR.keeps_iter (s.avail hx hd _ h4) (avail_emit (f := id) (by simpa using h2) fun σ y _ => rfl)
      (avail_emit (by simpa using h3) fun σ y hy => setS_frame E i upd _ (writes_updUses i upd) _ σ y hy)
  | .brk, k, _ => by rw [Node.tr]; exact TR.keeps_jump fun h σ hI => by simpa using hI
  | .cont, k, _ => by rw [Node.tr]; exact TR.keeps_jump fun h σ hI => by simpa using hI
  | .ret d q, k, h => by
    rw [Node.tr]
    rw [Node.asg] at h
    refine TR.keeps_jump fun p σ hI => avail_emit (f := id) ?_ (fun σ y _ => rfl) p σ hI
    split
    · simp
    · simpa using h
theorem Seq.avail {E : Env} {x : String} {e : Expr} {w : V} (hx : x ∉ e.atoms) (hd : ∀ σ : St, ∃ n, e.eval (σ.val E) = .fin n) :
    (s : Seq) → ∀ k, s.asg x e w k = true → TR.Keeps (Avail E x e w) (s.tr E k)
  | .nil, k, _ => by rw [Seq.tr]; exact TR.keeps_emit fun h σ hI => by simpa using hI
  | .cons n t q, k, h => by
    rw [Seq.asg] at h
    simp only [Bool.and_eq_true] at h
    obtain ⟨⟨⟨h1, h2⟩, h3⟩, h4⟩ := h
    rw [Seq.tr]
    exact TR.keeps_seq (n.avail hx hd _ h1) (TR.keeps_seq (TR.keeps_emit (avail_trans hx hd (by simpa using h2) h3)) (q.avail hx hd _ h4))
theorem Brs.avail {E : Env} {x : String} {e : Expr} {w : V} (hx : x ∉ e.atoms) (hd : ∀ σ : St, ∃ n, e.eval (σ.val E) = .fin n) :
    (b : Brs) → ∀ k, b.asg x e w k = true → TR.Keeps (Avail E x e w) (b.tr E k)
  | .nil, k, _ => by rw [Brs.tr]; exact TR.keeps_emit fun h σ hI => by simpa using hI
  | .cons c s q, k, h => by
    rw [Brs.asg, Bool.and_eq_true] at h
    rw [Brs.tr]
    exact TR.keeps_ite (s.avail hx hd _ h.1) (q.avail hx hd _ h.2)
end

/-- the reads of an element come before its writes -/
def ReadsFirst (us : List User) : Prop := ∃ A W, us = A ++ W ∧ (∀ u ∈ A, u.1 = .read) ∧ ∀ u ∈ W, u.1 = .write

theorem readsOf_first (l : List String) {u : User} (h : u ∈ readsOf l) : u.1 = .read := by
  unfold readsOf at h; simp only [List.mem_map] at h; obtain ⟨_, _, rfl⟩ := h; rfl

theorem readsFirst_reads (l : List String) : ReadsFirst (readsOf l) := ⟨_, [], by simp, fun _ h => readsOf_first l h, by simp⟩

theorem readsFirst_stmt (s : Stmt) : ReadsFirst s.users := by
  cases s with
  | tasklet op ins out sub =>
    refine ⟨_, [(.write, out)], rfl, fun u hu => ?_, by simp⟩
    simp only [List.mem_append] at hu
    rcases hu with (h | h) | h <;> exact readsOf_first _ h
  | lib op r w =>
    refine ⟨_, _, rfl, fun u hu => readsOf_first _ hu, fun u hu => ?_⟩
    simp only [List.mem_map] at hu; obtain ⟨_, _, rfl⟩ := hu; rfl

theorem readsFirst_trans (t : Trans) : ReadsFirst (transUses t) := by
  refine ⟨_, _, rfl, fun u hu => readsOf_first _ hu, fun u hu => ?_⟩
  simp only [List.mem_map] at hu; obtain ⟨_, _, rfl⟩ := hu; rfl

theorem readsFirst_init (i : String) (d : Expr) : ReadsFirst (initUses i d) := ⟨_, [(.write, i)], rfl, fun u hu => readsOf_first _ hu, by simp⟩
theorem readsFirst_upd (i : String) (d : Expr) : ReadsFirst (updUses i d) := ⟨_, [(.write, i)], rfl, fun u hu => readsOf_first _ hu, by simp⟩

theorem ReadsFirst.before {us : List User} (h : ReadsFirst us) {k : Nat} {a b : List V} {i : Nat} {x : String}
    (he : evs k us = a ++ .ev i (.read, x) :: b) : ∀ v ∈ a, ∀ y, v.wr y = false := by
  obtain ⟨A, W, rfl, hA, hW⟩ := h
  obtain ⟨u1, u, u2, hu, rfl, hv, rfl⟩ := evs_split he
  have hu' : u = (.read, x) := by injection hv with _ h; exact h.symm
  subst hu'
  intro v hv y
  refine wr_evs.2 ?_ v hv
  unfold writes
  intro hm
  rcases List.append_eq_append_iff.mp hu with ⟨c, rfl, hc⟩ | ⟨c, hh, hc⟩
  · have := hW (.read, x) (by rw [hc]; simp)
    cases this
  · have := hA (.write, y) (by rw [hh]; simp [hm])
    cases this

/-- what the analyses provide: when the read `r` is performed, the last use that concerned `x` and the symbols of `e` was the write `w` -/
def LastIs (x : String) (e : Expr) (w r : V) (Perf : List V → Prop) : Prop :=
  ∀ l, Perf (l ++ [r]) → ∃ a b, l = a ++ w :: b ∧ ∀ v ∈ b, ∀ y ∈ x :: e.atoms, v.wr y = false

theorem eqv_at {E : Env} {x : String} {e : Expr} {i j : Nat} {Perf : List V → Prop} (hL : LastIs x e (.ev i (.write, x)) (.ev j (.read, x)) Perf)
    {us : List User} (hr : ReadsFirst us) {k : Nat} (hm : V.ev j (.read, x) ∈ evs k us) {h : List V} {σ : St}
    (hI : Avail E x e (.ev i (.write, x)) h σ) (hP : ∀ l, l <+: evs k us → Perf (h ++ l)) : Eqv E x e σ := by
  obtain ⟨u1, u2, hu⟩ := List.append_of_mem hm
  have hb := hr.before hu
  obtain ⟨a, b, hab, hb'⟩ := hL (h ++ u1) (by rw [List.append_assoc]; exact hP _ (by rw [hu]; exact ⟨u2, by simp⟩))
  rcases List.append_eq_append_iff.mp hab with ⟨c, rfl, hc⟩ | ⟨c, hh, hc⟩
  · have := hb (.ev i (.write, x)) (by rw [hc]; simp) x
    simp [V.wr] at this
  · cases c with
    | nil =>
      simp only [List.nil_append] at hc
      have := hb (.ev i (.write, x)) (by rw [← hc]; simp) x
      simp [V.wr] at this
    | cons v c =>
      simp only [List.cons_append, List.cons.injEq] at hc
      obtain ⟨rfl, rfl⟩ := hc
      exact hI a c hh fun v hv => hb' v (by simp [hv])

theorem propBlock_run {E : Env} {x : String} {e : Expr} {i j : Nat} {Perf : List V → Prop}
    (hL : LastIs x e (.ev i (.write, x)) (.ev j (.read, x)) Perf) : ∀ (L : List Stmt) (k : Nat) (h : List V) (σ : St),
    V.ev i (.write, x) ∉ evs k (L.flatMap Stmt.users) → Avail E x e (.ev i (.write, x)) h σ →
    (∀ l, l <+: evs k (L.flatMap Stmt.users) → Perf (h ++ l)) → runBlock E (propBlock x e (.ev j (.read, x)) L k) σ = runBlock E L σ
  | [], _, _, _, _, _, _ => rfl
  | s :: L, k, h, σ, hw, hI, hP => by
    rw [List.flatMap_cons, evs_append] at hw hP
    rw [propBlock]
    split
    · rename_i hm
      have hq := eqv_at hL (readsFirst_stmt s) hm hI fun l hl => hP l (hl.trans (List.prefix_append _ _))
      simp only [runBlock, List.foldl_cons, Stmt.prop_run hq]
    · show runBlock E _ (s.run E σ) = runBlock E L (s.run E σ)
      refine propBlock_run hL L _ (h ++ evs k s.users) _ (fun hm => hw (by simp [hm])) ?_ fun l hl => ?_
      · refine avail_emit (f := s.run E) (fun hm => hw (by simp [hm])) (fun σ y hy => ?_) h σ hI
        have := runBlock_frame E [s] σ y (by simpa using wr_evs.1 hy)
        exact this
      · rw [List.append_assoc]
        obtain ⟨z, hz⟩ := hl
        exact hP _ ⟨z, by rw [List.append_assoc, hz]⟩

mutual
theorem Node.prop_same {E : Env} {x : String} {e : Expr} {i j : Nat} {Perf : List V → Prop} (hx : x ∉ e.atoms)
    (hd : ∀ σ : St, ∃ n, e.eval (σ.val E) = .fin n) (hL : LastIs x e (.ev i (.write, x)) (.ev j (.read, x)) Perf) :
    (n : Node) → ∀ k, n.asg x e (.ev i (.write, x)) k = true → n.apart (x :: e.atoms) (.ev j (.read, x)) k = true →
      TR.Same (Avail E x e (.ev i (.write, x))) Perf ((n.prop x e (.ev j (.read, x)) k).den E) (n.tr E k)
  | .block l, k, h, _ => by
    rw [Node.asg] at h
    rw [Node.tr, Node.prop, Node.den]
    exact TR.same_emit fun p σ hI hP => propBlock_run hL l _ p σ (by simpa using h) hI hP
  | .seq s, k, h, ha => by
    rw [Node.asg] at h; rw [Node.apart] at ha; rw [Node.tr, Node.prop, Node.den]
    exact s.prop_same hx hd hL _ h ha
  | .ifElse b, k, h, ha => by
    rw [Node.asg, Bool.and_eq_true] at h
    rw [Node.apart] at ha
    rw [Node.tr, Node.prop]
    split
    · rename_i hm
      intro p σ hI hP c τ
      have hq := eqv_at hL (readsFirst_reads _) hm hI fun l hl => hP l (Or.inr ⟨Or.inr ⟨hl, rfl⟩, by simp⟩)
      rw [Node.den, TR.rel_seq, TR.rel_emit, Rel.upd_seq, Brs.tr_rel]
      exact b.propC_den hq c τ
    · rw [Node.den, ← Rel.skip_seq ((b.prop x e (.ev j (.read, x)) (k + 2 + (readsOnce b.condAtoms).length)).den E)]
      exact TR.same_seq (TR.same_emit fun _ _ _ _ => rfl) (TR.keeps_emit (avail_emit (by simpa using h.1) fun σ y _ => rfl))
        (b.prop_same hx hd hL _ h.2 ha)
  | .whileL s, k, h, ha => by
    rw [Node.asg] at h; rw [Node.apart] at ha; rw [Node.tr, Node.prop, Node.den]
    exact TR.same_forever (s.prop_same hx hd hL _ h ha) (s.avail hx hd _ h)
  | .loop m i' init cond upd s, k, h, ha => by
    rw [Node.asg] at h
    simp only [Bool.and_eq_true] at h
    obtain ⟨⟨⟨h1, h2⟩, h3⟩, h4⟩ := h
    rw [Node.apart] at ha
    rw [Node.tr, Node.prop, Node.den]
    have k1 := avail_emit (E := E) (x := x) (e := e) (f := fun σ => σ.setS i' (σ.ev E init)) (by simpa using h1)
      fun σ y hy => setS_frame E i' init _ (writes_initUses i' init) _ σ y hy
    have k3 := avail_emit (E := E) (x := x) (e := e) (f := fun σ => σ.setS i' (σ.ev E upd)) (by simpa using h3)
      fun σ y hy => setS_frame E i' upd _ (writes_updUses i' upd) _ σ y hy
    refine TR.same_seq (TR.same_emit fun p σ hI hP => ?_) (TR.keeps_emit k1) ?_
    · split
      · rename_i hm
        rw [(eqv_at hL (readsFirst_init i' init) hm hI hP).ev]
      · rfl
    · refine TR.same_iter (s.prop_same hx hd hL _ h4 ha) (s.avail hx hd _ h4)
        (avail_emit (f := id) (by simpa using h2) fun σ y _ => rfl) k3 (fun p σ hI hP => ?_) (fun p σ hI hP => ?_)
      · split
        · rename_i hm
          rw [(eqv_at hL (readsFirst_reads _) hm hI hP).cond]
        · rfl
      · split
        · rename_i hm
          rw [(eqv_at hL (readsFirst_upd i' upd) hm hI hP).ev]
        · rfl
  | .brk, k, _, _ => by rw [Node.tr, Node.prop, Node.den]; exact TR.same_jump _ _
  | .cont, k, _, _ => by rw [Node.tr, Node.prop, Node.den]; exact TR.same_jump _ _
  | .ret d q, k, _, _ => by rw [Node.tr, Node.prop, Node.den]; exact TR.same_jump _ _
theorem Seq.prop_same {E : Env} {x : String} {e : Expr} {i j : Nat} {Perf : List V → Prop} (hx : x ∉ e.atoms)
    (hd : ∀ σ : St, ∃ n, e.eval (σ.val E) = .fin n) (hL : LastIs x e (.ev i (.write, x)) (.ev j (.read, x)) Perf) :
    (s : Seq) → ∀ k, s.asg x e (.ev i (.write, x)) k = true → s.apart (x :: e.atoms) (.ev j (.read, x)) k = true →
      TR.Same (Avail E x e (.ev i (.write, x))) Perf ((s.prop x e (.ev j (.read, x)) k).den E) (s.tr E k)
  | .nil, k, _, _ => by rw [Seq.tr, Seq.prop, Seq.den]; exact TR.same_emit fun _ _ _ _ => rfl
  | .cons n t q, k, h, ha => by
    rw [Seq.asg] at h
    simp only [Bool.and_eq_true] at h
    obtain ⟨⟨⟨h1, h2⟩, h3⟩, h4⟩ := h
    rw [Seq.apart] at ha
    simp only [Bool.and_eq_true] at ha
    obtain ⟨⟨ha1, ha2⟩, ha3⟩ := ha
    rw [Seq.tr, Seq.prop, Seq.den]
    refine TR.same_seq (n.prop_same hx hd hL _ h1 ha1) (n.avail hx hd _ h1) (TR.same_seq (TR.same_emit fun p σ hI hP => ?_)
      (TR.keeps_emit (avail_trans hx hd (by simpa using h2) h3)) (q.prop_same hx hd hL _ h4 ha3))
    split
    · rename_i hm
      refine propTrans_run t (eqv_at hL (readsFirst_trans t) hm hI hP) fun a hat => ?_
      simp only [hm, decide_true, Bool.not_true, Bool.false_or, List.all_eq_true] at ha2
      simpa using ha2 a hat
    · rfl
theorem Brs.prop_same {E : Env} {x : String} {e : Expr} {i j : Nat} {Perf : List V → Prop} (hx : x ∉ e.atoms)
    (hd : ∀ σ : St, ∃ n, e.eval (σ.val E) = .fin n) (hL : LastIs x e (.ev i (.write, x)) (.ev j (.read, x)) Perf) :
    (b : Brs) → ∀ k, b.asg x e (.ev i (.write, x)) k = true → b.apart (x :: e.atoms) (.ev j (.read, x)) k = true →
      TR.Same (Avail E x e (.ev i (.write, x))) Perf ((b.prop x e (.ev j (.read, x)) k).den E) (b.tr E k)
  | .nil, k, _, _ => by rw [Brs.tr, Brs.prop, Brs.den]; exact TR.same_emit fun _ _ _ _ => rfl
  | .cons c s q, k, h, ha => by
    rw [Brs.asg, Bool.and_eq_true] at h
    rw [Brs.apart, Bool.and_eq_true] at ha
    rw [Brs.tr, Brs.prop, Brs.den]
    exact TR.same_ite (s.prop_same hx hd hL _ h.1 ha.1) (q.prop_same hx hd hL _ h.2 ha.2)
end

/-- the propagation preserves the behaviour when the write is the last relevant use before the read -/
theorem prop_last {E : Env} {x : String} {e : Expr} {i j : Nat} (hx : x ∉ e.atoms) (hd : ∀ σ : St, ∃ n, e.eval (σ.val E) = .fin n) (s : Seq)
    (hw : s.asg x e (.ev i (.write, x)) 2 = true) (ha : s.apart (x :: e.atoms) (.ev j (.read, x)) 2 = true)
    (hL : LastIs x e (.ev i (.write, x)) (.ev j (.read, x)) fun l => ∃ σ o, s.Performs E σ l o) :
    (s.prop x e (.ev j (.read, x)) 2).den E = s.den E := by
  funext σ c τ
  have := s.prop_same hx hd hL 2 hw ha [] σ (fun a b h => by simp at h) (fun l hl => ⟨σ, none, hl⟩) c τ
  rw [Seq.tr_rel] at this
  exact propext this

end Docc.IR
