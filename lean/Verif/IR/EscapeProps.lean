import Verif.IR.EscapeLemmas
import Verif.IR.AllocProps

/-! C96: what holds of the reported last use. -/
namespace Docc.IR
open Docc.Sym

/-- **C96.** A block reported as not escaping is not returned, and its container belongs to the function. -/
theorem non_escaping_stays_partial (E : Env) {ext : List String} {s : Seq} {A : String} (h : NonEscaping ext s A) :
    A ∉ ext ∧ ∀ σ σ', ¬ s.den E σ (.ret A false) σ' :=
  ⟨fun hx => h.2 ⟨h.1, Or.inr hx⟩, s.ret_returned E fun hx => h.2 ⟨h.1, Or.inl hx⟩⟩

/-- only blocks use the pointer: no condition, loop header, transition or return -/
def BlockOnly (s : Seq) (A : String) : Prop := ∀ w ∈ s.allUses, w.of A = true → ∃ L, (w, L) ∈ s.blockUses none 2

theorem BlockOnly.fresh {s : Seq} {A : String} (h : BlockOnly s A) {E : Env} {σ : St} {l : List V} {o : Option (Ctl × St)} (hr : s.Performs E σ l o)
    {b : V} (hb : b ∈ l) (hA : b.of A = true) : b ∉ s.stale 2 := by
  obtain ⟨L, hL⟩ := h b (Seq.performs_known E hr hb) hA
  exact s.blockUses_stale 2 _ hL

theorem not_after_once {v : V} {l0 l1 : List V} (h : (l0 ++ v :: l1).count v ≤ 1) : v ∉ l1 := by
  intro hv
  rw [List.count_append, List.count_cons_self] at h
  have := List.count_pos_iff.mpr hv
  omega

/-- **C96.** The allocation and all uses by blocks are outside loops.  Then no execution uses the container after the reported last use. -/
theorem last_use_is_last_partial {E : Env} {C : Brs → Bool} (hC : CompleteSound E C) {ext : List String} {s : Seq} {A : String} {v : V}
    (hl : LastUse C ext s A v) (ho : s.mallocOf A = some none) (hu : s.loopUse A = false) (hb : BlockOnly s A) {σ : St} {l0 l1 : List V}
    {o : Option (Ctl × St)} (hr : s.Performs E σ (l0 ++ v :: l1) o) : ∀ b ∈ l1, b.of A = false := by
  have h := hl.2
  rw [ho] at h
  simp only [hu, Bool.false_eq_true, if_false] at h
  obtain ⟨h1, h2, h3⟩ := h
  intro b hbl
  cases hA : b.of A with
  | false => rfl
  | true =>
    exfalso
    have hbs := hb.fresh hr (List.mem_append_right _ (List.mem_cons_of_mem _ hbl)) hA
    by_cases hvb : v = b
    · obtain ⟨L, hL⟩ := hb v h1 h2
      cases L with
      | none => exact not_after_once (s.once E 2 hL σ _ o hr) (hvb ▸ hbl)
      | some m =>
        rw [Seq.loopUse, List.any_eq_false] at hu
        exact absurd (by simp [h2]) (hu _ hL)
    · obtain ⟨p, q, rfl⟩ := List.append_of_mem hbl
      exact h3 b hA (uses_after_complete_partial hC hr hvb hbs)

/-- **C96.** The allocation is outside loops, but some block in a loop uses the container.  After the reported last use no block outside loops
uses it.  Missing: blocks inside loops; for those it is false (`last_use_before_loop`). -/
theorem last_use_outside_partial {E : Env} {C : Brs → Bool} (hC : CompleteSound E C) {s : Seq} {A : String} {v : V}
    (hl : LastOutside C s A v) {σ : St} {l0 l1 : List V} {o : Option (Ctl × St)} (hr : s.Performs E σ (l0 ++ v :: l1) o) :
    ∀ b ∈ l1, b.of A = true → (b, none) ∉ s.blockUses none 2 := by
  obtain ⟨h1, h2, h3⟩ := hl
  intro b hbl hA hN
  by_cases hvb : v = b
  · exact not_after_once (s.once E 2 h1 σ _ o hr) (hvb ▸ hbl)
  · obtain ⟨p, q, rfl⟩ := List.append_of_mem hbl
    exact h3 b hA (uses_after_complete_partial hC hr hvb (s.blockUses_stale 2 _ hN)) hN

/-! ### inside a loop -/

/-- the body of a loop and the number of its first element -/
def Node.bodyAt : Node → Nat → Option (Seq × Nat)
  | .whileL s, k => some (s, k + 4)
  | .loop _ i a c _ s, k => some (s, k + 2 + (initUses i a).length + (condUses c).length + 2)
  | _, _ => none

theorem path_tgt {G : List (V × V)} : ∀ (p : List V) (a : V), Path G (a :: p) → ∀ x ∈ p, ∃ e ∈ G, e.2 = x
  | [], _, _, x, h => by cases h
  | b :: r, a, h, x, hx => by
    rcases List.mem_cons.mp hx with rfl | hx
    · exact ⟨_, h.1, rfl⟩
    · exact path_tgt r b h.2 x hx

theorem path_mono {G H : List (V × V)} (hs : ∀ e ∈ G, e ∈ H) : ∀ (p : List V), Path G p → Path H p
  | [], _ => trivial
  | [_], _ => trivial
  | _ :: b :: r, h => ⟨hs _ h.1, path_mono hs (b :: r) h.2⟩

theorem body_after {C : Brs → Bool} {s : Seq} {m : Node} {j : Nat} (hm : s.Contains m j) {body : Seq} {kb : Nat} (hb : m.bodyAt j = some (body, kb))
    {E : Env} (hC : CompleteSound E C) {σ : St} {l0 l1 l2 : List V} {v b : V} {o : Option (Ctl × St)}
    (hr : body.tr E kb σ (l0 ++ v :: (l1 ++ b :: l2)) o) (hvb : v ≠ b) (hs : b ∉ body.stale kb) : ViewAfter (s.graph C) (m.exit j) v b := by
  have hid := body.uses_id E kb hr (v := v) (by simp)
  have core : ∀ t : V, t.id + 1 = kb → t = .nop t.id → m.exit j = .nop (j + 1) → j + 4 ≤ kb →
      (∀ e ∈ body.ge C (.nop (t.id - 1)) t kb, e ∈ m.ge C j) → ViewAfter (s.graph C) (m.exit j) v b := by
    intro t ht1 ht2 hex hj hsub
    have hf := (Seq.flows hC (P := fun _ => True) (B := fun v => v ∉ body.stale kb) (fun _ => trivial) body (Or.inr fun _ => trivial)
      (.nop (t.id - 1)) t kb (fun v hv h => h hv) trivial σ _ o hr).mid l0 v l1 b l2 rfl trivial (fun _ _ => trivial) hs
    obtain ⟨p, h1, h2, _⟩ := hf.path
    have hG : ∀ e ∈ m.ge C j, e ∈ s.graph C := fun e he => by
      have := Node.has_edges C (.seq s) 0 hm e he
      rw [Node.ge] at this; exact this
    refine ⟨hvb, p, path_mono (fun e he => hG e (hsub e he)) _ h1, h2, fun hx => ?_⟩
    rcases List.mem_cons.mp (List.dropLast_subset _ hx) with hx | hx
    · rw [← hx, hex] at hid; simp only [V.id_nop] at hid; omega
    · obtain ⟨e, he, hx⟩ := path_tgt p v h1 _ hx
      rw [hex] at hx
      rcases Seq.tgt C body _ _ _ e he with h | h
      · rw [h] at hx; rw [hx] at ht1; simp only [V.id_nop] at ht1; omega
      · rw [hx] at h; simp only [V.id_nop] at h; omega
  cases m with
  | whileL q =>
    simp only [Node.bodyAt, Option.some.injEq, Prod.mk.injEq] at hb
    obtain ⟨rfl, rfl⟩ := hb
    refine core (.nop (j + 3)) rfl rfl rfl (by omega) fun e he => ?_
    rw [Node.ge]
    exact List.mem_cons_of_mem _ (List.mem_append_left _ he)
  | loop q i a c u q =>
    simp only [Node.bodyAt, Option.some.injEq, Prod.mk.injEq] at hb
    obtain ⟨rfl, rfl⟩ := hb
    refine core (.nop (j + 2 + (initUses i a).length + (condUses c).length + 1)) rfl rfl rfl (by omega) fun e he => ?_
    rw [Node.ge]
    simp only [evs_length]
    refine List.mem_append_right _ (List.mem_cons_of_mem _ (List.mem_append_left _ (List.mem_append_left _ ?_)))
    exact he
  | block _ => simp [Node.bodyAt] at hb
  | seq _ => simp [Node.bodyAt] at hb
  | ifElse _ => simp [Node.bodyAt] at hb
  | brk => simp [Node.bodyAt] at hb
  | cont => simp [Node.bodyAt] at hb
  | ret _ _ => simp [Node.bodyAt] at hb

/-- **C96.** The allocation is inside a loop.  After the reported last use, the same iteration performs no other use of the container.  Missing: uses
after the iteration; for those it is false (`last_use_before_exit`). -/
theorem last_use_in_iteration_partial {E : Env} {C : Brs → Bool} (hC : CompleteSound E C) {ext : List String} {s : Seq} {A : String} {v : V} {j : Nat}
    {m : Node} (hl : LastUse C ext s A v) (ho : s.mallocOf A = some (some (j, m))) (hm : s.Contains m j) {body : Seq} {kb : Nat}
    (hb : m.bodyAt j = some (body, kb)) {σ : St} {l0 l1 : List V} {o : Option (Ctl × St)} (hr : body.tr E kb σ (l0 ++ v :: l1) o)
    (hs : ∀ b ∈ body.stale kb, b.of A = false) : ∀ b ∈ l1, b.of A = true → b = v := by
  have h := hl.2
  rw [ho] at h
  intro b hbl hA
  refine Classical.byContradiction fun hvb => ?_
  obtain ⟨p, q, rfl⟩ := List.append_of_mem hbl
  exact h.2.2.2 b hA (body_after hm hb hC hr (fun e => hvb e.symm) fun hx => by rw [hs b hx] at hA; cases hA)

/-! ### a free behind the last use -/

/-- the function with a block of which `v` is a use -/
def around (pre : Seq) (l : List Stmt) (t : Trans) (post : Seq) : Seq := pre ++ .cons (.block l) t post

theorem Seq.stale_append : (a b : Seq) → ∀ k, (a ++ b).stale k = a.stale k ++ b.stale (k + a.kn)
  | .nil, b, k => by show b.stale k = _; simp [Seq.stale, Seq.kn]
  | .cons n t r, b, k => by
    show (Seq.cons n t (r ++ b)).stale k = _
    rw [Seq.stale, Seq.stale, Seq.kn, r.stale_append b, List.append_assoc]
    congr 3; omega

theorem around_rest {E : Env} {C : Brs → Bool} (hC : CompleteSound E C) {pre : Seq} {l : List Stmt} {t : Trans} {post : Seq} {A : String} {v : V}
    (hnr : pre.noRet = true) (hv : v ∈ evs (2 + pre.kn + 2) (l.flatMap Stmt.users))
    (hl : ∀ b, b.of A = true → ¬ UsedAfter ((around pre l t post).graph C) v b) (hb : BlockOnly (around pre l t post) A) :
    Without A (transUses t) ∧ post.Avoids E (2 + pre.kn + (2 + (l.flatMap Stmt.users).length) + (transUses t).length) A := by
  obtain ⟨cur, hcur⟩ := Seq.ge_append C pre (.cons (.block l) t post) hnr (.nop 0) (.nop 1) 2
  have hG : ∀ e ∈ (Seq.cons (.block l) t post).ge C cur (.nop 1) (2 + pre.kn), e ∈ (around pre l t post).graph C := hcur
  rw [Seq.ge] at hG
  simp only [Node.isRet, Bool.false_eq_true, if_false, Node.ge, Node.exit, Node.vn, evs_length, List.mem_cons, List.mem_append] at hG
  have hid := evs_id hv
  have a1 : Leads ((around pre l t post).graph C) v (.nop (2 + pre.kn + 1)) := by
    have := leads_end (G := (around pre l t post).graph C) (evs (2 + pre.kn + 2) (l.flatMap Stmt.users) ++ [.nop (2 + pre.kn + 1)]) (.nop (2 + pre.kn))
      (fun e he => hG e (Or.inr (Or.inl (Or.inl he)))) (List.mem_append_left _ hv)
    rwa [chainEnd_append] at this
  have hU : (around pre l t post).useV 2 = pre.useV 2 ++ (evs (2 + pre.kn + 2) (l.flatMap Stmt.users) ++
      evs (2 + pre.kn + (2 + (l.flatMap Stmt.users).length)) (transUses t) ++
      post.useV (2 + pre.kn + (2 + (l.flatMap Stmt.users).length) + (transUses t).length)) := by
    rw [around, Seq.useV_append _ _ hnr, Seq.useV]; rfl
  have hR : (around pre l t post).retV 2 = pre.retV 2 ++ post.retV (2 + pre.kn + (2 + (l.flatMap Stmt.users).length) + (transUses t).length) := by
    rw [around, Seq.retV_append _ _ hnr, Seq.retV]; rfl
  have key : ∀ b, Leads ((around pre l t post).graph C) v b → v.id ≠ b.id → b.of A = false := by
    intro b h1 h2
    cases hA : b.of A with
    | false => rfl
    | true =>
      obtain ⟨p, p1, p2, _⟩ := h1.path
      exact absurd ⟨fun e => h2 (by rw [e]), p, p1, p2⟩ (hl b hA)
  have htr : ∀ e ∈ chainE (.nop (2 + pre.kn + 1)) (evs (2 + pre.kn + (2 + (l.flatMap Stmt.users).length)) (transUses t)),
      e ∈ (around pre l t post).graph C := fun e he => hG e (Or.inr (Or.inl (Or.inr he)))
  refine ⟨evs_without (k := 2 + pre.kn + (2 + (l.flatMap Stmt.users).length)) fun w hw => ?_, fun σ L o hr w hw => ?_⟩
  · have hid' := evs_id hw
    exact key w (a1.trans (by obtain ⟨p, q, hpq⟩ := List.append_of_mem hw; exact chain_to (P := fun _ => True) _ _ htr trivial p w q hpq fun _ _ => trivial)) (by omega)
  · cases hA : w.of A with
    | false => rfl
    | true =>
      exfalso
      have hid' := post.uses_id E _ hr hw
      have hk : w ∈ (around pre l t post).allUses := by
        rw [Seq.allUses, hU, hR]
        rcases Seq.only E post _ σ L o hr w hw with h | h
        · exact List.mem_append_left _ (List.mem_append_right _ (List.mem_append_right _ h))
        · exact List.mem_append_right _ (List.mem_append_right _ h)
      have hst : w ∉ post.stale (2 + pre.kn + (2 + (l.flatMap Stmt.users).length) + (transUses t).length) := by
        intro hx
        obtain ⟨Lp, hLp⟩ := hb w hk hA
        refine Seq.blockUses_stale _ 2 _ hLp ?_
        rw [around, Seq.stale_append, Seq.stale]
        exact List.mem_append_right _ (List.mem_append_right _ hx)
      obtain ⟨p, q, rfl⟩ := List.append_of_mem hw
      have := (Seq.flows hC (P := fun _ => True) (B := fun v => v ∉ post.stale (2 + pre.kn + (2 + (l.flatMap Stmt.users).length) + (transUses t).length)) (fun _ => trivial) post
        (Or.inr fun _ => trivial) (chainEnd (.nop (2 + pre.kn + 1)) (evs (2 + pre.kn + (2 + (l.flatMap Stmt.users).length)) (transUses t))) (.nop 1) _
        (fun v hv h => h hv) trivial σ _ o hr).to trivial p w q rfl (fun _ _ => trivial) hst
      have h2 := key w ((a1.trans (leads_chain _ _ htr)).trans (this.mono fun e he => hG e (Or.inr (Or.inr he)))) (by omega)
      rw [hA] at h2; cases h2

/-- **C96.** A `free` put behind the computations of the block with the reported last use changes nothing but the freed container: the function has
the same executions and results.  Here the allocation and the uses are outside loops, and the block is a child of the function's body. -/
theorem free_at_last_use_partial {E : Env} {C : Brs → Bool} (hC : CompleteSound E C) {ext : List String} {pre : Seq} {l : List Stmt} {t : Trans}
    {post : Seq} {A : String} {v : V} (hl : LastUse C ext (around pre l t post) A v) (ho : (around pre l t post).mallocOf A = some none)
    (hu : (around pre l t post).loopUse A = false) (hb : BlockOnly (around pre l t post) A)
    (hv : v ∈ evs (2 + pre.kn + 2) (l.flatMap Stmt.users)) (op : String) (σ : St) (c : Ctl) :
    (∀ σ', (around pre l t post).den E σ c σ' →
      ∃ τ', (around pre (l ++ [.lib op [A] [A]]) t post).den E σ c τ' ∧ ∀ x, x ≠ A → τ' x = σ' x) ∧
    (∀ τ', (around pre (l ++ [.lib op [A] [A]]) t post).den E σ c τ' →
      ∃ σ', (around pre l t post).den E σ c σ' ∧ ∀ x, x ≠ A → τ' x = σ' x) := by
  have h := hl.2
  rw [ho] at h
  simp only [hu, Bool.false_eq_true, if_false] at h
  have step : ∀ τ : St, runBlock E (l ++ [.lib op [A] [A]]) τ = (runBlock E l τ).put A (E.lib op 0 [runBlock E l τ A]) := by
    intro τ
    rw [block_append, block_cons, lib_put]; rfl
  constructor
  · intro σ' hr
    rw [around, Seq.den_append] at hr
    rcases hr with ⟨σ1, h1, h2⟩ | ⟨h1, h2⟩
    · obtain ⟨a1, a2⟩ := around_rest (E := E) hC (pre.noRet_of_normal E h1) hv h.2.2 hb
      rw [cons_block_den] at h2
      obtain ⟨b1, _⟩ := rest_put a1 a2 h2 (E.lib op 0 [runBlock E l σ1 A])
      refine ⟨σ'.put A (E.lib op 0 [runBlock E l σ1 A]), ?_, fun x hx => St.put_other _ _ hx⟩
      rw [around, Seq.den_append]
      refine Or.inl ⟨σ1, h1, ?_⟩
      rw [cons_block_den, step]; exact b1
    · exact ⟨σ', by rw [around, Seq.den_append]; exact Or.inr ⟨h1, h2⟩, fun _ _ => rfl⟩
  · intro τ' hr
    rw [around, Seq.den_append] at hr
    rcases hr with ⟨σ1, h1, h2⟩ | ⟨h1, h2⟩
    · obtain ⟨a1, a2⟩ := around_rest (E := E) hC (pre.noRet_of_normal E h1) hv h.2.2 hb
      rw [cons_block_den, step] at h2
      obtain ⟨b1, _⟩ := rest_put a1 a2 h2 (runBlock E l σ1 A)
      rw [St.put_put, St.put_self] at b1
      refine ⟨τ'.put A (runBlock E l σ1 A), ?_, fun x hx => (St.put_other _ _ hx).symm⟩
      rw [around, Seq.den_append]
      refine Or.inl ⟨σ1, h1, ?_⟩
      rw [cons_block_den]; exact b1
    · exact ⟨τ', by rw [around, Seq.den_append]; exact Or.inr ⟨h1, h2⟩, fun _ _ => rfl⟩

end Docc.IR
