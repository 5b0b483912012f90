import Verif.IR.AllocProps
import Verif.IR.UGraphPostProps
import Verif.IR.ConstPropProps

/-! C95: AllocationManagement keeps what a function computes. -/
namespace Docc.IR
open Docc.Sym

theorem Seq.useV_append : (a b : Seq) → a.noRet = true → ∀ k, (a ++ b).useV k = a.useV k ++ b.useV (k + a.kn)
  | .nil, b, _, k => by rw [Seq.nil_append, Seq.useV, Seq.kn]; rfl
  | .cons n t r, b, h, k => by
    rw [Seq.noRet, Bool.and_eq_true] at h
    have hn : n.isRet = false := by simpa using h.1
    rw [Seq.cons_append, Seq.useV, Seq.useV, Seq.useV_append r b h.2, Seq.kn]
    simp only [hn, Bool.false_eq_true, if_false, List.append_assoc]
    congr 4; omega

theorem Seq.retV_append : (a b : Seq) → a.noRet = true → ∀ k, (a ++ b).retV k = a.retV k ++ b.retV (k + a.kn)
  | .nil, b, _, k => by rw [Seq.nil_append, Seq.retV, Seq.kn]; rfl
  | .cons n t r, b, h, k => by
    rw [Seq.noRet, Bool.and_eq_true] at h
    have hn : n.isRet = false := by simpa using h.1
    rw [Seq.cons_append, Seq.retV, Seq.retV, Seq.retV_append r b h.2, Seq.kn]
    simp only [hn, Bool.false_eq_true, if_false, List.append_assoc]
    congr 3; omega

theorem evs_of {A : String} {k : Nat} {us : List User} (h : ¬ Without A us) : ∃ v ∈ evs k us, v.of A = true := by
  refine Classical.byContradiction fun hn => h (evs_without (k := k) fun v hv => ?_)
  cases hv' : v.of A with
  | false => rfl
  | true => exact absurd ⟨v, hv, hv'⟩ hn

/-- an execution of the first children is (the beginning of) one of the function -/
theorem Seq.performs_pre (E : Env) {a b : Seq} {σ : St} {l : List V} {o : Option (Ctl × St)} (h : a.tr E 2 σ l o) :
    ∃ o', (a ++ b).Performs E σ l o' ∧ (∀ c σ', o = some (c, σ') → c ≠ .normal → o' = o) := by
  unfold Seq.Performs
  rw [Seq.tr_append]
  by_cases hn : ∃ σ1, o = some (.normal, σ1)
  · obtain ⟨σ1, rfl⟩ := hn
    exact ⟨none, Or.inl ⟨l, [], σ1, h, b.tr_cut E _ σ1, by simp⟩, fun c σ' he hc => by cases he; exact absurd rfl hc⟩
  · exact ⟨o, Or.inr ⟨h, fun τ ho => hn ⟨τ, ho⟩⟩, fun _ _ _ _ => rfl⟩

theorem Seq.performs_known (E : Env) {s : Seq} {σ : St} {l : List V} {o : Option (Ctl × St)} (h : s.Performs E σ l o) {v : V} (hv : v ∈ l) :
    v ∈ s.allUses := by
  rcases Seq.only E s 2 σ l o h v hv with h | h <;> simp [Seq.allUses, h]

theorem AllocAccepted.avoids {E : Env} {C : Brs → Bool} (hC : CompleteSound E C) {args : List String} {z : Site} {op : String} {size : List String}
    {A : String} (ha : AllocAccepted C args z op size A) (hf : z.whole.forsOk = true) :
    z.pre.Avoids E 2 A ∧ ∀ σ σ1, z.pre.den E σ .normal σ1 → Without A (z.l1.flatMap Stmt.users) ∧ A ∉ size := by
  have hlen : z.m.users.length - 1 = size.length := by rw [ha.node]; simp [Stmt.users, readsOf]
  constructor
  · intro σ l o h v hv
    cases hA : v.of A with
    | false => rfl
    | true =>
      exfalso
      obtain ⟨o', hp, _⟩ := Seq.performs_pre E (b := .cons (.block (z.l1 ++ z.m :: z.l2)) z.t z.post) h
      have hk : v ∈ z.whole.allUses := Seq.performs_known E hp hv
      have hid : ∀ {v}, v ∈ l → 2 ≤ v.id ∧ v.id < 2 + z.pre.kn := fun hv => Seq.uses_id E z.pre 2 h hv
      obtain ⟨p, q, rfl⟩ := List.append_of_mem hv
      have hne : v ≠ z.vertex A := by
        intro he; have := (hid hv).2; rw [he, Site.vertex, V.id] at this; omega
      have := dominates_sound_partial hC hf (ha.dom v hk hA hne) hp
      have := (hid (v := z.vertex A) (List.mem_append_left _ this)).2
      rw [Site.vertex, V.id] at this; omega
  · intro σ σ1 h
    have hnr := Seq.noRet_of_normal E _ h
    rw [← Seq.tr_rel E z.pre 2] at h
    obtain ⟨l, hl⟩ := h
    suffices hW : Without A (z.l1.flatMap Stmt.users ++ readsOf size) by
      exact ⟨fun u hu => hW u (List.mem_append_left _ hu), fun hm => hW (.read, A) (by simp [readsOf, hm]) rfl⟩
    refine Classical.byContradiction fun hn => ?_
    obtain ⟨v, hv, hA⟩ := evs_of (k := 2 + z.pre.kn + 2) hn
    have hp : z.whole.Performs E σ (l ++ evs (2 + z.pre.kn + 2) (z.l1.flatMap Stmt.users ++ readsOf size)) none := by
      unfold Seq.Performs
      rw [Site.whole, Seq.tr_append]
      refine Or.inl ⟨l, _, σ1, hl, ?_, rfl⟩
      rw [Seq.tr, Node.tr]
      refine Or.inr ⟨Or.inr ⟨?_, rfl⟩, fun τ h => by cases h⟩
      rw [ha.node, List.flatMap_append, List.flatMap_cons, Stmt.users, ← List.append_assoc, ← List.append_assoc, List.append_assoc, evs_append _ (z.l1.flatMap Stmt.users ++ readsOf size)]
      exact List.prefix_append _ _
    have hk : v ∈ z.whole.allUses := Seq.performs_known E hp (List.mem_append_right _ hv)
    have hid := evs_id hv
    simp only [List.length_append, readsOf, List.length_map] at hid
    have hne : v ≠ z.vertex A := by
      intro he; rw [he, Site.vertex, V.id] at hid; omega
    obtain ⟨p, q, hpq⟩ := List.append_of_mem hv
    rw [hpq, ← List.append_assoc] at hp
    have := dominates_sound_partial hC hf (ha.dom v hk hA hne) hp
    rcases List.mem_append.mp this with h | h
    · have := (Seq.uses_id E z.pre 2 hl h).2
      simp only [V.id] at this; omega
    · have h' : z.vertex A ∈ evs (2 + z.pre.kn + 2) (z.l1.flatMap Stmt.users ++ readsOf size) := by
        rw [hpq]; exact List.mem_append_left _ h
      have := evs_id h'
      simp only [Site.vertex, V.id, List.length_append, readsOf, List.length_map] at this; omega

theorem DeallocAccepted.ret {E : Env} {C : Brs → Bool} (hC : CompleteSound E C) {z : Site} {op : String} {A : String} (ha : DeallocAccepted C z op A)
    (hf : z.whole.flowOk = true) {σ : St} {l : List V} {c : Ctl} {σ' : St} (h : z.pre.tr E 2 σ l (some (c, σ'))) (hc : c ≠ .normal) :
    ∀ v ∈ l, v.of A = false := by
  intro v hv
  cases hA : v.of A with
  | false => rfl
  | true =>
    exfalso
    obtain ⟨o', hp, ho⟩ := Seq.performs_pre E (b := .cons (.block (z.l1 ++ z.m :: z.l2)) z.t z.post) h
    rw [ho c σ' rfl hc] at hp
    have hk : v ∈ z.whole.allUses := Seq.performs_known E hp hv
    have hid : ∀ {v}, v ∈ l → 2 ≤ v.id ∧ v.id < 2 + z.pre.kn := fun hv => Seq.uses_id E z.pre 2 h hv
    obtain ⟨p, q, rfl⟩ := List.append_of_mem hv
    have hne : v ≠ z.vertex A := by
      intro he; have := (hid hv).2; rw [he, Site.vertex, V.id] at this; omega
    have := post_dominates_sound_partial hC hf (ha.post v hk hA hne) hp
    have := (hid (v := z.vertex A) (List.mem_append_right _ (List.mem_cons_of_mem _ this))).2
    rw [Site.vertex, V.id] at this; omega

theorem DeallocAccepted.rest {E : Env} {C : Brs → Bool} (hC : NonEmpty C) {z : Site} {op : String} {A : String} (ha : DeallocAccepted C z op A)
    (hnr : z.pre.noRet = true) :
    Without A (z.l2.flatMap Stmt.users) ∧ Without A (transUses z.t) ∧
      z.post.Avoids E (2 + z.pre.kn + (2 + ((z.l1 ++ z.m :: z.l2).flatMap Stmt.users).length) + (transUses z.t).length) A := by
  obtain ⟨cur, hcur⟩ := Seq.ge_append C z.pre (.cons (.block (z.l1 ++ z.m :: z.l2)) z.t z.post) hnr (.nop 0) (.nop 1) 2
  have hlen : z.m.users.length = 2 := by rw [ha.node]; simp [Stmt.users, readsOf]
  -- a vertex from which the end is reached without the deallocation is no use of `A`
  have key : ∀ v ∈ z.whole.allUses, v ≠ z.vertex A → (∃ s, Reach (z.whole.graph C) (· ≠ z.vertex A) v s ∧ s ≠ z.vertex A ∧ ∀ y, (s, y) ∉ z.whole.graph C) →
      v.of A = false := by
    rintro v hv hne ⟨s, h1, h2, h3⟩
    cases hA : v.of A with
    | false => rfl
    | true =>
      exfalso
      obtain ⟨p, p1, p2, p3⟩ := h1.path
      rcases p3 _ ((ha.post v hv hA hne).2 p s p1 p2 h3) with h | h
      · exact h2 h.symm
      · exact h rfl
  have hsink : ∀ y, (V.nop 1, y) ∉ z.whole.graph C := by
    intro y hy
    rcases Seq.src C z.whole (.nop 0) (.nop 1) 2 _ hy with h | h
    · cases h
    · simp only [V.id] at h; omega
  have hend : V.nop 1 ≠ z.vertex A := by simp [Site.vertex]
  have hU : z.whole.useV 2 = z.pre.useV 2 ++ (evs (2 + z.pre.kn + 2) ((z.l1 ++ z.m :: z.l2).flatMap Stmt.users) ++
      evs (2 + z.pre.kn + (2 + ((z.l1 ++ z.m :: z.l2).flatMap Stmt.users).length)) (transUses z.t) ++
      z.post.useV (2 + z.pre.kn + (2 + ((z.l1 ++ z.m :: z.l2).flatMap Stmt.users).length) + (transUses z.t).length)) := by
    rw [Site.whole, Seq.useV_append _ _ hnr, Seq.useV]; rfl
  have hR : z.whole.retV 2 = z.pre.retV 2 ++ z.post.retV (2 + z.pre.kn + (2 + ((z.l1 ++ z.m :: z.l2).flatMap Stmt.users).length) + (transUses z.t).length) := by
    rw [Site.whole, Seq.retV_append _ _ hnr, Seq.retV]; rfl
  have hG : ∀ e ∈ (Seq.cons (.block (z.l1 ++ z.m :: z.l2)) z.t z.post).ge C cur (.nop 1) (2 + z.pre.kn), e ∈ z.whole.graph C := hcur
  rw [Seq.ge] at hG
  simp only [Node.isRet, Bool.false_eq_true, if_false, Node.ge, Node.exit, Node.vn, evs_length, List.mem_cons, List.mem_append] at hG
  have hul : ((z.l1 ++ z.m :: z.l2).flatMap Stmt.users).length = (z.l1.flatMap Stmt.users).length + (2 + (z.l2.flatMap Stmt.users).length) := by
    simp only [List.flatMap_append, List.flatMap_cons, List.length_append, hlen]
  have hvid : (z.vertex A).id = 2 + z.pre.kn + 2 + (z.l1.flatMap Stmt.users).length + 1 := by rw [Site.vertex, hlen]; rfl
  -- from the end of the block to the end of the function
  have hpost : ∀ e ∈ z.post.ge C (chainEnd (.nop (2 + z.pre.kn + 1)) (evs (2 + z.pre.kn + (2 + ((z.l1 ++ z.m :: z.l2).flatMap Stmt.users).length)) (transUses z.t)))
      (.nop 1) (2 + z.pre.kn + (2 + ((z.l1 ++ z.m :: z.l2).flatMap Stmt.users).length) + (transUses z.t).length), e ∈ z.whole.graph C :=
    fun e he => hG e (Or.inr (Or.inr he))
  have hsrc : ∀ e ∈ z.post.ge C (chainEnd (.nop (2 + z.pre.kn + 1)) (evs (2 + z.pre.kn + (2 + ((z.l1 ++ z.m :: z.l2).flatMap Stmt.users).length)) (transUses z.t)))
      (.nop 1) (2 + z.pre.kn + (2 + ((z.l1 ++ z.m :: z.l2).flatMap Stmt.users).length) + (transUses z.t).length), e.1 ≠ z.vertex A := by
    intro e he hv
    rcases Seq.src C z.post _ _ _ e he with h | h
    · rw [hv] at h
      rcases chainEnd_id (transUses z.t) (2 + z.pre.kn + (2 + ((z.l1 ++ z.m :: z.l2).flatMap Stmt.users).length)) (.nop (2 + z.pre.kn + 1)) with h' | h'
      · rw [h'] at h; simp [Site.vertex] at h
      · rw [← h] at h'; omega
    · rw [hv] at h; omega
  have htr : ∀ v ∈ evs (2 + z.pre.kn + (2 + ((z.l1 ++ z.m :: z.l2).flatMap Stmt.users).length)) (transUses z.t), v ≠ z.vertex A := by
    intro v hv he
    have := evs_id hv
    rw [he] at this; omega
  have hD := ((z.post.through hC _ _ _ _ fun _ he => he).of_src (P := (· ≠ z.vertex A)) hsrc).mono hpost
  have hB := (chain_all (G := z.whole.graph C) (P := (· ≠ z.vertex A)) _ _ (fun e he => hG e (Or.inr (Or.inl (Or.inr he)))) (by simp [Site.vertex]) htr).trans hD
  refine ⟨?_, ?_, ?_⟩
  · -- the rest of the block
    refine evs_without (k := 2 + z.pre.kn + 2 + (z.l1.flatMap Stmt.users).length + 2) fun v hv => ?_
    have hid := evs_id hv
    refine key v ?_ ?_ ⟨.nop 1, ?_, hend, hsink⟩
    · unfold Seq.allUses
      rw [hU, List.flatMap_append, List.flatMap_cons, evs_append, evs_append, hlen]
      simp only [List.mem_append]
      exact Or.inl (Or.inr (Or.inl (Or.inl (Or.inr (Or.inr hv)))))
    · intro he; rw [he, hvid] at hid; omega
    · have hsplit : evs (2 + z.pre.kn + 2) ((z.l1 ++ z.m :: z.l2).flatMap Stmt.users) ++ [.nop (2 + z.pre.kn + 1)] =
          (evs (2 + z.pre.kn + 2) (z.l1.flatMap Stmt.users) ++ [.ev (2 + z.pre.kn + 2 + (z.l1.flatMap Stmt.users).length) (.read, A)]) ++ z.vertex A ::
            (evs (2 + z.pre.kn + 2 + (z.l1.flatMap Stmt.users).length + 2) (z.l2.flatMap Stmt.users) ++ [.nop (2 + z.pre.kn + 1)]) := by
        rw [List.flatMap_append, List.flatMap_cons, evs_append, evs_append, hlen, Site.vertex, hlen, ha.node]
        simp [Stmt.users, readsOf, evs_cons, evs]
      have hc : ∀ e ∈ chainE (z.vertex A) (evs (2 + z.pre.kn + 2 + (z.l1.flatMap Stmt.users).length + 2) (z.l2.flatMap Stmt.users) ++ [.nop (2 + z.pre.kn + 1)]),
          e ∈ z.whole.graph C := by
        intro e he
        refine hG e (Or.inr (Or.inl (Or.inl ?_)))
        rw [hsplit]
        exact chainE_drop _ _ _ _ e he
      have := chain_end (G := z.whole.graph C) (P := (· ≠ z.vertex A)) _ _ hc ?_ v (List.mem_append_left _ hv)
      · rw [chainEnd_append] at this
        exact this.trans hB
      · intro w hw
        rcases List.mem_append.mp hw with hw | hw
        · intro he; have := evs_id hw; rw [he, hvid] at this; omega
        · rw [List.mem_singleton.mp hw]; simp [Site.vertex]
  · refine evs_without (k := 2 + z.pre.kn + (2 + ((z.l1 ++ z.m :: z.l2).flatMap Stmt.users).length)) fun v hv => ?_
    refine key v ?_ (htr v hv) ⟨.nop 1, ?_, hend, hsink⟩
    · unfold Seq.allUses; rw [hU]; simp only [List.mem_append]
      exact Or.inl (Or.inr (Or.inl (Or.inr hv)))
    · exact (chain_end (G := z.whole.graph C) (P := (· ≠ z.vertex A)) _ _ (fun e he => hG e (Or.inr (Or.inl (Or.inr he)))) htr v hv).trans hD
  · intro σ l o h v hv
    have hid := Seq.uses_id E z.post _ h hv
    have hne : v ≠ z.vertex A := by intro he; rw [he, hvid] at hid; omega
    rcases Seq.only E z.post _ σ l o h v hv with hu | hu
    · refine key v ?_ hne ⟨.nop 1, ?_, hend, hsink⟩
      · unfold Seq.allUses; rw [hU]; simp only [List.mem_append]
        exact Or.inl (Or.inr (Or.inr hu))
      · exact ((z.post.leads hC _ _ _ _ (fun _ he => he) v hu).of_src (P := (· ≠ z.vertex A)) hsrc).mono hpost
    · have hm : v ∈ z.whole.retV 2 := by rw [hR]; exact List.mem_append_right _ hu
      refine key v ?_ hne ⟨v, .refl, hne, fun y hy => ?_⟩
      · unfold Seq.allUses; simp [hm]
      · rcases Seq.sink C z.whole (.nop 0) (.nop 1) 2 v hm _ hy with h | h
        · dsimp only at h; rw [h] at hid; simp only [V.id] at hid; omega
        · exact h rfl

end Docc.IR
