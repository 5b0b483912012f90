import Verif.IR.XferProps
import Verif.IR.InterchangeProps

namespace Docc.IR
open Docc.Sym

/-! ## C94: removing transfers between host and device -/

/-- What the code does not check: between the two transfers nothing writes the device container of the first one or a symbol of the size. -/
structure XferCalm (o : Xfer) (t : Trans) (mid : Seq) : Prop where
  dev : ¬ writes (transUsers t ++ mid.users) o.src
  syms : ∀ x ∈ o.syms, ¬ writes (transUsers t ++ mid.users) x

theorem writes_transUsers {t : Trans} {x : String} (h : x ∈ t.map (·.1)) : writes (transUsers t) x := by
  simp only [transUsers, writes, List.mem_append]
  exact Or.inr (by simpa using h)

/-- the part up to the copy-in -/
theorem dtm_front {E : Env} {cover : List (List Int → Int) → List Int → Bool} {o : Xfer} {t : Trans} {mid : Seq} {drop : Bool}
    (ho : E.copies (o.code ++ o.size) cover) (hc : XferCalm o t mid) (hw : ¬ writes (transUsers t ++ mid.users) o.dst)
    (hd : drop = true → ¬ reads (transUsers t ++ mid.users) o.dst) (hne : o.src ≠ o.dst) (hs : o.dst ∉ o.syms) {C : St → St → Prop} {S S' : Rel}
    (hC : ∀ σ τ, Upto o.dst drop σ τ → C σ τ)
    (h : Rel.to (fun σ τ => Upto o.dst drop σ τ ∧ Copied cover o.syms o.dst o.src σ) C S S') :
    Rel.to Eq C (Rel.seq (o.node.den E) (Rel.seq (Rel.upd (runTrans E t)) (Rel.seq (mid.den E) S)))
      (Rel.seq ((if drop then Node.block [] else o.node).den E) (Rel.seq (Rel.upd (runTrans E t)) (Rel.seq (mid.den E) S'))) := by
  have hnode : ∀ σ, runBlock E [.lib (o.code ++ o.size) (o.src :: o.dst :: o.syms) [o.dst]] σ =
      fun z => if z = o.dst then fun j => if cover (o.syms.map σ) j then σ o.src j else σ o.dst j else σ z := Xfer.node_run ho
  have hcop : ∀ σ, Copied cover o.syms o.dst o.src (runBlock E [.lib (o.code ++ o.size) (o.src :: o.dst :: o.syms) [o.dst]] σ) := by
    intro σ j hj
    rw [hnode] at hj ⊢
    have e : (o.syms.map fun z => if z = o.dst then fun j => if cover (o.syms.map σ) j then σ o.src j else σ o.dst j else σ z) = o.syms.map σ :=
      List.map_congr_left fun z hz => if_neg fun e : z = o.dst => hs (e ▸ hz)
    rw [e] at hj
    simp [hj, hne]
  have hAC : ∀ σ τ, Upto o.dst drop σ τ ∧ Copied cover o.syms o.dst o.src σ → C σ τ := fun σ τ h => hC σ τ h.1
  have hkeep : ∀ z, z = o.dst ∨ z = o.src ∨ z ∈ o.syms → ¬ writes (transUsers t ++ mid.users) z := by
    rintro z (rfl | rfl | hz)
    · exact hw
    · exact hc.dev
    · exact hc.syms z hz
  have hread : ∀ us, (∀ v, v ∈ us → v ∈ transUsers t ++ mid.users) → ∀ x, x = o.dst ∧ drop = true → ¬ reads us x := by
    rintro us hus x ⟨rfl, hdt⟩ hr
    exact hd hdt (hus _ hr)
  refine Rel.to_seq (B := fun σ τ => Upto o.dst drop σ τ ∧ Copied cover o.syms o.dst o.src σ) ?_ hAC ?_
  · cases drop with
    | false =>
      simp only [Bool.false_eq_true, if_false, Xfer.node, Node.den]
      exact Rel.to_upd fun σ τ e => ⟨e ▸ AgreeOff.refl _ _, hcop σ⟩
    | true =>
      simp only [if_true, Xfer.node, Node.den]
      refine Rel.to_upd fun σ τ e => ⟨?_, hcop σ⟩
      subst e
      intro z hz
      have hz' : z ≠ o.dst := fun e => hz ⟨e, rfl⟩
      rw [hnode]
      simp only [hz', if_false]
      rfl
  refine Rel.to_seq (Rel.to_of_bis (Rel.bis_and (trans_upto (hread _ fun v hv => List.mem_append.mpr (Or.inl hv))) (Copied.inv ?_))) hAC ?_
  · rintro σ c σ' ⟨_, rfl⟩ z hz
    exact runTrans_keeps t (fun hm => hkeep z hz (writes_append.mpr (Or.inl (writes_transUsers hm)))) σ
  refine Rel.to_seq (Rel.to_of_bis (Rel.bis_and (Seq.agree_bis E _ mid (hread _ fun v hv => List.mem_append.mpr (Or.inr hv))) (Copied.inv ?_))) hAC h
  intro σ c σ' hd z hz
  exact mid.frame_inv E z (σ z) (fun hm => hkeep z hz (writes_append.mpr (Or.inr hm))) σ c σ' rfl hd

theorem xferSeq_den {E : Env} (pre : Seq) (n : Node) (t : Trans) (mid rest : Seq) :
    (pre ++ Seq.cons n t (mid ++ rest)).den E = Rel.seq (pre.den E) (Rel.seq (n.den E) (Rel.seq (Rel.upd (runTrans E t)) (Rel.seq (mid.den E) (rest.den E)))) := by
  rw [Seq.den_append, Seq.den, Seq.den_append]

theorem Upto.of_eq {X : String} {d : Bool} (σ : St) : Upto X d σ σ := AgreeOff.refl _ _

/-- what the decision of the pass says -/
theorem dtmStep_some {pre : Seq} {o : Xfer} {t : Trans} {mid : Seq} {i : Xfer} {u : Trans} {post s' : Seq} (h : dtmStep pre o t mid i u post = some s') :
    i.code = o.code ∧ i.size = o.size ∧ i.syms = o.syms ∧ i.src = o.dst ∧ ¬ writes (transUsers t ++ mid.users) o.dst ∧
    s' = pre ++ .cons (if xferReadAfter o t mid u post then o.node else .block []) t
      (mid ++ (if o.src = i.dst then .cons (.block []) u post else (Seq.cons (.block []) u post).replace i.dst (.sym o.src))) := by
  unfold dtmStep at h
  split at h
  · rename_i hg
    simp only [Bool.and_eq_true, Xfer.redundant, beq_iff_eq, Bool.not_eq_true', decide_eq_false_iff_not] at hg
    simp only [Option.some.injEq] at h
    refine ⟨hg.1.1.2.1.1.1.1.1.symm, hg.1.1.2.1.1.2.symm, hg.1.1.2.1.2.symm, hg.1.2.symm, hg.2, ?_⟩
    rw [← h]
    rfl
  · simp at h

/-- the copy-in changes nothing when the buffer is the one just copied out -/
theorem copy_in_same {E : Env} {cover : List (List Int → Int) → List Int → Bool} {o i : Xfer} (ho : E.copies (o.code ++ o.size) cover) (h1 : i.code = o.code)
    (h2 : i.size = o.size) (h3 : i.syms = o.syms) (h4 : i.src = o.dst) (h5 : o.src = i.dst) {σ : St} (hk : Copied cover o.syms o.dst o.src σ) :
    runBlock E [.lib (i.code ++ i.size) (i.src :: i.dst :: i.syms) [i.dst]] σ = σ := by
  rw [Xfer.node_run (cover := cover) (by rw [h1, h2]; exact ho)]
  funext z j
  by_cases hz : z = i.dst
  · subst hz
    simp only [if_true, h3, h4]
    split
    · rename_i hj; rw [hk j hj, h5]
    · rfl
  · simp [hz]

/-- what a program may leave different: nothing but `X`, and that only if it is dropped -/
theorem dtm_tail {E : Env} {X : String} {drop : Bool} {u : Trans} {post : Seq} (h : drop = true → ¬ reads (transUsers u ++ post.users) X) :
    Rel.bis (Upto X drop) (Rel.seq (Rel.upd (runTrans E u)) (post.den E)) (Rel.seq (Rel.upd (runTrans E u)) (post.den E)) := by
  refine Rel.seq_bis (trans_upto ?_) (Seq.agree_bis E _ post ?_)
  · rintro x ⟨rfl, hd⟩ hr; exact h hd (List.mem_append.mpr (Or.inl hr))
  · rintro x ⟨rfl, hd⟩ hr; exact h hd (List.mem_append.mpr (Or.inr hr))

theorem not_readAfter {o : Xfer} {t : Trans} {mid : Seq} {u : Trans} {post : Seq} (h : (!xferReadAfter o t mid u post) = true) :
    ¬ reads (transUsers t ++ mid.users) o.dst ∧ ¬ reads (transUsers u ++ post.users) o.dst := by
  simp only [xferReadAfter, Bool.not_eq_true', decide_eq_false_iff_not, reads, List.mem_append, not_or] at h ⊢
  exact ⟨⟨h.1.1.1, h.1.1.2⟩, h.1.2, h.2⟩

/-- **C94 (minimization, one buffer; partial).** A copy-out followed by a copy-in to the same device buffer: the program without the copy-in (and without the
copy-out when the host container is not read any more) ends in the same way, and agrees on every container but the host container that is not copied out any more.
Missing: when the buffer or a symbol of the size is written in between (`dtm_buffer_violated`, `dtm_size_violated`), and that host container itself
(`dtm_output_violated`). -/
theorem dtm_same_partial {E : Env} {cover : List (List Int → Int) → List Int → Bool} {pre : Seq} {o : Xfer} {t : Trans} {mid : Seq} {i : Xfer} {u : Trans}
    {post s' : Seq} (h : dtmStep pre o t mid i u post = some s') (hb : o.src = i.dst) (ho : E.copies (o.code ++ o.size) cover) (hc : XferCalm o t mid)
    (hne : o.src ≠ o.dst) (hs : o.dst ∉ o.syms) (σ : St) (c : Ctl) :
    (∀ σ', (xferSeq pre o t mid i u post).den E σ c σ' →
      ∃ τ', s'.den E σ c τ' ∧ ∀ z, (z = o.dst → xferReadAfter o t mid u post = true) → σ' z = τ' z) ∧
    (∀ τ', s'.den E σ c τ' →
      ∃ σ', (xferSeq pre o t mid i u post).den E σ c σ' ∧ ∀ z, (z = o.dst → xferReadAfter o t mid u post = true) → σ' z = τ' z) := by
  obtain ⟨h1, h2, h3, h4, hw, rfl⟩ := dtmStep_some h
  have key : Rel.to Eq (Upto o.dst (!xferReadAfter o t mid u post)) ((xferSeq pre o t mid i u post).den E)
      ((pre ++ .cons (if xferReadAfter o t mid u post then o.node else .block []) t
      (mid ++ (if o.src = i.dst then .cons (.block []) u post else (Seq.cons (.block []) u post).replace i.dst (.sym o.src)))).den E) := by
    rw [xferSeq, xferSeq_den, xferSeq_den, if_pos hb]
    refine Rel.to_seq (Rel.to_of_bis (Rel.bis_refl _)) (by rintro σ τ rfl; exact Upto.of_eq σ) ?_
    have e : (if xferReadAfter o t mid u post then o.node else Node.block []) = if !xferReadAfter o t mid u post then Node.block [] else o.node := by
      cases xferReadAfter o t mid u post <;> rfl
    rw [e]
    refine dtm_front ho hc hw (fun hd => (not_readAfter hd).1) hne hs (fun _ _ h => h) ?_
    rw [Seq.den, Seq.den]
    refine Rel.to_seq (B := Upto o.dst (!xferReadAfter o t mid u post)) ?_ (fun _ _ h => h) (Rel.to_of_bis (dtm_tail fun hd => (not_readAfter hd).2))
    rw [Xfer.node, Node.den, Node.den]
    refine Rel.to_upd fun σ τ hp => ?_
    rw [copy_in_same ho h1 h2 h3 h4 hb hp.2]
    exact hp.1
  have conv : ∀ σ' τ', Upto o.dst (!xferReadAfter o t mid u post) σ' τ' → ∀ z, (z = o.dst → xferReadAfter o t mid u post = true) → σ' z = τ' z := by
    intro σ' τ' hu z hz
    refine hu z ?_
    rintro ⟨rfl, hd⟩
    rw [hz rfl] at hd
    exact absurd hd (by simp)
  exact ⟨fun σ' hd => (key.1 σ σ c σ' rfl hd).imp fun τ' q => ⟨q.1, conv _ _ q.2⟩, fun τ' hd => (key.2 σ σ c τ' rfl hd).imp fun σ' q => ⟨q.1, conv _ _ q.2⟩⟩

/-- **C94 (minimization, two buffers; partial).** The same when the copy-in goes to another device buffer, which becomes another name of the first one: the programs
agree on every container but the two buffers and the host container that is not copied out any more.  The first buffer is freed by the copy-out, so that it is not used
behind it; the copies are as large as the containers.  Missing: as before, and buffers that are not freed (`dtm_alias_violated`). -/
theorem dtm_alias_partial {E : Env} {pre : Seq} {o : Xfer} {t : Trans} {mid : Seq} {i : Xfer} {u : Trans}
    {post s' : Seq} (h : dtmStep pre o t mid i u post = some s') (hb : o.src ≠ i.dst) (ho : E.copies (o.code ++ o.size) fun _ _ => true) (hc : XferCalm o t mid)
    (hne : o.src ≠ o.dst) (hni : i.dst ≠ o.dst) (hs : o.dst ∉ o.syms) (hfree : o.src ∉ (Seq.cons (.block []) u post).names)
    (hr : i.dst ∉ (Seq.cons (.block []) u post).rets) (σ : St) (c : Ctl) :
    (∀ σ', (xferSeq pre o t mid i u post).den E σ c σ' →
      ∃ τ', s'.den E σ c τ' ∧ ∀ z, z ≠ o.src → z ≠ i.dst → (z = o.dst → xferReadAfter o t mid u post = true) → σ' z = τ' z) ∧
    (∀ τ', s'.den E σ c τ' →
      ∃ σ', (xferSeq pre o t mid i u post).den E σ c σ' ∧ ∀ z, z ≠ o.src → z ≠ i.dst → (z = o.dst → xferReadAfter o t mid u post = true) → σ' z = τ' z) := by
  obtain ⟨h1, h2, h3, h4, hw, rfl⟩ := dtmStep_some h
  have key : Rel.to Eq (fun σ τ => ∀ z, z ≠ o.src → z ≠ i.dst → (z = o.dst → xferReadAfter o t mid u post = true) → σ z = τ z)
      ((xferSeq pre o t mid i u post).den E)
      ((pre ++ .cons (if xferReadAfter o t mid u post then o.node else .block []) t
      (mid ++ (if o.src = i.dst then .cons (.block []) u post else (Seq.cons (.block []) u post).replace i.dst (.sym o.src)))).den E) := by
    rw [xferSeq, xferSeq_den, xferSeq_den, if_neg hb]
    refine Rel.to_seq (Rel.to_of_bis (Rel.bis_refl _)) (by rintro σ τ rfl z _ _ _; rfl) ?_
    have e : (if xferReadAfter o t mid u post then o.node else Node.block []) = if !xferReadAfter o t mid u post then Node.block [] else o.node := by
      cases xferReadAfter o t mid u post <;> rfl
    rw [e]
    refine dtm_front ho hc hw (fun hd => (not_readAfter hd).1) hne hs ?_ ?_
    · intro σ τ hu z _ _ hz
      refine hu z ?_
      rintro ⟨rfl, hd⟩
      rw [hz rfl] at hd
      exact absurd hd (by simp)
    have e2 : (Seq.cons i.node u post).den E = Rel.seq (i.node.den E) ((Seq.cons (.block []) u post).den E) := by
      rw [Seq.den, Seq.den, Node.den]
      congr 1
      exact (Rel.skip_seq _).symm
    rw [e2, ← Rel.skip_seq (((Seq.cons (.block []) u post).replace i.dst (.sym o.src)).den E)]
    -- `ρ` : the left state with the host container of the right one
    refine Rel.to_seq_normal (B := fun σ τ => ∃ ρ, Upto o.dst (!xferReadAfter o t mid u post) σ ρ ∧ Ren i.dst o.src ρ τ) ?_ ?_ (by rintro σ c σ' ⟨h, _⟩; exact h) ?_
    · rw [Xfer.node, Node.den]
      refine Rel.to_upd fun σ τ hp => ?_
      rw [Xfer.node_run (cover := fun _ _ => true) (by rw [h1, h2]; exact ho)]
      obtain ⟨hu, hk⟩ := hp
      refine ⟨fun z => if z = i.dst then τ o.src else τ z, ?_, ?_⟩
      · intro z hz
        simp only [if_true, h4]
        split
        · have : σ o.dst = σ o.src := funext fun j => hk j rfl
          rw [this]
          exact hu o.src fun q => hne q.1
        · exact hu z hz
      · refine ⟨fun z hz _ => if_neg hz, by simp⟩
    · intro σ c σ' hd
      rw [Xfer.node, Node.den] at hd
      exact hd.1
    · have b1 : Rel.bis (Upto o.dst (!xferReadAfter o t mid u post)) ((Seq.cons (.block []) u post).den E) ((Seq.cons (.block []) u post).den E) := by
        rw [Seq.den, Node.den]
        exact Rel.seq_bis (Rel.upd_bis fun _ _ h => h) (dtm_tail fun hd => (not_readAfter hd).2)
      have b2 := Seq.rename_bis E i.dst o.src (Ne.symm hb) (.cons (.block []) u post) hfree hr
      have fin : ∀ σ ρ τ, Upto o.dst (!xferReadAfter o t mid u post) σ ρ → Ren i.dst o.src ρ τ →
          ∀ z, z ≠ o.src → z ≠ i.dst → (z = o.dst → xferReadAfter o t mid u post = true) → σ z = τ z := by
        intro σ ρ τ hu hr z hz1 hz2 hz3
        rw [hu z (by rintro ⟨rfl, hd⟩; rw [hz3 rfl] at hd; exact absurd hd (by simp)), hr.1 z hz2 hz1]
      constructor
      · rintro σ τ c σ' ⟨ρ, g1, g2⟩ hd
        obtain ⟨ρ', k1, k2⟩ := b1.1 _ _ _ _ g1 hd
        obtain ⟨τ', k3, k4⟩ := b2.1 _ _ _ _ g2 k1
        exact ⟨τ', k3, fin _ _ _ k2 k4⟩
      · rintro σ τ c τ' ⟨ρ, g1, g2⟩ hd
        obtain ⟨ρ', k1, k2⟩ := b2.2 _ _ _ _ g2 hd
        obtain ⟨σ', k3, k4⟩ := b1.2 _ _ _ _ g1 k1
        exact ⟨σ', k3, fin _ _ _ k4 k2⟩
  exact ⟨fun σ' hd => key.1 σ σ c σ' rfl hd, fun τ' hd => key.2 σ σ c τ' rfl hd⟩

/-- **C94 (a copy-out overwritten by an equal one; partial).** When the pass removes a copy-out because an equal copy-out to the same host container follows, the program
has exactly the executions it had, provided no symbol of the size is written in between.  Missing: that case (`rrt_size_violated`). -/
theorem rrt_partial {E : Env} {cover : List (List Int → Int) → List Int → Bool} {pre : Seq} {o : Xfer} {t : Trans} {mid : Seq} {i : Xfer} {u : Trans}
    {post s' : Seq} (h : rrtStep pre o t mid i u post = some s') (ho : E.copies (o.code ++ o.size) cover)
    (hsy : ∀ x ∈ o.syms, ¬ writes (transUsers t ++ mid.users) x) (hs : o.dst ∉ o.syms) (hi : i.src ≠ o.dst) (σ : St) (c : Ctl) (σ' : St) :
    (xferSeq pre o t mid i u post).den E σ c σ' ↔ s'.den E σ c σ' := by
  unfold rrtStep at h
  split at h
  case isFalse => simp at h
  rename_i hg
  simp only [Bool.and_eq_true, Xfer.equal, beq_iff_eq, Bool.not_eq_true', List.any_eq_false] at hg
  obtain ⟨⟨⟨⟨⟨⟨_, _⟩, hdst⟩, ⟨⟨⟨⟨hcode, _⟩, _⟩, hsize⟩, hsyms⟩, _⟩, hjump⟩, hret⟩, huse⟩ := hg
  simp only [Option.some.injEq] at h
  subst h
  have hrd : ∀ us, (∀ v, v ∈ us → v ∈ transUsers t ++ mid.users) → ∀ x, x = o.dst → ¬ reads us x := by
    rintro us hus x rfl hr
    exact huse _ (hus _ hr) rfl
  have hwr : ∀ z, z = o.dst ∨ z ∈ o.syms → ¬ writes (transUsers t ++ mid.users) z := by
    rintro z (rfl | hz)
    · exact fun hw => huse _ hw rfl
    · exact hsy z hz
  -- between the copy-outs the states differ at most in the elements below the size
  let B : St → St → Prop := fun σ τ => AgreeOff (fun z => z = o.dst) σ τ ∧ ∀ j, cover (o.syms.map σ) j = false → σ o.dst j = τ o.dst j
  have hB : ∀ {R : Rel}, Rel.bis (AgreeOff fun z => z = o.dst) R R →
      (∀ σ c σ', R σ c σ' → ∀ z, z = o.dst ∨ z ∈ o.syms → σ' z = σ z) → Rel.to B B R R := by
    intro R hb hk
    have fin : ∀ σ τ c σ' τ', B σ τ → R σ c σ' → R τ c τ' → AgreeOff (fun z => z = o.dst) σ' τ' → B σ' τ' := by
      intro σ τ c σ' τ' hB h1 h2 h3
      refine ⟨h3, fun j hj => ?_⟩
      have e : o.syms.map σ' = o.syms.map σ := List.map_congr_left fun z hz => hk _ _ _ h1 z (Or.inr hz)
      rw [hk _ _ _ h1 o.dst (Or.inl rfl), hk _ _ _ h2 o.dst (Or.inl rfl)]
      exact hB.2 j (e ▸ hj)
    constructor
    · intro σ τ c σ' hB hr
      obtain ⟨τ', h1, h2⟩ := hb.1 σ τ c σ' hB.1 hr
      exact ⟨τ', h1, fin _ _ _ _ _ hB hr h1 h2⟩
    · intro σ τ c τ' hB hr
      obtain ⟨σ', h1, h2⟩ := hb.2 τ σ c τ' hB.1 hr
      exact ⟨σ', h1, fin _ _ _ _ _ hB h1 hr h2⟩
  have hmid : ∀ σ c σ', mid.den E σ c σ' → c = .normal := by
    intro σ c σ' hd
    have p1 := mid.noJump_proper E hjump σ c σ' hd
    have p2 := mid.stays E hret σ c σ' hd
    cases c <;> simp [Ctl.proper, Ctl.stays] at p1 p2 ⊢
  have hupd : ∀ (f : St → St) σ c σ', Rel.upd f σ c σ' → c = .normal := by rintro f σ c σ' ⟨h, _⟩; exact h
  have key : Rel.to Eq Eq ((xferSeq pre o t mid i u post).den E) ((pre ++ .cons (.block []) t (mid ++ .cons i.node u post)).den E) := by
    rw [xferSeq, xferSeq_den, xferSeq_den]
    refine Rel.to_seq (Rel.to_of_bis (Rel.bis_refl _)) (fun _ _ h => h) ?_
    rw [Xfer.node, Node.den, Node.den]
    refine Rel.to_seq_normal (B := B) (Rel.to_upd ?_) (hupd _) (hupd _) ?_
    · rintro σ τ rfl
      rw [Xfer.node_run ho]
      refine ⟨fun z hz => by simp only [if_neg hz]; rfl, fun j hj => ?_⟩
      have e : (o.syms.map fun z => if z = o.dst then fun j => if cover (o.syms.map σ) j then σ o.src j else σ o.dst j else σ z) = o.syms.map σ :=
        List.map_congr_left fun z hz => if_neg fun e : z = o.dst => hs (e ▸ hz)
      rw [e] at hj
      simp [hj, runBlock]
    refine Rel.to_seq_normal (hB (trans_upto (hrd _ fun v hv => List.mem_append.mpr (Or.inl hv))) ?_) (hupd _) (hupd _) ?_
    · rintro σ c σ' ⟨_, rfl⟩ z hz
      exact runTrans_keeps t (fun hm => hwr z hz (writes_append.mpr (Or.inl (writes_transUsers hm)))) σ
    refine Rel.to_seq_normal (hB (Seq.agree_bis E _ mid (hrd _ fun v hv => List.mem_append.mpr (Or.inr hv))) ?_) hmid hmid ?_
    · intro σ c σ' hd z hz
      exact mid.frame_inv E z (σ z) (fun hm => hwr z hz (writes_append.mpr (Or.inr hm))) σ c σ' rfl hd
    rw [Seq.den]
    refine Rel.to_seq_normal (B := Eq) ?_ ?_ ?_ (Rel.to_of_bis (Rel.bis_refl _))
    · rw [Xfer.node, Node.den]
      refine Rel.to_upd fun σ τ hB => ?_
      have e : o.syms.map σ = o.syms.map τ := List.map_congr_left fun z hz => hB.1 z fun e : z = o.dst => hs (e ▸ hz)
      rw [Xfer.node_run (cover := cover) (by rw [← hcode, ← hsize]; exact ho), Xfer.node_run (cover := cover) (by rw [← hcode, ← hsize]; exact ho), ← hsyms, ← hdst]
      funext z
      by_cases hz : z = o.dst
      · simp only [if_pos hz]
        funext j
        rw [← e]
        split
        · rw [hB.1 i.src hi]
        · rename_i hj; exact hB.2 j (by simpa using hj)
      · simp only [if_neg hz]
        exact hB.1 z hz
    · intro σ c σ' hd; rw [Xfer.node, Node.den] at hd; exact hd.1
    · intro σ c σ' hd; rw [Xfer.node, Node.den] at hd; exact hd.1
  constructor
  · intro hd
    obtain ⟨τ', h1, rfl⟩ := key.1 σ σ c σ' rfl hd
    exact h1
  · intro hd
    obtain ⟨τ', h1, rfl⟩ := key.2 σ σ c σ' rfl hd
    exact h1

end Docc.IR
