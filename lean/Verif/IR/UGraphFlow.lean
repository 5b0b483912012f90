import Verif.IR.UGraphDomProps

namespace Docc.IR
open Docc.Sym

/-! ### paths between the uses of an execution -/

/-- The uses `l`, performed between the vertices `f` and `e`, lie on paths: from `f` to every use, from a use to every later one
and, if the execution gets to the end (`fin`), to `e`, in each case over vertices that satisfy `P` if those performed in between do.
`B`: the uses for which this is claimed. -/
structure FlowAt (P B : V → Prop) (G : List (V × V)) (f e : V) (l : List V) (fin : Prop) : Prop where
  to : P f → ∀ l1 b l2, l = l1 ++ b :: l2 → (∀ v ∈ l1, P v) → B b → Reach G P f b
  thru : fin → P f → (∀ v ∈ l, P v) → Reach G P f e ∧ P e
  mid : ∀ l0 v l1 b l2, l = l0 ++ v :: (l1 ++ b :: l2) → P v → (∀ x ∈ l1, P x) → B b → Reach G P v b
  out : fin → ∀ l0 v l1, l = l0 ++ v :: l1 → P v → (∀ x ∈ l1, P x) → Reach G P v e ∧ P e

theorem FlowAt.mono {P B : V → Prop} {G G' : List (V × V)} {f e : V} {l : List V} {fin fin' : Prop} (h : FlowAt P B G f e l fin)
    (hs : ∀ x ∈ G, x ∈ G') (hf : fin' → fin) : FlowAt P B G' f e l fin' where
  to := fun hp l1 b l2 hl h1 hb => (h.to hp l1 b l2 hl h1 hb).mono hs
  thru := fun hx hp hl => ⟨(h.thru (hf hx) hp hl).1.mono hs, (h.thru (hf hx) hp hl).2⟩
  mid := fun l0 v l1 b l2 hl hv h1 hb => (h.mid l0 v l1 b l2 hl hv h1 hb).mono hs
  out := fun hx l0 v l1 hl hv h1 => ⟨(h.out (hf hx) l0 v l1 hl hv h1).1.mono hs, (h.out (hf hx) l0 v l1 hl hv h1).2⟩

/-- the end does not matter -/
theorem FlowAt.cut {P B : V → Prop} {G : List (V × V)} {f e e' : V} {l : List V} {fin : Prop} (h : FlowAt P B G f e l fin) :
    FlowAt P B G f e' l False where
  to := h.to
  thru := fun hx => hx.elim
  mid := h.mid
  out := fun hx => hx.elim

theorem flowAt_append {P B : V → Prop} {G : List (V × V)} {f m e : V} {l l' : List V} {fin fin' : Prop} (h : FlowAt P B G f m l fin)
    (hf : fin) (h' : FlowAt P B G m e l' fin') : FlowAt P B G f e (l ++ l') fin' where
  to := by
    intro hp l1 b l2 hl h1 hb
    rcases split_mid hl with ⟨r, hr⟩ | ⟨r, rfl, hr⟩
    · exact h.to hp l1 b r hr h1 hb
    · obtain ⟨h2, hm⟩ := h.thru hf hp fun v hv => h1 v (by simp [hv])
      exact h2.trans (h'.to hm r b l2 hr (fun v hv => h1 v (by simp [hv])) hb)
  thru := by
    intro hx hp hl
    obtain ⟨h2, hm⟩ := h.thru hf hp fun v hv => hl v (by simp [hv])
    obtain ⟨h3, he⟩ := h'.thru hx hm fun v hv => hl v (by simp [hv])
    exact ⟨h2.trans h3, he⟩
  mid := by
    intro l0 v l1 b l2 hl hv h1 hb
    rcases split_mid hl with ⟨r, hr⟩ | ⟨r, rfl, hr⟩
    · have : r ++ l' = l1 ++ b :: l2 := by
        rw [hr] at hl
        simpa using hl
      rcases split_mid this with ⟨r', hr'⟩ | ⟨r', rfl, hr'⟩
      · exact h.mid l0 v l1 b r' (by rw [hr, hr']) hv h1 hb
      · obtain ⟨h2, hm⟩ := h.out hf l0 v r hr hv fun x hx => h1 x (by simp [hx])
        exact h2.trans (h'.to hm r' b l2 hr' (fun x hx => h1 x (by simp [hx])) hb)
    · exact h'.mid r v l1 b l2 hr hv h1 hb
  out := by
    intro hx l0 v l1 hl hv h1
    rcases split_mid hl with ⟨r, hr⟩ | ⟨r, rfl, hr⟩
    · have : r ++ l' = l1 := by
        rw [hr] at hl
        simpa using hl
      subst this
      obtain ⟨h2, hm⟩ := h.out hf l0 v r hr hv fun x hx => h1 x (by simp [hx])
      obtain ⟨h3, he⟩ := h'.thru hx hm fun x hx => h1 x (by simp [hx])
      exact ⟨h2.trans h3, he⟩
    · exact h'.out hx r v l1 hr hv h1

/-- go on from the end -/
theorem FlowAt.before {P B : V → Prop} {G : List (V × V)} {f e z : V} {l : List V} {fin : Prop} (h : FlowAt P B G f e l fin)
    (hz : P e → Reach G P e z ∧ P z) : FlowAt P B G f z l fin where
  to := h.to
  thru := fun hx hp hl => ⟨(h.thru hx hp hl).1.trans (hz (h.thru hx hp hl).2).1, (hz (h.thru hx hp hl).2).2⟩
  mid := h.mid
  out := fun hx l0 v l1 hl hv h1 =>
    ⟨(h.out hx l0 v l1 hl hv h1).1.trans (hz (h.out hx l0 v l1 hl hv h1).2).1, (hz (h.out hx l0 v l1 hl hv h1).2).2⟩

/-- come from an earlier vertex -/
theorem FlowAt.after {P B : V → Prop} {G : List (V × V)} {a f e : V} {l : List V} {fin : Prop} (h : FlowAt P B G f e l fin)
    (ha : P a → Reach G P a f ∧ P f) : FlowAt P B G a e l fin where
  to := fun hp l1 b l2 hl h1 hb => (ha hp).1.trans (h.to (ha hp).2 l1 b l2 hl h1 hb)
  thru := fun hx hp hl => ⟨(ha hp).1.trans (h.thru hx (ha hp).2 hl).1, (h.thru hx (ha hp).2 hl).2⟩
  mid := h.mid
  out := h.out

theorem chainE_tail {us vs : List V} {v a : V} : us = vs → (∀ e ∈ chainE v us, e ∈ chainE a (v :: vs)) := by
  rintro rfl e he; simp [chainE, he]

theorem chainE_drop : ∀ (l0 r : List V) (a v : V), ∀ e ∈ chainE v r, e ∈ chainE a (l0 ++ v :: r)
  | [], r, a, v, e, he => by simp [chainE, he]
  | x :: l0, r, a, v, e, he => by
    have := chainE_drop l0 r x v e he
    simp [chainE, this]

theorem chainEnd_drop : ∀ (l0 r : List V) (a v : V), chainEnd a (l0 ++ v :: r) = chainEnd v r
  | [], _, _, _ => rfl
  | _ :: l0, r, _, v => chainEnd_drop l0 r _ v

theorem flowAt_chain {P B : V → Prop} {G : List (V × V)} {f : V} {us : List V} (hG : ∀ e ∈ chainE f us, e ∈ G) :
    FlowAt P B G f (chainEnd f us) us True where
  to := fun hp l1 b l2 hl h1 _ => chain_to us f hG hp l1 b l2 hl h1
  thru := fun _ hp hl => ⟨chain_all us f hG hp hl, chainEnd_P us f hp hl⟩
  mid := fun l0 v l1 b l2 hl hv h1 _ => by
    subst hl
    exact chain_to (l1 ++ b :: l2) v (fun e he => hG e (chainE_drop l0 _ f v e he)) hv l1 b l2 rfl h1
  out := fun _ l0 v l1 hl hv h1 => by
    subst hl
    rw [chainEnd_drop]
    exact ⟨chain_all l1 v (fun e he => hG e (chainE_drop l0 _ f v e he)) hv h1, chainEnd_P l1 v hv h1⟩

theorem FlowAt.prefix {P B : V → Prop} {G : List (V × V)} {f e e' : V} {l us : List V} {fin : Prop} (h : FlowAt P B G f e us fin)
    (hl : l <+: us) : FlowAt P B G f e' l False where
  to := fun hp l1 b l2 he h1 hb => by
    obtain ⟨r, rfl⟩ := hl
    exact h.to hp l1 b (l2 ++ r) (by rw [he]; simp) h1 hb
  thru := fun hx => hx.elim
  mid := fun l0 v l1 b l2 he hv h1 hb => by
    obtain ⟨r, rfl⟩ := hl
    exact h.mid l0 v l1 b (l2 ++ r) (by rw [he]; simp) hv h1 hb
  out := fun hx => hx.elim

/-- the execution gets to the end of the element, or jumps to the end of the loop (which the graph takes for the former) -/
def Fin : Option (Ctl × St) → Prop
  | some (.ret _ _, _) => False
  | some _ => True
  | none => False

/-- all executions -/
def Flows (P B : V → Prop) (G : List (V × V)) (f e : V) (R : TR) : Prop := ∀ σ l o, R σ l o → FlowAt P B G f e l (Fin o)

theorem Flows.mono {P B : V → Prop} {G G' : List (V × V)} {f e : V} {R : TR} (h : Flows P B G f e R) (hs : ∀ x ∈ G, x ∈ G') :
    Flows P B G' f e R := fun σ l o hr => (h σ l o hr).mono hs id

theorem flows_emit {P B : V → Prop} {G : List (V × V)} {f : V} {us : List V} (g : St → St) (hG : ∀ e ∈ chainE f us, e ∈ G) :
    Flows P B G f (chainEnd f us) (TR.emit us g) := by
  rintro σ l o (⟨rfl, rfl⟩ | ⟨hl, rfl⟩)
  · exact (flowAt_chain hG).mono (fun _ h => h) fun _ => trivial
  · exact (flowAt_chain hG).prefix hl

theorem flows_jump {P B : V → Prop} {G : List (V × V)} {f e : V} {us : List V} (c : Ctl) (hG : ∀ e ∈ chainE f us, e ∈ G)
    (hc : (∃ d q, c = .ret d q) ∨ e = chainEnd f us) : Flows P B G f e (TR.jump us c) := by
  rintro σ l o (⟨rfl, rfl⟩ | ⟨hl, rfl⟩)
  · rcases hc with ⟨d, q, rfl⟩ | rfl
    · exact (flowAt_chain hG).cut.mono (fun _ h => h) fun h => h
    · exact (flowAt_chain hG).mono (fun _ h => h) fun _ => trivial
  · exact (flowAt_chain hG).prefix hl

/-- `hJ`: if the first part jumps, the vertices in between do not matter, and the rest can be passed -/
theorem flows_seq {P B : V → Prop} {G : List (V × V)} {f m e : V} {R S : TR} (hR : Flows P B G f m R) (hS : Flows P B G m e S)
    (hJ : (∀ σ l c σ', R σ l (some (c, σ')) → c ≠ .brk ∧ c ≠ .cont) ∨ (Reach G P m e ∧ P e)) : Flows P B G f e (TR.seq R S) := by
  rintro σ l o (⟨l1, l2, σ1, h1, h2, rfl⟩ | ⟨h1, h2⟩)
  · exact flowAt_append (hR _ _ _ h1) trivial (hS _ _ _ h2)
  · have h := hR _ _ _ h1
    match o, h1, h2, h with
    | none, _, _, h => exact h.cut
    | some (.normal, τ), _, h2, _ => exact absurd rfl (h2 τ)
    | some (.ret d q, τ), _, _, h => exact h.cut
    | some (.brk, τ), h1, _, h =>
      rcases hJ with hJ | hJ
      · exact absurd rfl (hJ _ _ _ _ h1).1
      · exact h.before fun _ => hJ
    | some (.cont, τ), h1, _, h =>
      rcases hJ with hJ | hJ
      · exact absurd rfl (hJ _ _ _ _ h1).2
      · exact h.before fun _ => hJ

theorem flows_forever {P B : V → Prop} {G : List (V × V)} {s e e' : V} {R : TR} (hR : Flows P B G s e' R) (hs : P s)
    (hse : Reach G P s e ∧ P e) (he' : Reach G P e' e) (hes : Reach G P e s) : Flows P B G s e (TR.forever R) := by
  intro σ l o h
  induction h with
  | cut h => exact (hR _ _ _ h).cut
  | @step σ l σ1 l' o k h1 h2 _ ih =>
    have hf : Fin (some (k, σ1)) := by rcases h2 with rfl | rfl <;> exact trivial
    exact flowAt_append ((hR _ _ _ h1).before fun _ => ⟨he'.trans hes, hs⟩) hf ih
  | stop h1 => exact ((hR _ _ _ h1).before fun _ => ⟨he', hse.2⟩).mono (fun _ h => h) fun _ => trivial
  | ret d q h1 => exact (hR _ _ _ h1).cut

/-- `t` is the last vertex of the loop, `w` the vertex before the condition -/
theorem flows_iter {P B : V → Prop} {G : List (V × V)} {w m t e' : V} {b : St → Bool} {u : St → St} {cs us : List V} {R : TR}
    (hR : Flows P B G m e' R) (hc : ∀ x ∈ chainE w cs, x ∈ G) (hl : (chainEnd w cs, m) ∈ G) (hm : P m) (ht : P t)
    (hlt : P (chainEnd w cs) → Reach G P (chainEnd w cs) t) (hu : ∀ x ∈ chainE e' (us ++ [t]), x ∈ G) (hback : (t, chainEnd w cs) ∈ G)
    (hB : ∀ v ∈ cs.dropLast, ¬ B v) (hne : cs ≠ [] ∨ ∀ v, P v) (hJ : R.NoJump ∨ ∀ v, P v) : Flows P B G w t (TR.iter b u cs us R) := by
  have hbm : ∀ {f l fin}, FlowAt P B G f (chainEnd w cs) l fin → FlowAt P B G f m l fin :=
    fun h => h.before fun hp => ⟨.one hp hl, hm⟩
  have hbt : ∀ {f l fin}, FlowAt P B G f (chainEnd w cs) l fin → FlowAt P B G f t l fin :=
    fun h => h.before fun hp => ⟨hlt hp, ht⟩
  have hfirst : FlowAt P B G w (chainEnd w cs) cs True := flowAt_chain hc
  have hP : ∀ v, v ∈ cs → (∀ x ∈ cs, P x) → P (chainEnd w cs) := by
    intro v hv hp
    obtain ⟨l0, r, rfl⟩ := List.append_of_mem hv
    rw [chainEnd_drop]
    exact chainEnd_P r v (hp v hv) fun x hx => hp x (by simp [hx])
  have hagain : FlowAt P B G t (chainEnd w cs) cs True := by
    refine ⟨fun hp l1 x l2 he h1 hb => ?_, fun _ _ hp => ⟨.one ht hback, ?_⟩, hfirst.mid, hfirst.out⟩
    · have : x = chainEnd w cs := by
        rw [he, chainEnd_drop]
        cases l2 with
        | nil => rfl
        | cons y r =>
          exfalso
          refine hB x ?_ hb
          rw [he, List.dropLast_append_of_ne_nil (by simp)]
          simp [List.dropLast]
      rw [this]; exact .one ht hback
    · rcases hne with hne | hne
      · cases cs with
        | nil => exact absurd rfl hne
        | cons v r => exact hP v (by simp) hp
      · exact hne _
  have hupd : FlowAt P B G e' t us True := by
    rw [chainE_append] at hu
    exact (flowAt_chain (fun x hx => hu x (by simp [hx]))).before fun hp => ⟨.one hp (hu _ (by simp [chainE])), ht⟩
  have key : ∀ σ l o, TR.iter b u cs us R σ l o → ∀ x, FlowAt P B G x (chainEnd w cs) cs True → FlowAt P B G x t l (Fin o) := by
    intro σ l o h
    induction h with
    | cut h => exact fun x hx => hx.prefix h
    | done h => exact fun x hx => (hbt hx).mono (fun _ h => h) fun _ => trivial
    | cutBody h0 h1 => exact fun x hx => flowAt_append (hbm hx) trivial (hR _ _ _ h1).cut
    | @cutUpd σ l σ1 l' k h0 h1 hk h2 =>
      intro x hx
      have hf : Fin (some (k, σ1)) := by rcases hk with rfl | rfl <;> exact trivial
      exact flowAt_append (hbm hx) trivial (flowAt_append (hR _ _ _ h1) hf (hupd.prefix h2))
    | @step σ l σ1 l' o k h0 h1 hk _ ih =>
      intro x hx
      have hf : Fin (some (k, σ1)) := by rcases hk with rfl | rfl <;> exact trivial
      exact flowAt_append (hbm hx) trivial (flowAt_append (hR _ _ _ h1) hf (flowAt_append hupd trivial (ih t hagain)))
    | @stop σ l σ1 h0 h1 =>
      intro x hx
      rcases hJ with hJ | hJ
      · exact absurd rfl (hJ _ _ _ _ h1).1
      · refine (flowAt_append (hbm hx) trivial (hR _ _ _ h1)).before (fun _ => ⟨?_, ht⟩) |>.mono (fun _ h => h) fun _ => trivial
        have := chain_all (P := P) (us ++ [t]) e' hu (hJ _) fun v _ => hJ v
        rwa [chainEnd_drop us [] e' t] at this
    | ret d q h0 h1 => exact fun x hx => flowAt_append (hbm hx) trivial (hR _ _ _ h1).cut
  exact fun σ l o h => key σ l o h w hfirst

end Docc.IR
