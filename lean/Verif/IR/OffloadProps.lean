import Verif.IR.OffloadLemmas
import Verif.IR.WhileToForProps

/-
C86: offloading a map to a device.
-/
namespace Docc.IR
open Docc.Sym

/-! ### hypotheses -/

/-- What the theorem asks of the program text: every argument of the map is a scalar or a pointer, the ranges of the pointer arguments `l` contain no functions and are
computed from memlets with stable subsets (as in `mem_access_ranges_partial`), sizes mention no locals, and the names of the device containers are new. -/
structure OffCtx.Static (O : OffCtx) (n : Node) (l : List String) : Prop where
  mem : ∀ x, x ∈ l ↔ O.args.isArg n x = true ∧ O.ptr x = true
  nodup : l.Nodup
  kind : ∀ x, O.args.isArg n x = true → O.scalar x = !O.ptr x
  fns : ∀ x ∈ l, ∀ r, n.range O.rng O.assm x = .ok r → ∀ d ∈ r.dims, ∀ e, d.1 = some e ∨ d.2 = some e → e.fns = []
  lib : ∀ x ∈ l, n.NoLib x
  stable : ∀ x ∈ l, n.SubsetsStable x
  upper : ∀ x ∈ l, ∀ u, O.upper n x = some u → ∀ y ∈ u.atoms, O.args.isLocal n y = false
  ext : ∀ x ∈ l, ∀ e ∈ O.ext x, ∀ y ∈ e.atoms, O.args.isLocal n y = false
  new : ∀ x ∈ l, O.dev x ∉ n.names
  ret : ∀ x ∈ l, x ∉ n.rets

/-- What it asks of an execution of the map that starts in `ρ`: the contents of the locals do not matter and, whatever they are, the reported assumptions hold and
every access of a pointer argument lies at or after the pointer and within the extents of the nested arrays. -/
structure OffCtx.Runs (O : OffCtx) (E : Env) (n : Node) (l : List String) (ρ : St) : Prop where
  dead : n.LocalsDead E O.args ρ
  hold : ∀ κ : St, (∀ x, ¬ O.args.isLocal n x = true → κ x = ρ x) → ∀ p B τ, n.assums O.rng O.assm p = some B → n.vis E p κ τ → B.1.Hold (τ.val E)
  within : ∀ κ : St, (∀ x, ¬ O.args.isLocal n x = true → κ x = ρ x) → ∀ x ∈ l, ∀ idx, n.Accesses E κ x idx →
    ∃ i r, idx = i :: r ∧ 0 ≤ i ∧ Within ((O.ext x).map (ρ.ev E)) r

/-! ### one execution of the map -/

theorem OffCtx.dev_inj {O : OffCtx} {x y : String} (h : O.dev x = O.dev y) : x = y := by
  unfold OffCtx.dev at h
  exact (String.append_right_inj _).1 h

theorem OffCtx.find_dev {O : OffCtx} {l : List String} {x : String} (h : x ∈ l) : (l.find? fun z => O.dev z == O.dev x) = some x := by
  cases hf : l.find? fun z => O.dev z == O.dev x with
  | none =>
    rw [List.find?_eq_none] at hf
    exact absurd (hf x h) (by simp)
  | some z =>
    have := List.find?_some hf
    rw [OffCtx.dev_inj (O := O) (x := z) (y := x) (by simpa using this)]

theorem OffCtx.canApply_spec {O : OffCtx} {n : Node} (hc : O.canApply n = true) {x : String} (hx : O.args.isArg n x = true) :
    (O.scalar x = true → (n.flags x).isOut = false) ∧ (O.scalar x = true ∨ ∃ u, O.upper n x = some u) := by
  unfold OffCtx.canApply at hc
  split at hc
  · rename_i i a c u s
    rw [Bool.and_eq_true, List.all_eq_true] at hc
    have hu := ArgCtx.isArg_used hx
    simp only [Node.used, List.any_eq_true, beq_iff_eq] at hu
    obtain ⟨q, hq, rfl⟩ := hu
    have := hc.2 q hq
    simp only [hx, Bool.not_true, Bool.false_or, Bool.and_eq_true, Bool.or_eq_true, Bool.not_eq_true', Option.isSome_iff_exists] at this
    exact ⟨fun h => this.1.resolve_left (by simp [h]), this.2⟩
  · cases hc

theorem offload_map {O : OffCtx} {E : Env} {n : Node} {l : List String} {junk ρ ρ' ρ2 : St} {k : Ctl} (hc : O.canApply n = true) (S : O.Static n l)
    (R : O.Runs E n l ρ) (hA : AgreeOff (fun x => O.args.isLocal n x = true) ρ ρ') (hd : n.den E ρ k ρ2) :
    ∃ ρ2', O.run E n l junk ρ' k ρ2' ∧ AgreeOff (fun x => O.args.isLocal n x = true) ρ2 ρ2' := by
  -- the sizes
  have hu : ∀ x ∈ l, ∃ u, O.upper n x = some u := fun x hx => by
    have ha := (S.mem x).1 hx
    exact (OffCtx.canApply_spec hc ha.1).2.resolve_left (by rw [S.kind x ha.1, ha.2]; simp)
  have hext : ∀ x ∈ l, (O.ext x).map (ρ'.ev E) = (O.ext x).map (ρ.ev E) := fun x hx => List.map_congr_left fun e he =>
    (hA.ev E fun y hy => by simp [S.ext x hx e he y hy]).symm
  have hcop : ∀ x ∈ l, ∀ u, O.upper n x = some u → ∀ idx, O.copied E ρ' x u idx = O.copied E ρ x u idx := by
    intro x hx u hu idx
    have : ρ'.ev E u = ρ.ev E u := (hA.ev E fun y hy => by simp [S.upper x hx u hu y hy]).symm
    cases idx with
    | nil => rfl
    | cons i r => simp only [OffCtx.copied, OffCtx.count, hext x hx, this]; congr
  -- the locals
  obtain ⟨κ1, h1, h1'⟩ := R.dead k ρ2 hd (fun x => if O.args.isLocal n x then junk x else ρ x) (fun x hx => by simp [hx])
  have hκ : ∀ x, ¬ O.args.isLocal n x = true → (fun x => if O.args.isLocal n x then junk x else ρ x) x = ρ x := fun x hx => by simp [hx]
  have hκj : ∀ x, O.args.isLocal n x = true → (fun x => if O.args.isLocal n x then junk x else ρ x) x = junk x := fun x hx => by simp [hx]
  generalize (fun x => if O.args.isLocal n x then junk x else ρ x : St) = κ0 at h1 hκ hκj
  -- the elements that are not copied
  have hacc : ∀ x ∈ l, ∀ u, O.upper n x = some u → ∀ idx, n.Accesses E κ0 x idx → O.copied E ρ x u idx = true := by
    intro x hx u hu idx ha
    obtain ⟨i, r, rfl, h0, hw⟩ := R.within κ0 hκ x hx idx ha
    unfold OffCtx.upper at hu
    split at hu
    · rename_i rg hrg
      split at hu
      · cases hu
      · rename_i hun
        split at hu
        · rename_i lo u' ds hds
          cases hu
          obtain ⟨_, hC⟩ := mem_access_ranges_partial E O.rng O.assm n x rg κ0 hrg (by simpa using hun) (R.hold κ0 hκ) (S.fns x hx rg hrg) (S.lib x hx)
            (S.stable x hx) _ ha
          obtain ⟨lo', hi', e1, _, e2⟩ := hC 0 i rfl
          rw [hds] at e1
          simp only [List.getElem?_cons_zero, Option.some.injEq, Prod.mk.injEq] at e1
          obtain ⟨_, e3⟩ := e1
          rw [← e3] at e2
          have : St.ev E κ0 u = ρ.ev E u := St.ev_congr E fun y hy => by
            rw [hκ y (by
              have := S.upper x hx u (by unfold OffCtx.upper; rw [hrg]; simp only [hun, hds]; rfl) y hy
              simp [this])]
          rw [this] at e2
          obtain ⟨b1, b2⟩ := linOff_bound _ r i (ρ.ev E u + 1) h0 (by omega) hw
          have b3 := hw.length
          rw [List.length_map] at b3
          simp only [OffCtx.copied, OffCtx.count, Bool.and_eq_true, decide_eq_true_eq, beq_iff_eq]
          exact ⟨⟨b3, b1⟩, decide_eq_true b2⟩
        · cases hu
    · cases hu
  obtain ⟨h2, h3⟩ := unaccessed_irrelevant E n κ0 (fun q => q.1 ∈ l ∧ ∃ u, O.upper n q.1 = some u ∧ O.copied E ρ q.1 u q.2 = false)
    (fun y ⟨_, u, _, h⟩ => by simp [OffCtx.copied] at h) (fun x idx ha ⟨hx, u, hu, hn⟩ => by rw [hacc x hx u hu idx ha] at hn; cases hn) k κ1 h1
  obtain ⟨κ2, h4, h5, h6⟩ := h3 (fun x idx => if x ∈ l ∧ ∃ u, O.upper n x = some u ∧ O.copied E ρ x u idx = false then junk (O.dev x) idx else κ0 x idx)
    (fun q hq => by simp only [St.at]; rw [if_neg hq])
  -- the containers the map does not use
  obtain ⟨κ3, h7, h8, _⟩ := users_read_complete E n (fun x => n.used x = false) (fun x hx hr => Node.not_used hx _ hr) _
    (fun z => if z ∈ l then O.entry E n l junk ρ' (O.dev z) else O.entry E n l junk ρ' z) (fun x hx => by
      have hx : n.used x = true := by simpa using hx
      by_cases hl : x ∈ l
      · obtain ⟨u, hux⟩ := hu x hl
        simp only [hl, if_true, true_and, OffCtx.entry, OffCtx.find_dev hl, hux, hcop x hl u hux]
        funext idx
        have hloc : ¬ O.args.isLocal n x = true := fun h => by
          have := (S.mem x).1 hl
          simp only [ArgCtx.isArg, ArgCtx.isLocal, hx, Bool.true_and] at this h
          rw [this.1] at h; cases h
        have hxa : ρ x = ρ' x := hA x hloc
        cases hcp : O.copied E ρ x u idx
        · simp [hcp]
        · simp [hcp, hκ x hloc, hxa]
      · have hnd : (l.find? fun z => O.dev z == x) = none := by
          rw [List.find?_eq_none]
          intro z hz e
          have e : O.dev z = x := by simpa using e
          simp only [Node.used, List.any_eq_true, beq_iff_eq] at hx
          obtain ⟨⟨q, y⟩, hq, rfl⟩ := hx
          refine S.new z hz ?_
          rw [e]
          cases q
          · exact Node.users_names _ n (Or.inl hq)
          · exact Node.users_names _ n (Or.inr hq)
        simp only [hl, if_false, false_and, OffCtx.entry, hnd]
        have hcase : O.args.isArg n x = !O.args.isLocal n x := by simp only [ArgCtx.isArg, ArgCtx.isLocal, hx, Bool.true_and, Bool.not_not]
        cases hloc : O.args.isLocal n x
        · rw [hloc] at hcase
          have hs : O.scalar x = true := by
            rw [S.kind x hcase, Bool.not_eq_true', ← Bool.not_eq_true]
            exact fun h => hl ((S.mem x).2 ⟨hcase, h⟩)
          simp only [hcase, hs, Bool.not_false, Bool.and_self, if_true]
          rw [hκ x (by simp [hloc])]
          exact hA x (by simp [hloc])
        · rw [hcase, hloc]
          simp [hκj x hloc]) k κ2 h4
  -- the device containers
  have hln : ∀ x ∈ l, x ∈ n.names := fun x hx => by
    have := ArgCtx.isArg_used ((S.mem x).1 hx).1
    simp only [Node.used, List.any_eq_true, beq_iff_eq] at this
    obtain ⟨⟨q, y⟩, hq, rfl⟩ := this
    cases q
    · exact Node.users_names _ n (Or.inl hq)
    · exact Node.users_names _ n (Or.inr hq)
  obtain ⟨κ4, h9, h10, _⟩ := kernel_sim O E l n S.nodup S.new (fun x hx hm => S.new x hx (hln _ hm)) (fun x _ y _ => OffCtx.dev_inj) S.ret _
    (O.entry E n l junk ρ') k κ3 ⟨fun x hx => by simp [hx], fun z hz _ => by simp [hz]⟩ h7
  refine ⟨_, ⟨κ4, h9, rfl⟩, fun x hx => ?_⟩
  by_cases ho : (l.contains x && (n.flags x).isOut) = true
  · simp only [ho, if_true]
    rw [Bool.and_eq_true] at ho
    have hl : x ∈ l := by simpa using ho.1
    obtain ⟨u, hux⟩ := hu x hl
    funext idx
    simp only [hux, hcop x hl u hux]
    split
    · rename_i hcp
      rw [← h10 x hl, ← h8 x (by simp [ArgCtx.isArg_used ((S.mem x).1 hl).1]), ← h1' x hx]
      exact h5 (x, idx) fun ⟨_, u', hu', hn⟩ => by rw [hux] at hu'; cases hu'; simp [hcp] at hn
    · rename_i hcp
      rw [← h1' x hx, show κ1 x idx = κ0 x idx from h2 (x, idx) ⟨hl, u, hux, by simpa using hcp⟩, hκ x hx]
      exact congrFun (hA x hx) idx
  · simp only [ho]
    have hw : ¬ writes n.users x := fun hw => by
      have ha := (O.args.cases n hw).resolve_right hx
      have hout := (argument_flags n x).2.2.2 hw
      refine ho ?_
      rw [Bool.and_eq_true]
      refine ⟨?_, hout⟩
      have : x ∈ l := (S.mem x).2 ⟨ha, by
        cases hp : O.ptr x
        · have := (OffCtx.canApply_spec hc ha).1 (by rw [S.kind x ha, hp]; rfl)
          rw [hout] at this; cases this
        · rfl⟩
      simpa using this
    rw [users_write_complete E n x hw ρ k ρ2 hd]
    exact hA x hx

theorem OffCtx.run_det (O : OffCtx) (E : Env) (n : Node) (l : List String) (junk : St) : Rel.Det (O.run E n l junk) := by
  rintro σ c1 σ1 c2 σ2 ⟨κ1, h1, rfl⟩ ⟨κ2, h2, rfl⟩
  obtain ⟨e1, e2⟩ := (O.kernel n l).den_det E _ _ _ _ _ h1 h2
  exact ⟨e1, by rw [e2]⟩

/-- **C86 (partial).** When `OffloadTransform::can_be_applied` accepts a map of a program, running the map on a device whose memory holds only the copies that `apply`
creates, and copying back only the outputs, changes neither the outcome of the program nor the final contents of any container but the locals of the map.  Missing:
maps that access elements before the pointer, which are not copied (`OffloadViol`), maps whose locals carry values between executions (C85), structures as arguments
and ranges outside `mem_access_ranges_partial`. -/
theorem offload_partial (E : Env) (O : OffCtx) (decl : String → Bool) (s : Seq) (p : List Nat) (n : Node) (h : s.regionAt p = some n)
    (hO : O.args = s.argCtx decl) (l : List String) (hc : O.canApply n = true) (S : O.Static n l) (junk σ : St)
    (R : ∀ ρ, s.vis E p σ ρ → O.Runs E n l ρ) (k : Ctl) (σ' : St) (hd : s.den E σ k σ') :
    (∃ τ', s.denWith E (O.run E n l junk) p σ k τ') ∧
    ∀ k' τ', s.denWith E (O.run E n l junk) p σ k' τ' → k' = k ∧ ∀ x, ¬ O.args.isLocal n x = true → τ' x = σ' x := by
  obtain ⟨τ', h1, h2⟩ := Seq.with_sim E (fun x => O.args.isLocal n x = true) (O.run E n l junk) s p n h
    (fun x hx => (locals_private decl s p n h x (hO ▸ hx)).2 _) σ σ
    (fun ρ ρ' k ρ2 hv hA hr => offload_map hc S (R ρ hv) hA hr) (fun _ _ => rfl) k σ' hd
  refine ⟨⟨τ', h1⟩, fun k2 τ2 h3 => ?_⟩
  obtain ⟨rfl, rfl⟩ := s.denWith_det E (O.run_det E n l junk) p _ _ _ _ _ h1 h3
  exact ⟨rfl, fun x hx => (h2 x hx).symm⟩

end Docc.IR
