import Verif.Expand.Reduce
import Verif.Expand.TensorProps
/-
C67: the expansions of reductions compute the reductions.
-/
namespace Docc.Expand
open Docc.Sym Docc.IR Docc.Types

/-! ### masks -/

theorem pick_map {α β : Type} (f : α → β) (b : Bool) : ∀ (m : List Bool) (l : List α), (pick b m l).map f = pick b m (l.map f)
  | [], _ => by cases ‹List α› <;> rfl
  | _ :: _, [] => rfl
  | m :: ms, a :: as => by
    simp only [pick, List.map_cons, ← pick_map f b ms as]
    split <;> rfl

theorem outShape_map {α β : Type} (f : α → β) (keep : Bool) (z : α) : ∀ (m : List Bool) (l : List α),
    (outShape keep z m l).map f = outShape keep (f z) m (l.map f)
  | [], _ => by cases ‹List α› <;> rfl
  | _ :: _, [] => rfl
  | m :: ms, a :: as => by
    simp only [outShape, List.map_cons, ← outShape_map f keep z ms as]
    split
    · split <;> rfl
    · rfl

theorem merge_map {α β : Type} (f : α → β) : ∀ (m : List Bool) (a b : List α), (merge m a b).map f = merge m (a.map f) (b.map f)
  | [], _, _ => rfl
  | false :: _, [], _ => rfl
  | true :: _, _, [] => rfl
  | false :: m, o :: os, ks => by simp [merge, merge_map f m os ks]
  | true :: m, os, k :: ks => by simp [merge, merge_map f m os ks]

theorem outIx_map {α β : Type} (f : α → β) (keep : Bool) (z : α) : ∀ (m : List Bool) (a : List α),
    (outIx keep z m a).map f = outIx keep (f z) m (a.map f)
  | [], _ => rfl
  | false :: _, [] => rfl
  | false :: m, o :: os => by simp [outIx, outIx_map f keep z m os]
  | true :: m, os => by
    simp only [outIx, ← outIx_map f keep z m os]
    split <;> rfl

/-- the output index of kept coordinates lies in the output's shape -/
theorem outIx_range (keep : Bool) : ∀ (m : List Bool) (ns o : List Int), m.length = ns.length → InRange (pick false m ns) o →
    InRange (outShape keep 1 m ns) (outIx keep 0 m o)
  | [], [], o, _, h => by cases o <;> simp_all [pick, InRange, outShape, outIx]
  | false :: m, n :: ns, o, hl, h => by
    simp only [pick, if_true] at h
    cases o with
    | nil => simp [InRange] at h
    | cons a o =>
      simp only [InRange] at h
      simp only [outShape, outIx, Bool.false_eq_true, if_false, InRange]
      exact ⟨h.1, outIx_range keep m ns o (by simpa using hl) h.2⟩
  | true :: m, n :: ns, o, hl, h => by
    have h' : InRange (pick false m ns) o := by simpa [pick] using h
    have := outIx_range keep m ns o (by simpa using hl) h'
    simp only [outShape, outIx, if_true]
    split
    · simp only [InRange]; exact ⟨by omega, this⟩
    · exact this

/-- and every index of the output's shape is of this form -/
theorem outIx_onto (keep : Bool) : ∀ (m : List Bool) (ns p : List Int), m.length = ns.length → InRange (outShape keep 1 m ns) p →
    ∃ o, InRange (pick false m ns) o ∧ p = outIx keep 0 m o
  | [], [], p, _, h => by cases p <;> simp [outShape, InRange] at h; exact ⟨[], by simp [pick, InRange], rfl⟩
  | false :: m, n :: ns, p, hl, h => by
    simp only [outShape, Bool.false_eq_true, if_false] at h
    cases p with
    | nil => simp [InRange] at h
    | cons a p =>
      simp only [InRange] at h
      obtain ⟨o, h1, h2⟩ := outIx_onto keep m ns p (by simpa using hl) h.2
      exact ⟨a :: o, by simp only [pick, if_true, InRange]; exact ⟨h.1, h1⟩, by simp [outIx, h2]⟩
  | true :: m, n :: ns, p, hl, h => by
    simp only [outShape, if_true] at h
    have hpk : pick false (true :: m) (n :: ns) = pick false m ns := by simp [pick]
    rw [hpk]
    by_cases hk : keep = true
    · rw [if_pos hk] at h
      cases p with
      | nil => simp [InRange] at h
      | cons a p =>
        simp only [InRange] at h
        obtain ⟨o, h1, h2⟩ := outIx_onto keep m ns p (by simpa using hl) h.2
        have : a = 0 := by omega
        exact ⟨o, h1, by simp [outIx, hk, this, h2]⟩
    · rw [if_neg hk] at h
      obtain ⟨o, h1, h2⟩ := outIx_onto keep m ns p (by simpa using hl) h
      exact ⟨o, h1, by simp [outIx, hk, h2]⟩

theorem outIx_inj (keep : Bool) : ∀ (m : List Bool) (ns a b : List Int), m.length = ns.length → InRange (pick false m ns) a → InRange (pick false m ns) b →
    outIx keep (0 : Int) m a = outIx keep 0 m b → a = b
  | [], [], a, b, _, ha, hb, _ => by cases a <;> cases b <;> simp_all [pick, InRange]
  | false :: m, n :: ns, a, b, hl, ha, hb, h => by
    simp only [pick, if_true] at ha hb
    cases a with
    | nil => simp [InRange] at ha
    | cons a0 a =>
    cases b with
    | nil => simp [InRange] at hb
    | cons b0 b =>
    simp only [InRange] at ha hb
    simp only [outIx, List.cons.injEq] at h
    rw [h.1, outIx_inj keep m ns a b (by simpa using hl) ha.2 hb.2 h.2]
  | true :: m, n :: ns, a, b, hl, ha, hb, h => by
    have ha' : InRange (pick false m ns) a := by simpa [pick] using ha
    have hb' : InRange (pick false m ns) b := by simpa [pick] using hb
    simp only [outIx] at h
    refine outIx_inj keep m ns a b (by simpa using hl) ha' hb' ?_
    split at h
    · exact (List.cons.inj h).2
    · exact h

/-! ### boxes -/

theorem flatMap_one {α β : Type} {f : α → List β} {l : List α} (hnd : l.Nodup) {a : α} (ha : a ∈ l) (h : ∀ b ∈ l, b ≠ a → f b = []) : l.flatMap f = f a := by
  induction l with
  | nil => cases ha
  | cons b r ih =>
    rw [List.nodup_cons] at hnd
    rw [List.flatMap_cons]
    by_cases hb : b = a
    · subst hb
      have : r.flatMap f = [] := by
        rw [List.flatMap_eq_nil_iff]
        intro c hc
        exact h c (List.mem_cons_of_mem _ hc) (fun hcb => hnd.1 (hcb ▸ hc))
      rw [this, List.append_nil]
    · rw [h b List.mem_cons_self hb, List.nil_append]
      refine ih hnd.2 ?_ fun c hc => h c (List.mem_cons_of_mem _ hc)
      rcases List.mem_cons.mp ha with rfl | h'
      · exact absurd rfl hb
      · exact h'

theorem box_append (a b : List Int) : box (a ++ b) = (box a).flatMap fun o => (box b).map (o ++ ·) := by
  induction a with
  | nil => simp [box]
  | cons n r ih =>
    simp only [List.cons_append, box, ih, List.map_flatMap, List.flatMap_assoc, List.map_map, List.flatMap_map, Function.comp_def]

/-- the iterations that belong to one output element -/
theorem filter_outer {A : List Int → List Int} {a b o : List Int} (ho : InRange a o)
    (hA : ∀ p q, InRange a p → InRange a q → A p = A q → p = q) :
    (box (a ++ b)).filter (fun ix => A (ix.take a.length) = A o) = (box b).map (o ++ ·) := by
  have hlen : ∀ p, InRange a p → p.length = a.length := fun p hp => ((inRange_iff _ _).mp hp).1
  rw [box_append, List.filter_flatMap, flatMap_one (nodup_box a) ((mem_box _ _).mpr ho)]
  · rw [List.filter_eq_self.mpr]
    intro ix hix
    rw [List.mem_map] at hix
    obtain ⟨k, _, rfl⟩ := hix
    simp [← hlen o ho]
  · intro p hp hne
    rw [List.filter_eq_nil_iff]
    intro ix hix
    rw [List.mem_map] at hix
    obtain ⟨k, _, rfl⟩ := hix
    have hp' := (mem_box _ _).mp hp
    simp only [← hlen p hp', List.take_left', decide_eq_true_eq]
    exact fun h => hne (hA p o hp' ho h)

/-- in the order of the index tuples, the indices with given kept coordinates are the merges with all reduced coordinates -/
theorem filter_box : ∀ (m : List Bool) (ns o : List Int), m.length = ns.length → InRange (pick false m ns) o →
    (box ns).filter (fun i => pick false m i = o) = (box (pick true m ns)).map (merge m o)
  | [], [], o, _, h => by
    cases o <;> simp_all [pick, InRange, box, merge]
  | false :: m, n :: ns, o, hl, h => by
    simp only [pick, if_true] at h
    cases o with
    | nil => simp [InRange] at h
    | cons a o =>
    simp only [InRange] at h
    have ih := filter_box m ns o (by simpa using hl) h.2
    simp only [box, List.filter_flatMap, List.filter_map, Function.comp_def, pick, if_true]
    have hk : a.toNat ∈ List.range n.toNat := by simp only [List.mem_range]; omega
    rw [flatMap_one List.nodup_range hk]
    · have e : (fun i : List Int => decide (Int.ofNat a.toNat :: pick false m i = a :: o)) = fun i => decide (pick false m i = o) := by
        funext i
        have : Int.ofNat a.toNat = a := by simp; omega
        rw [this]
        simp
      rw [e, ih]
      simp only [List.map_map, Function.comp_def, merge, show (false = true) = False from by simp, if_false]
      have : Int.ofNat a.toNat = a := by simp; omega
      simp only [this]
    · intro k _ hne
      rw [List.map_eq_nil_iff, List.filter_eq_nil_iff]
      intro i _
      simp only [List.cons.injEq, decide_eq_true_eq, not_and]
      intro h'
      have h2 : (k : Int) = a := h'
      exact absurd (by omega : k = a.toNat) hne
  | true :: m, n :: ns, o, hl, h => by
    have h' : InRange (pick false m ns) o := by simpa [pick] using h
    have ih := filter_box m ns o (by simpa using hl) h'
    simp only [box, List.filter_flatMap, List.filter_map, Function.comp_def, pick, show (true = false) = False from by simp, if_false, if_true]
    rw [List.map_flatMap]
    congr 1
    funext k
    rw [ih]
    simp [List.map_map, Function.comp_def, merge]

/-! ### the reduction -/

/-- fresh loop variables for a reduction -/
structure RFresh (v : RVars) (Y ident : String) (keep : Bool) (mask : List Bool) (shape : List Expr) : Prop where
  nodup : v.all.Nodup
  is : v.is.length = (outShape keep (.int 1) mask shape).length
  os : v.os.length = (pick false mask shape).length
  ks : v.ks.length = (pick true mask shape).length
  out : Y ∉ v.all
  ident : ident ∉ v.all ∧ ident ≠ Y
  shape : ∀ e ∈ shape, ∀ x ∈ e.atoms, x ∉ v.all ∧ x ≠ Y

theorem mem_pick {α : Type} {b : Bool} {x : α} : ∀ {m : List Bool} {l : List α}, x ∈ pick b m l → x ∈ l
  | [], l, h => by cases l <;> cases h
  | _ :: _, [], h => by cases h
  | m :: ms, a :: as, h => by
    simp only [pick] at h
    split at h
    · rcases List.mem_cons.mp h with rfl | h
      · exact List.mem_cons_self
      · exact List.mem_cons_of_mem _ (mem_pick h)
    · exact List.mem_cons_of_mem _ (mem_pick h)

theorem mem_outShape {α : Type} {keep : Bool} {z x : α} : ∀ {m : List Bool} {l : List α}, x ∈ outShape keep z m l → x = z ∨ x ∈ l
  | [], l, h => by cases l <;> cases h
  | _ :: _, [], h => by cases h
  | m :: ms, a :: as, h => by
    simp only [outShape] at h
    split at h
    · split at h
      · rcases List.mem_cons.mp h with rfl | h
        · exact Or.inl rfl
        · exact (mem_outShape h).imp id (List.mem_cons_of_mem _)
      · exact (mem_outShape h).imp id (List.mem_cons_of_mem _)
    · rcases List.mem_cons.mp h with rfl | h
      · exact Or.inr List.mem_cons_self
      · exact (mem_outShape h).imp id (List.mem_cons_of_mem _)

theorem OpdOk.sub {E : Env} {σ : St} {vs ws : List String} {Y : String} {o : Opd} (h : OpdOk E σ vs Y o) (hs : ∀ x ∈ ws, x ∈ vs) : OpdOk E σ ws Y o :=
  ⟨h.conc, fun x hx => ⟨fun hw => (h.fresh x hx).1 (hs x hw), (h.fresh x hx).2⟩, fun hw => h.data (hs _ hw)⟩

theorem OpdOk.next {E : Env} {σ s : St} {vs : List String} {Y : String} {o : Opd} (h : OpdOk E σ vs Y o) (hd : During σ Y vs s) : OpdOk E s vs Y o := by
  refine ⟨⟨fun e he => ?_, ?_⟩, h.fresh, h.data⟩
  · obtain ⟨n, hn⟩ := h.conc.1 e he
    exact ⟨n, by rw [during_eval hd fun x hx => h.fresh x (List.mem_append_left _ ((Expr.mem_atomsL x _).mpr ⟨e, he, hx⟩))]; exact hn⟩
  · obtain ⟨n, hn⟩ := h.conc.2
    exact ⟨n, by rw [during_eval hd fun x hx => h.fresh x (List.mem_append_right _ hx)]; exact hn⟩

theorem OpdOk.elemAddr_next {E : Env} {σ s : St} {vs : List String} {Y : String} {o : Opd} (h : OpdOk E σ vs Y o) (hd : During σ Y vs s) (ix : List Int) :
    elemAddr E s o.ty ix = elemAddr E σ o.ty ix := by
  have h1 : o.ty.strides.map (s.ev E) = o.ty.strides.map (σ.ev E) :=
    List.map_congr_left fun e he => during_ev hd fun x hx => h.fresh x (List.mem_append_left _ ((Expr.mem_atomsL x _).mpr ⟨e, he, hx⟩))
  have h2 : s.ev E o.ty.offset = σ.ev E o.ty.offset := during_ev hd fun x hx => h.fresh x (List.mem_append_right _ hx)
  simp only [elemAddr, h1, h2]

/-- both nests, for a mask -/
theorem reduce_mask {E : Env} {σ : St} {op ident : String} {x y : Opd} {keep : Bool} {mask : List Bool} {shape : List Expr} {v : RVars}
    (hasg : ∀ a, E.op "assign" [a] = a) (hm : mask.length = shape.length) (hv : RFresh v y.data ident keep mask shape)
    (hx : OpdOk E σ v.all y.data x) (hy : OpdOk E σ v.all y.data y) (hxy : x.data ≠ y.data)
    (hinj : Injective E σ y.ty (outShape keep 1 mask (shape.map (σ.ev E)))) :
    Fills E σ (initNest ident y keep mask shape v.is ++ redNest op x y keep mask shape v.os v.ks) v.all y.data
      (InRange (pick false mask (shape.map (σ.ev E)))) (fun o => elemAddr E σ y.ty (outIx keep 0 mask o))
      (fun o => (fibre mask (shape.map (σ.ev E)) o).foldl (fun acc i => E.op op [x.elem E σ i, acc]) (σ ident [])) := by
  have hall : ∀ a, a ∈ v.is ∨ a ∈ v.os ++ v.ks → a ∈ v.all := fun a h => by simpa [RVars.all] using h
  have hnd := hv.nodup
  rw [RVars.all, List.nodup_append] at hnd
  have hml : mask.length = (shape.map (σ.ev E)).length := by simpa using hm
  have hone : ∀ e, σ.ev E (.int e) = e := fun e => by rw [St.ev_int]
  have houtV : (outShape keep (.int 1) mask shape).map (σ.ev E) = outShape keep 1 mask (shape.map (σ.ev E)) := by
    rw [outShape_map, hone]
  -- initialisation
  have hinit := point_fills (E := E) (σ := σ) (op := "assign") (ins := [⟨⟨ident, .ofShape y.ty.elem []⟩, [], fun _ => []⟩]) (out := y) (oix := syms v.is)
    (fo := id) (m := true) (vs := v.is) (shape := outShape keep (.int 1) mask shape)
    ⟨hnd.1, hv.is, fun h => hv.out (hall _ (Or.inl h)), fun e he a ha => by
      rcases mem_outShape he with rfl | he
      · simp [Expr.atoms] at ha
      · exact ⟨fun h => (hv.shape e he a ha).1 (hall _ (Or.inl h)), (hv.shape e he a ha).2⟩⟩
    (by
      intro p hp
      rw [List.mem_singleton] at hp
      subst hp
      refine ⟨⟨⟨fun e he => ?_, ⟨0, rfl⟩⟩, fun a ha => ?_, fun h => hv.ident.1 (hall _ (Or.inl h))⟩, Or.inl hv.ident.2, fun _ => rfl⟩
      · simp [Tensor.ofShape, stridesFromShape] at he
      · simp [Tensor.ofShape, stridesFromShape, tySyms, Expr.atomsL, Expr.atoms] at ha)
    (hy.sub fun a ha => hall a (Or.inl ha)) (fun s => vals_syms E s v.is)
    (fun a b ha hb h => hinj a b (houtV ▸ ha) (houtV ▸ hb) h)
  rw [houtV] at hinit
  obtain ⟨σ1, i1, i2, i3⟩ := hinit
  have hd1 : During σ y.data v.all σ1 := by
    intro a ha hav
    funext j
    exact i3 a j (fun h => hav (hall _ (Or.inl h))) fun h => absurd h ha
  -- reduction
  have hvs : ∀ {a b : List Expr}, v.os.length = a.length → v.ks.length = b.length → (dims true v.os a ++ dims false v.ks b).map (·.2.1) = v.os ++ v.ks := by
    intro a b ha hb
    rw [List.map_append, dims_vars ha, dims_vars hb]
  have hvs := hvs hv.os hv.ks
  have hx1 : OpdOk E σ1 (v.os ++ v.ks) y.data x := (hx.next hd1).sub fun a ha => hall a (Or.inr ha)
  have hy1 : OpdOk E σ1 (v.os ++ v.ks) y.data y := (hy.next hd1).sub fun a ha => hall a (Or.inr ha)
  have hix : ∀ s : St, ixOf (v.os ++ v.ks) s = ixOf v.os s ++ ixOf v.ks s := fun s => by simp [ixOf]
  have hmV : ∀ s : St, Vals (s.val E) (merge mask (syms v.os) (syms v.ks)) (merge mask (ixOf v.os s) (ixOf v.ks s)) := by
    intro s
    have h1 := vals_syms E s v.os
    have h2 := vals_syms E s v.ks
    unfold Vals at h1 h2 ⊢
    rw [merge_map, merge_map, h1, h2]
  have hoV : ∀ s : St, Vals (s.val E) (outIx keep (.int 0) mask (syms v.os)) (outIx keep 0 mask (ixOf v.os s)) := by
    intro s
    have h1 := vals_syms E s v.os
    unfold Vals at h1 ⊢
    rw [outIx_map, outIx_map, h1]
    rfl
  have hlo : ∀ s : St, (ixOf v.os s).length = (pick false mask (shape.map (σ.ev E))).length := by
    intro s
    rw [← pick_map, List.length_map]
    simpa [ixOf] using hv.os
  generalize hno : pick false mask (shape.map (σ.ev E)) = no at hlo
  have hext : ((dims true v.os (pick false mask shape) ++ dims false v.ks (pick true mask shape)).map fun d => σ1.ev E d.2.2) =
      no ++ pick true mask (shape.map (σ.ev E)) := by
    rw [List.map_append, ← hno, ← pick_map, ← pick_map]
    have hs : ∀ (m : Bool) (ws : List String) (l : List Expr), ws.length = l.length → (∀ e ∈ l, e ∈ shape) →
        (dims m ws l).map (fun d => σ1.ev E d.2.2) = l.map (σ.ev E) := by
      intro m ws l hl hsub
      have : (dims m ws l).map (fun d => σ1.ev E d.2.2) = ((dims m ws l).map (·.2.2)).map (σ1.ev E) := by simp [List.map_map, Function.comp_def]
      rw [this, dims_ext hl]
      exact List.map_congr_left fun e he => during_ev hd1 (hv.shape e (hsub e he))
    rw [hs true _ _ hv.os fun e he => mem_pick he, hs false _ _ hv.ks fun e he => mem_pick he]
  obtain ⟨σ2, r1, r2, r3⟩ := point_nest (E := E) (σ := σ1) (op := op)
    (ins := [x.ref (merge mask (syms v.os) (syms v.ks)), y.ref (outIx keep (.int 0) mask (syms v.os))]) (Y := y.data)
    (osub := sub y.ty (outIx keep (.int 0) mask (syms v.os))) (ds := dims true v.os (pick false mask shape) ++ dims false v.ks (pick true mask shape))
    (by rw [hvs]; exact hnd.2.1) (by rw [hvs]; exact fun h => hv.out (hall _ (Or.inr h)))
    (by
      intro d hd a ha
      rw [hvs]
      have he : d.2.2 ∈ shape := by
        rcases List.mem_append.mp hd with hd | hd
        · refine mem_pick (b := false) (m := mask) ?_
          rw [← dims_ext (m := true) hv.os]
          exact List.mem_map_of_mem hd
        · refine mem_pick (b := true) (m := mask) ?_
          rw [← dims_ext (m := false) hv.ks]
          exact List.mem_map_of_mem hd
      exact ⟨fun h => (hv.shape _ he a ha).1 (hall _ (Or.inr h)), (hv.shape _ he a ha).2⟩)
    (A := fun ix => elemAddr E σ y.ty (outIx keep 0 mask (ix.take no.length)))
    (F := fun ix acc => E.op op [x.elem E σ (merge mask (ix.take no.length) (ix.drop no.length)), acc])
    (by
      intro s hs
      rw [hvs] at hs ⊢
      rw [hix, ← hlo s, List.take_left', ← hy.elemAddr_next hd1]
      · exact sub_ev hs hy1.conc hy1.fresh (hoV s)
      · rfl)
    (by
      intro s hs
      rw [hvs] at hs ⊢
      rw [hix, ← hlo s, List.take_left' rfl, List.drop_left' rfl]
      simp only [List.map_cons, List.map_nil, Opd.ref]
      rw [sub_ev hs hx1.conc hx1.fresh (hmV s), sub_ev hs hy1.conc hy1.fresh (hoV s), hs _ hxy hx1.data, hd1 _ hxy hx.data,
        hx.elemAddr_next hd1, hy.elemAddr_next hd1]
      rfl)
    (s := σ1) (fun _ _ _ => rfl)
  rw [hext] at r3
  rw [hvs] at r2
  have hAinj : ∀ p q, InRange no p → InRange no q → elemAddr E σ y.ty (outIx keep 0 mask p) = elemAddr E σ y.ty (outIx keep 0 mask q) → p = q := by
    intro p q hp hq h
    rw [← hno] at hp hq
    exact outIx_inj keep mask _ p q hml hp hq (hinj _ _ (outIx_range keep mask _ p hml hp) (outIx_range keep mask _ q hml hq) h)
  refine ⟨σ2, fun c s => ?_, fun o ho => ?_, fun a j ha hj => ?_⟩
  · rw [Seq.den_append]
    constructor
    · rintro (⟨s1, h1, h2⟩ | ⟨h1, h2⟩)
      · obtain ⟨_, rfl⟩ := (i1 _ _).mp h1
        exact (r1 _ _).mp h2
      · exact absurd ((i1 _ _).mp h2).1 h1
    · rintro ⟨rfl, rfl⟩
      exact Or.inl ⟨σ1, (i1 _ _).mpr ⟨rfl, rfl⟩, (r1 _ _).mpr ⟨rfl, rfl⟩⟩
  · have ho' := ho
    rw [← hno] at ho'
    rw [r3, filter_outer ho hAinj]
    simp only [fibre, filter_box mask _ o hml ho', List.foldl_map]
    have := i2 _ (outIx_range keep mask _ o hml ho')
    simp only [id, List.map_cons, List.map_nil, hasg] at this
    rw [this]
    have hl := ((inRange_iff _ _).mp ho).1
    simp only [← hl, List.take_left' rfl, List.drop_left' rfl]
    rfl
  · by_cases haY : a = y.data
    · subst haY
      rw [r3, List.filter_eq_nil_iff.mpr]
      · simp only [List.foldl_nil]
        refine i3 _ j (fun h => ha (hall _ (Or.inl h))) fun _ p hp => ?_
        obtain ⟨o, h1, rfl⟩ := outIx_onto keep mask _ p hml hp
        exact hj rfl o (hno ▸ h1)
      · intro ix hix
        simp only [decide_eq_true_eq]
        intro h
        have hr := (mem_box _ _).mp hix
        rw [box_append, List.mem_flatMap] at hix
        obtain ⟨p, hp, hix⟩ := hix
        rw [List.mem_map] at hix
        obtain ⟨k, _, rfl⟩ := hix
        have hp' := (mem_box _ _).mp hp
        rw [List.take_left' ((inRange_iff _ _).mp hp').1] at h
        exact hj rfl p hp' h.symm
    · rw [r2 a haY fun h => ha (hall _ (Or.inr h)), hd1 a haY ha]

/-! ### axes -/

theorem normAxis_some {rank : Nat} {a : Int} (h1 : -(rank : Int) ≤ a) (h2 : a < rank) :
    normAxis rank a = some (if a < 0 then ((rank : Int) + a).toNat else a.toNat) := by
  unfold normAxis
  by_cases h : a < 0
  · simp only [if_pos h]; rw [if_neg (by omega)]
  · simp only [if_neg h]; rw [if_neg (by omega)]

theorem normAxes_some {rank : Nat} {axes : List Int} (h : ∀ a ∈ axes, -(rank : Int) ≤ a ∧ a < rank) :
    normAxes rank axes = some (axes.map fun a => if a < 0 then ((rank : Int) + a).toNat else a.toNat) := by
  unfold normAxes
  induction axes with
  | nil => rfl
  | cons a r ih =>
    rw [List.mapM_cons, normAxis_some (h a List.mem_cons_self).1 (h a List.mem_cons_self).2, ih fun b hb => h b (List.mem_cons_of_mem _ hb)]
    rfl

/-- exactly the out-of-bounds axes throw -/
theorem normAxes_none {rank : Nat} {axes : List Int} : normAxes rank axes = none ↔ ∃ a ∈ axes, a < -(rank : Int) ∨ (rank : Int) ≤ a := by
  constructor
  · intro h
    by_cases hc : ∃ a ∈ axes, a < -(rank : Int) ∨ (rank : Int) ≤ a
    · exact hc
    · rw [normAxes_some] at h
      · cases h
      · intro a ha
        constructor
        · exact Int.not_lt.mp fun h' => hc ⟨a, ha, Or.inl h'⟩
        · exact Int.not_le.mp fun h' => hc ⟨a, ha, Or.inr h'⟩
  · rintro ⟨a, ha, h⟩
    have hn : normAxis rank a = none := by
      unfold normAxis
      by_cases h0 : a < 0
      · simp only [if_pos h0]; rw [if_pos (by omega)]
      · simp only [if_neg h0]; rw [if_pos (by omega)]
    unfold normAxes
    induction axes with
    | nil => cases ha
    | cons b r ih =>
      rw [List.mapM_cons]
      rcases List.mem_cons.mp ha with rfl | ha
      · rw [hn]; rfl
      · rw [ih ha]
        cases normAxis rank b <;> rfl

theorem maskOf_axes {rank : Nat} {axes : List Int} (h : ∀ a ∈ axes, -(rank : Int) ≤ a ∧ a < rank) :
    maskOf rank (axes.map fun a => if a < 0 then ((rank : Int) + a).toNat else a.toNat) = axisMask rank axes := by
  unfold maskOf axisMask
  apply List.map_congr_left
  intro i hi
  rw [List.mem_range] at hi
  rw [Bool.eq_iff_iff, List.contains_iff_mem, List.mem_map, decide_eq_true_eq]
  constructor
  · rintro ⟨a, ha, h'⟩
    have := h a ha
    by_cases h0 : a < 0
    · rw [if_pos h0] at h'
      exact Or.inr ((by omega : a = (i : Int) - rank) ▸ ha)
    · rw [if_neg h0] at h'
      exact Or.inl ((by omega : a = (i : Int)) ▸ ha)
  · rintro (h' | h')
    · exact ⟨_, h', by rw [if_neg (by omega)]; omega⟩
    · exact ⟨_, h', by rw [if_pos (by omega)]; omega⟩

theorem axisMask_length (rank : Nat) (axes : List Int) : (axisMask rank axes).length = rank := by simp [axisMask]

/-- **C67 (reductions).** For axes within bounds the expansion succeeds, and the output element with kept coordinates `o` (and index 0 or nothing in
the reduced dimensions) is the fold of `op` over all input elements with these kept coordinates, in lexicographic order, from the identity. Missing
from the full property: input and output in one container, outputs whose elements overlap, other computations in the block. -/
theorem reduce_partial {E : Env} {σ : St} {op ident : String} {x y : Opd} {keep : Bool} {shape : List Expr} {axes : List Int} {v : RVars}
    (hasg : ∀ a, E.op "assign" [a] = a) (hax : ∀ a ∈ axes, -(shape.length : Int) ≤ a ∧ a < shape.length)
    (hv : RFresh v y.data ident keep (axisMask shape.length axes) shape)
    (hx : OpdOk E σ v.all y.data x) (hy : OpdOk E σ v.all y.data y) (hxy : x.data ≠ y.data)
    (hinj : Injective E σ y.ty (outShape keep 1 (axisMask shape.length axes) (shape.map (σ.ev E)))) :
    ∃ e, reduce op ident x y keep shape axes v = some e ∧
      Fills E σ e v.all y.data (InRange (pick false (axisMask shape.length axes) (shape.map (σ.ev E))))
        (fun o => elemAddr E σ y.ty (outIx keep 0 (axisMask shape.length axes) o))
        (fun o => (fibre (axisMask shape.length axes) (shape.map (σ.ev E)) o).foldl (fun acc i => E.op op [x.elem E σ i, acc]) (σ ident [])) := by
  refine ⟨_, by rw [reduce, normAxes_some hax]; rfl, ?_⟩
  simp only [maskOf_axes hax]
  exact reduce_mask hasg (axisMask_length _ _) hv hx hy hxy hinj

theorem Fills.congr {E : Env} {σ : St} {e : Seq} {vs : List String} {Y : String} {dom : List Int → Prop} {A : List Int → List Int} {V W : List Int → Int}
    (h : Fills E σ e vs Y dom A V) (hVW : ∀ i, dom i → V i = W i) : Fills E σ e vs Y dom A W := by
  obtain ⟨σ', h1, h2, h3⟩ := h
  exact ⟨σ', h1, fun i hi => (h2 i hi).trans (hVW i hi), h3⟩

theorem foldl_sum (f : List Int → Int) (l : List (List Int)) (z : Int) : l.foldl (fun acc i => f i + acc) z = (l.map f).sum + z := by
  induction l generalizing z with
  | nil => simp
  | cons a r ih => rw [List.foldl_cons, ih, List.map_cons, List.sum_cons]; omega

/-- **C67 (Sum).** The sum of the elements with these kept coordinates. -/
theorem sum_partial {E : Env} {σ : St} {add ident : String} {x y : Opd} {keep : Bool} {shape : List Expr} {axes : List Int} {v : RVars}
    (hasg : ∀ a, E.op "assign" [a] = a) (hadd : ∀ a b, E.op add [a, b] = a + b) (hzero : σ ident [] = 0)
    (hax : ∀ a ∈ axes, -(shape.length : Int) ≤ a ∧ a < shape.length)
    (hv : RFresh v y.data ident keep (axisMask shape.length axes) shape)
    (hx : OpdOk E σ v.all y.data x) (hy : OpdOk E σ v.all y.data y) (hxy : x.data ≠ y.data)
    (hinj : Injective E σ y.ty (outShape keep 1 (axisMask shape.length axes) (shape.map (σ.ev E)))) :
    ∃ e, reduce add ident x y keep shape axes v = some e ∧
      Fills E σ e v.all y.data (InRange (pick false (axisMask shape.length axes) (shape.map (σ.ev E))))
        (fun o => elemAddr E σ y.ty (outIx keep 0 (axisMask shape.length axes) o))
        (fun o => ((fibre (axisMask shape.length axes) (shape.map (σ.ev E)) o).map (x.elem E σ)).sum) := by
  obtain ⟨e, h1, h2⟩ := reduce_partial (op := add) hasg hax hv hx hy hxy hinj
  refine ⟨e, h1, h2.congr fun o _ => ?_⟩
  simp only [hadd, hzero, foldl_sum, Int.add_zero]

theorem foldl_max (f : List Int → Int) : ∀ (l : List (List Int)) (z : Int), let r := l.foldl (fun acc i => max (f i) acc) z
    z ≤ r ∧ (∀ i ∈ l, f i ≤ r) ∧ (r = z ∨ ∃ i ∈ l, r = f i)
  | [], z => by simp
  | a :: l, z => by
    obtain ⟨h1, h2, h3⟩ := foldl_max f l (max (f a) z)
    simp only [List.foldl_cons]
    refine ⟨by omega, fun i hi => ?_, ?_⟩
    · rcases List.mem_cons.mp hi with rfl | hi
      · omega
      · exact h2 i hi
    · rcases h3 with h3 | ⟨i, hi, h3⟩
      · rw [h3]
        rcases Int.le_total (f a) z with h | h
        · left; omega
        · right; exact ⟨a, List.mem_cons_self, by omega⟩
      · exact Or.inr ⟨i, List.mem_cons_of_mem _ hi, h3⟩

/-- **C67 (Max).** The greatest of the elements with these kept coordinates, if there are any and the identity is below all of them. -/
theorem max_partial {E : Env} {σ : St} {mx ident : String} {x y : Opd} {keep : Bool} {shape : List Expr} {axes : List Int} {v : RVars}
    (hasg : ∀ a, E.op "assign" [a] = a) (hmax : ∀ a b, E.op mx [a, b] = max a b)
    (hax : ∀ a ∈ axes, -(shape.length : Int) ≤ a ∧ a < shape.length)
    (hv : RFresh v y.data ident keep (axisMask shape.length axes) shape)
    (hx : OpdOk E σ v.all y.data x) (hy : OpdOk E σ v.all y.data y) (hxy : x.data ≠ y.data)
    (hinj : Injective E σ y.ty (outShape keep 1 (axisMask shape.length axes) (shape.map (σ.ev E))))
    (hmin : ∀ i, InRange (shape.map (σ.ev E)) i → σ ident [] ≤ x.elem E σ i) :
    ∃ e σ', reduce mx ident x y keep shape axes v = some e ∧ (∀ c s, e.den E σ c s ↔ c = .normal ∧ s = σ') ∧
      ∀ o, InRange (pick false (axisMask shape.length axes) (shape.map (σ.ev E))) o → fibre (axisMask shape.length axes) (shape.map (σ.ev E)) o ≠ [] →
        (∃ i ∈ fibre (axisMask shape.length axes) (shape.map (σ.ev E)) o,
          σ' y.data (elemAddr E σ y.ty (outIx keep 0 (axisMask shape.length axes) o)) = x.elem E σ i) ∧
        ∀ i ∈ fibre (axisMask shape.length axes) (shape.map (σ.ev E)) o,
          x.elem E σ i ≤ σ' y.data (elemAddr E σ y.ty (outIx keep 0 (axisMask shape.length axes) o)) := by
  obtain ⟨e, h1, σ', h2, h3, _⟩ := reduce_partial (op := mx) hasg hax hv hx hy hxy hinj
  refine ⟨e, σ', h1, h2, fun o ho hne => ?_⟩
  rw [h3 o ho]
  simp only [hmax]
  obtain ⟨_, k2, k3⟩ := foldl_max (x.elem E σ) (fibre (axisMask shape.length axes) (shape.map (σ.ev E)) o) (σ ident [])
  refine ⟨?_, k2⟩
  rcases k3 with k3 | k3
  · obtain ⟨i, l, hl⟩ := List.exists_cons_of_ne_nil hne
    have hi : i ∈ fibre (axisMask shape.length axes) (shape.map (σ.ev E)) o := by rw [hl]; exact List.mem_cons_self
    refine ⟨i, hi, ?_⟩
    have hr := hmin i ((mem_box _ _).mp (List.mem_filter.mp hi).1)
    have := k2 i hi
    omega
  · exact k3

end Docc.Expand
