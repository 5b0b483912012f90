import Verif.Expand.TensorLemmas
/-
C66: the expansions of elementwise tensor nodes, TransposeNode and BroadcastNode compute the tensors the nodes denote.
-/
namespace Docc.Expand
open Docc.Sym Docc.IR Docc.Types

/-- Specification: the program terminates normally, in one state only; there the element `A ix` of `Y` is `V ix` for every index of the domain;
nothing else but the program's own variables `vs` has changed. -/
def Fills (E : Env) (σ : St) (e : Seq) (vs : List String) (Y : String) (dom : List Int → Prop) (A : List Int → List Int) (V : List Int → Int) : Prop :=
  ∃ σ', (∀ c s, e.den E σ c s ↔ c = .normal ∧ s = σ') ∧ (∀ ix, dom ix → σ' Y (A ix) = V ix) ∧
    ∀ x j, x ∉ vs → (x = Y → ∀ ix, dom ix → j ≠ A ix) → σ' x j = σ x j

/-- an input of the innermost tasklet: operand, index expressions, and the index they denote -/
structure In where
  o : Opd
  ix : List Expr
  f : List Int → List Int

theorem point_fills {E : Env} {σ : St} {op : String} {ins : List In} {out : Opd} {oix : List Expr} {fo : List Int → List Int} {m : Bool}
    {vs : List String} {shape : List Expr} (hv : FreshVars vs out.data shape)
    (hin : ∀ p ∈ ins, OpdOk E σ vs out.data p.o ∧ (p.o.data ≠ out.data ∨ ∀ ix, elemAddr E σ p.o.ty (p.f ix) = elemAddr E σ out.ty (fo ix)) ∧
      ∀ s : St, Vals (s.val E) p.ix (p.f (ixOf vs s)))
    (ho : OpdOk E σ vs out.data out) (hoV : ∀ s : St, Vals (s.val E) oix (fo (ixOf vs s)))
    (hinj : ∀ a b, InRange (shape.map (σ.ev E)) a → InRange (shape.map (σ.ev E)) b → elemAddr E σ out.ty (fo a) = elemAddr E σ out.ty (fo b) → a = b) :
    Fills E σ (nest (point op (ins.map fun p => p.o.ref p.ix) (out.ref oix)) (dims m vs shape)) vs out.data (InRange (shape.map (σ.ev E)))
      (fun ix => elemAddr E σ out.ty (fo ix)) (fun ix => E.op op (ins.map fun p => p.o.elem E σ (p.f ix))) := by
  have hvs : (dims m vs shape).map (·.2.1) = vs := dims_vars hv.rank
  have hns : ((dims m vs shape).map fun d => σ.ev E d.2.2) = shape.map (σ.ev E) := by
    rw [← dims_ext (m := m) hv.rank, List.map_map]
    simp [Function.comp_def, dims_ext hv.rank]
  have := point_nest (E := E) (σ := σ) (op := op) (ins := ins.map fun p => p.o.ref p.ix) (Y := out.data) (osub := sub out.ty oix)
    (ds := dims m vs shape) (by rw [hvs]; exact hv.nodup) (by rw [hvs]; exact hv.out)
    (by
      intro d hd x hx
      rw [hvs]
      refine hv.shape d.2.2 ?_ x hx
      rw [← dims_ext (m := m) hv.rank]
      exact List.mem_map_of_mem hd)
    (A := fun ix => elemAddr E σ out.ty (fo ix))
    (F := fun ix acc => E.op op (ins.map fun p => if p.o.data = out.data then acc else p.o.elem E σ (p.f ix)))
    (by
      intro s hs
      rw [hvs] at hs ⊢
      exact sub_ev hs ho.conc ho.fresh (hoV s))
    (by
      intro s hs
      rw [hvs] at hs ⊢
      congr 1
      rw [List.map_map]
      apply List.map_congr_left
      intro p hp
      obtain ⟨h1, h2, h3⟩ := hin p hp
      simp only [Function.comp_def, Opd.ref]
      rw [sub_ev hs h1.conc h1.fresh (h3 s)]
      by_cases hd : p.o.data = out.data
      · rw [if_pos hd]
        rcases h2 with h | h
        · exact absurd hd h
        · rw [h, hd]
      · rw [if_neg hd, Opd.elem, hs _ hd h1.data])
    (s := σ) (fun _ _ _ => rfl)
  obtain ⟨σ', h1, h2, h3⟩ := this
  rw [hns] at h3
  rw [hvs] at h2
  refine ⟨σ', h1, fun ix hix => ?_, fun x j hx hj => ?_⟩
  · rw [h3, filter_one (nodup_box _) (fun a ha b hb => hinj a b ((mem_box _ _).mp ha) ((mem_box _ _).mp hb)) ((mem_box _ _).mpr hix)]
    simp only [List.foldl_cons, List.foldl_nil]
    congr 1
    apply List.map_congr_left
    intro p hp
    by_cases hd : p.o.data = out.data
    · rw [if_pos hd]
      rcases (hin p hp).2.1 with h | h
      · exact absurd hd h
      · rw [Opd.elem, h, hd]
    · rw [if_neg hd]
  · by_cases hxY : x = out.data
    · subst hxY
      rw [h3, List.filter_eq_nil_iff.mpr]
      · rfl
      · intro ix hix
        simp only [decide_eq_true_eq]
        exact fun h => hj rfl ix ((mem_box _ _).mp hix) h.symm
    · rw [h2 x hxY hx]

/-- **C66 (elementwise nodes, fills).** `Y[i] = op(X1[i], ..., Xk[i])` for every index of the shape, and nothing else changes. Missing from the full
property: inputs that share memory with the output under another layout, outputs whose elements overlap, and other computations in the block. -/
theorem elementwise_partial {E : Env} {σ : St} {op : String} {ins : List Opd} {out : Opd} {shape : List Expr} {vs : List String}
    (hv : FreshVars vs out.data shape) (hin : ∀ o ∈ ins, OpdOk E σ vs out.data o ∧ Apart E σ o out) (ho : OpdOk E σ vs out.data out)
    (hinj : Injective E σ out.ty (shape.map (σ.ev E))) :
    Fills E σ (elementwise op ins out shape vs) vs out.data (InRange (shape.map (σ.ev E))) (elemAddr E σ out.ty)
      (fun ix => E.op op (ins.map (·.elem E σ ix))) := by
  have := point_fills (E := E) (σ := σ) (op := op) (ins := ins.map fun o => ⟨o, syms vs, id⟩) (out := out) (oix := syms vs) (fo := id) (m := true) hv
    (by
      intro p hp
      rw [List.mem_map] at hp
      obtain ⟨o, ho, rfl⟩ := hp
      exact ⟨(hin o ho).1, (hin o ho).2, fun s => vals_syms E s vs⟩)
    ho (fun s => vals_syms E s vs) (fun a b ha hb h => hinj a b ha hb h)
  simpa [elementwise, List.map_map, Function.comp_def] using this

/-! ### transposition -/

/-- the index (or shape) with permuted dimensions -/
def permuted (perm : List Nat) (ix : List Int) : List Int := perm.map fun p => ix.getD p 0

theorem inRange_iff (ns ix : List Int) : InRange ns ix ↔ ix.length = ns.length ∧ ∀ k, k < ns.length → 0 ≤ ix.getD k 0 ∧ ix.getD k 0 < ns.getD k 0 := by
  induction ns generalizing ix with
  | nil =>
    cases ix <;> simp [InRange]
  | cons n r ih =>
    cases ix with
    | nil => simp [InRange]
    | cons a s =>
      simp only [InRange, ih, List.length_cons, Nat.add_right_cancel_iff]
      constructor
      · rintro ⟨h1, h2, h3⟩
        refine ⟨h2, fun k hk => ?_⟩
        cases k with
        | zero => simpa using h1
        | succ k => simpa using h3 k (by omega)
      · rintro ⟨h2, h3⟩
        exact ⟨by simpa using h3 0 (by omega), h2, fun k hk => by simpa using h3 (k + 1) (by omega)⟩

theorem permuted_getD (perm : List Nat) (ix : List Int) (k : Nat) (hk : k < perm.length) : (permuted perm ix).getD k 0 = ix.getD (perm.getD k 0) 0 := by
  simp [permuted, List.getD, hk]

theorem permuted_range {perm : List Nat} {ns ix : List Int} (hp : ∀ p ∈ perm, p < ns.length) (h : InRange ns ix) :
    InRange (permuted perm ns) (permuted perm ix) := by
  rw [inRange_iff] at h ⊢
  refine ⟨by simp [permuted], fun k hk => ?_⟩
  have hk' : k < perm.length := by simpa [permuted] using hk
  rw [permuted_getD _ _ _ hk', permuted_getD _ _ _ hk']
  refine h.2 _ (hp _ ?_)
  simp [List.getD, hk']

theorem permuted_inj {perm : List Nat} {n : Nat} (hp : ∀ k, k < n → k ∈ perm) {a b : List Int} (ha : a.length = n) (hb : b.length = n)
    (h : permuted perm a = permuted perm b) : a = b := by
  apply List.ext_getElem (by omega)
  intro k h1 h2
  have := (List.map_inj_left.mp h) k (hp k (by omega))
  simpa [List.getD, h1, h2] using this

/-- every index of the permuted shape is the permutation of an index of the shape -/
theorem permuted_onto {perm : List Nat} {ns : List Int} (hp : perm.Perm (List.range ns.length)) {o : List Int} (h : InRange (permuted perm ns) o) :
    ∃ ix, InRange ns ix ∧ permuted perm ix = o := by
  rw [inRange_iff] at h
  have hl : perm.length = ns.length := by simpa using hp.length_eq
  have hnd : perm.Nodup := hp.nodup_iff.mpr List.nodup_range
  have hol : o.length = ns.length := by rw [h.1]; simp [permuted, hl]
  have hidx : ∀ k (hk : k < perm.length), perm.idxOf perm[k] = k := fun k hk => hnd.idxOf_getElem k hk
  have hget : ∀ k, k < ns.length → ((List.range ns.length).map fun k => o.getD (perm.idxOf k) 0).getD k 0 = o.getD (perm.idxOf k) 0 := by
    intro k hk
    simp [List.getD, hk]
  refine ⟨(List.range ns.length).map fun k => o.getD (perm.idxOf k) 0, ?_, ?_⟩
  · rw [inRange_iff]
    refine ⟨by simp, fun k hk => ?_⟩
    rw [hget k hk]
    have hm : k ∈ perm := hp.mem_iff.mpr (by simpa using hk)
    have hlt : perm.idxOf k < perm.length := List.idxOf_lt_length_of_mem hm
    have := h.2 (perm.idxOf k) (by simpa [permuted] using hlt)
    rw [permuted_getD _ ns _ hlt] at this
    simpa [List.getD, hlt] using this
  · apply List.ext_getElem (by simp [permuted, hl, hol])
    intro k h1 h2
    have hk : k < perm.length := by simpa [permuted] using h1
    have hm : perm[k] < ns.length := by simpa using hp.mem_iff.mp (List.getElem_mem hk)
    simp only [permuted, List.getElem_map]
    rw [hget _ hm, hidx k hk]
    simp [List.getD, h2]

theorem mapM_get (perm : List Nat) (l : List Expr) (h : ∀ p ∈ perm, p < l.length) :
    (perm.mapM fun p => l[p]?) = some (perm.map fun p => l.getD p (.int 0)) := by
  induction perm with
  | nil => rfl
  | cons p r ih =>
    have hp := h p List.mem_cons_self
    rw [List.mapM_cons, ih fun q hq => h q (List.mem_cons_of_mem _ hq)]
    simp [hp, List.getD]

/-- **C66 (TransposeNode).** For a permutation `q` of the dimensions, or none, which means reversal, the expansion succeeds and `Y[ix permuted] = X[ix]`, for every index of the input's
shape; these are all elements of the permuted shape (`permuted_onto`). Missing: transposition within one container, other computations in the block. -/
theorem transpose_partial {E : Env} {σ : St} {x y : Opd} {shape : List Expr} {perm q : List Nat} {vs : List String}
    (hasg : ∀ v, E.op "assign" [v] = v)
    (hperm : (perm = [] ∧ q = (List.range shape.length).reverse) ∨ (perm = q ∧ perm ≠ [] ∧ q.Perm (List.range shape.length)))
    (hv : FreshVars vs y.data shape) (hx : OpdOk E σ vs y.data x) (hy : OpdOk E σ vs y.data y) (hxy : x.data ≠ y.data)
    (hinj : Injective E σ y.ty (permuted q (shape.map (σ.ev E)))) :
    ∃ e, transpose x y shape perm vs = some e ∧
      Fills E σ e vs y.data (InRange (shape.map (σ.ev E))) (fun ix => elemAddr E σ y.ty (permuted q ix)) (fun ix => x.elem E σ ix) := by
  have hq : permOf shape perm = q := by
    rcases hperm with ⟨rfl, rfl⟩ | ⟨rfl, h, _⟩
    · rfl
    · exact if_neg h
  have hP : q.Perm (List.range shape.length) := by
    rcases hperm with ⟨_, rfl⟩ | ⟨_, _, h⟩
    · exact List.reverse_perm _
    · exact h
  have hlt : ∀ p ∈ q, p < shape.length := fun p hp => by simpa using hP.mem_iff.mp hp
  refine ⟨nest (point "assign" [x.ref (syms vs)] (y.ref (q.map fun p => (syms vs).getD p (.int 0)))) (dims true vs shape), ?_, ?_⟩
  · rw [transpose, hq, mapM_get q (syms vs) (fun p hp => by simpa [syms, hv.rank] using hlt p hp)]
    rfl
  · have := point_fills (E := E) (σ := σ) (op := "assign") (ins := [⟨x, syms vs, id⟩]) (out := y)
      (oix := q.map fun p => (syms vs).getD p (.int 0)) (fo := permuted q) (m := true) hv
      (by
        intro p hp
        rw [List.mem_singleton] at hp
        subst hp
        exact ⟨hx, Or.inl hxy, fun s => vals_syms E s vs⟩)
      hy
      (by
        intro s
        unfold Vals
        simp only [permuted, List.map_map]
        apply List.map_congr_left
        intro p hp
        have := hlt p hp
        rw [← hv.rank] at this
        simp [List.getD, syms, ixOf, this, Expr.eval, St.val])
      (by
        intro a b ha hb h
        have hla : a.length = shape.length := by simpa using ((inRange_iff _ _).mp ha).1
        have hlb : b.length = shape.length := by simpa using ((inRange_iff _ _).mp hb).1
        have hlt' : ∀ p ∈ q, p < (shape.map (σ.ev E)).length := by simpa using hlt
        exact permuted_inj (n := shape.length) (fun k hk => hP.mem_iff.mpr (by simpa using hk)) hla hlb
          (hinj _ _ (permuted_range hlt' ha) (permuted_range hlt' hb) h))
    simpa [hasg] using this

/-! ### broadcasting -/

/-- the element of the input that an index of the output reads (NumPy): index 0 in dimensions of extent 1 -/
def stretched : List Int → List Int → List Int
  | n :: ns, i :: is => (if n = 1 then 0 else i) :: stretched ns is
  | _, _ => []

/-- the shapes match: each dimension of the input is literally 1 or has the extent of the output -/
inductive Match (E : Env) (σ : St) : List Expr → List Expr → Prop
  | nil : Match E σ [] []
  | cons {a b r s} (h : a = .int 1 ∨ σ.ev E a = σ.ev E b) (hr : Match E σ r s) : Match E σ (a :: r) (b :: s)

theorem Match.length {E : Env} {σ : St} {a b : List Expr} (h : Match E σ a b) : a.length = b.length := by
  induction h with
  | nil => rfl
  | cons _ _ ih => simp [ih]

/-- the index the expansion computes, as a function of the values of the loop variables -/
def bcast : List Expr → List Int → List Int
  | e :: r, i :: is => (if e = .int 1 then 0 else i) :: bcast r is
  | _, _ => []

theorem broadcastIx_vals (E : Env) : ∀ (sh : List Expr) (vs : List String), sh.length = vs.length →
    ∃ iix, broadcastIx sh (syms vs) = some iix ∧ ∀ s : St, Vals (s.val E) iix (bcast sh (ixOf vs s))
  | [], [], _ => ⟨[], rfl, fun _ => rfl⟩
  | e :: r, v :: vs, h => by
    obtain ⟨iix, h1, h2⟩ := broadcastIx_vals E r vs (by simpa using h)
    refine ⟨(if e = .int 1 then .int 0 else .sym v) :: iix, by rw [syms, List.map_cons, broadcastIx, show vs.map Expr.sym = syms vs from rfl, h1]; rfl, fun s => ?_⟩
    have := h2 s
    simp only [ixOf, List.map_cons, bcast, Vals, List.cons.injEq] at this ⊢
    refine ⟨?_, this⟩
    split <;> simp [Expr.eval, St.val]

theorem bcast_stretched {E : Env} {σ : St} {a b : List Expr} (h : Match E σ a b) : ∀ ix, InRange (b.map (σ.ev E)) ix →
    bcast a ix = stretched (a.map (σ.ev E)) ix := by
  induction h with
  | nil => intro ix _; cases ix <;> rfl
  | @cons a b r s h _ ih =>
    intro ix hix
    cases ix with
    | nil => rfl
    | cons i is =>
      simp only [List.map_cons, InRange] at hix
      simp only [bcast, List.map_cons, stretched, ih is hix.2, List.cons.injEq, and_true]
      by_cases ha : a = .int 1
      · subst ha
        simp [St.ev_int]
      · rw [if_neg ha]
        split
        · rename_i h1
          rcases h with h | h
          · exact absurd h ha
          · rw [← h, h1] at hix; omega
        · rfl

/-- **C66 (BroadcastNode).** `Y[ix] = X[ix with 0 in the dimensions of extent 1]`. Missing: input extents that only happen to be 1, an input of lower
rank, an output of rank 0, input and output in one container, and the assignments of the block's transition (all refuted in `TensorViol`). -/
theorem broadcast_partial {E : Env} {σ : St} {x y : Opd} {inShape outShape : List Expr} {vs : List String}
    (hasg : ∀ v, E.op "assign" [v] = v) (hne : outShape ≠ []) (hm : Match E σ inShape outShape) (hsh : x.ty.shape ≠ [])
    (hv : FreshVars vs y.data outShape) (hx : OpdOk E σ vs y.data x) (hy : OpdOk E σ vs y.data y) (hxy : x.data ≠ y.data)
    (hinj : Injective E σ y.ty (outShape.map (σ.ev E))) :
    ∃ e, broadcast x y inShape outShape vs = some e ∧
      Fills E σ e vs y.data (InRange (outShape.map (σ.ev E))) (elemAddr E σ y.ty) (fun ix => x.elem E σ (stretched (inShape.map (σ.ev E)) ix)) := by
  obtain ⟨iix, h1, h2⟩ := broadcastIx_vals E inShape vs (by rw [hm.length, hv.rank])
  refine ⟨_, by rw [broadcast, if_neg hne, if_neg hsh, h1]; rfl, ?_⟩
  obtain ⟨σ', k1, k2, k3⟩ := point_fills (E := E) (σ := σ) (op := "assign") (ins := [⟨x, iix, bcast inShape⟩]) (out := y) (oix := syms vs) (fo := id) (m := true) hv
    (by
      intro p hp
      rw [List.mem_singleton] at hp
      subst hp
      exact ⟨hx, Or.inl hxy, h2⟩)
    hy (fun s => vals_syms E s vs) (fun a b ha hb h => hinj a b ha hb h)
  refine ⟨σ', by simpa using k1, fun ix hix => ?_, fun z j hz hj => k3 z j hz (by simpa using hj)⟩
  have := k2 ix hix
  simp only [List.map_cons, List.map_nil, hasg, id] at this
  rw [this, bcast_stretched hm ix hix]

/-- a scalar input is copied everywhere -/
theorem broadcast_scalar_partial {E : Env} {σ : St} {x y : Opd} {inShape outShape : List Expr} {vs : List String}
    (hasg : ∀ v, E.op "assign" [v] = v) (hne : outShape ≠ []) (hsh : x.ty.shape = [])
    (hv : FreshVars vs y.data outShape) (hx : OpdOk E σ vs y.data x) (hy : OpdOk E σ vs y.data y) (hxy : x.data ≠ y.data)
    (hinj : Injective E σ y.ty (outShape.map (σ.ev E))) :
    ∃ e, broadcast x y inShape outShape vs = some e ∧
      Fills E σ e vs y.data (InRange (outShape.map (σ.ev E))) (elemAddr E σ y.ty) (fun _ => σ x.data []) := by
  refine ⟨_, by rw [broadcast, if_neg hne, if_pos hsh]; rfl, ?_⟩
  have := point_fills (E := E) (σ := σ) (op := "assign") (ins := [⟨x, [], fun _ => []⟩]) (out := y) (oix := syms vs) (fo := id) (m := true) hv
    (by
      intro p hp
      rw [List.mem_singleton] at hp
      subst hp
      exact ⟨hx, Or.inl hxy, fun _ => rfl⟩)
    hy (fun s => vals_syms E s vs) (fun a b ha hb h => hinj a b ha hb h)
  obtain ⟨σ', k1, k2, k3⟩ := this
  refine ⟨σ', by simpa using k1, fun ix hix => ?_, fun z j hz hj => k3 z j hz (by simpa using hj)⟩
  have := k2 ix hix
  simp only [List.map_cons, List.map_nil, hasg, id, Opd.elem] at this
  rw [this, elemAddr, if_pos hsh]

/-! ### the surroundings -/

/-- A new sequence in the place of the block: first the nest, then the assignments of the transition. -/
theorem put_den (E : Env) (site : Site) (e : Seq) : (site.put e).den E = Rel.seq (e.den E) (Rel.upd (runTrans E site.trans)) := by
  show Rel.seq (e.den E) (Rel.seq (Rel.upd (runTrans E site.trans)) (Rel.upd id)) = _
  rw [Rel.seq_skip]

/-- row-major tensors satisfy the injectivity the theorems ask for -/
theorem rowMajor_injective {E : Env} {σ : St} {p : Prim} {shape : List Expr} {off : Expr} (hs : ∀ e ∈ shape, σ.defd E e) :
    Injective E σ ⟨p, shape, stridesFromShape shape, off⟩ (shape.map (σ.ev E)) := by
  intro a b ha hb h
  have hst := stridesFromShape_vals shape (vals_of_concrete hs)
  have hst2 : (stridesFromShape shape).map (σ.ev E) = rowMajor (shape.map (σ.ev E)) := by
    have h2 : ∀ (l : List Expr) (ns : List Int), Vals (σ.val E) l ns → l.map (σ.ev E) = ns := by
      intro l
      induction l with
      | nil => intro ns h; cases ns with | nil => rfl | cons => cases h
      | cons e r ih =>
        intro ns h
        cases ns with
        | nil => cases h
        | cons n ns =>
          simp only [Vals, List.map_cons, List.cons.injEq] at h
          simp [St.ev_of_eval h.1, ih ns h.2]
    exact h2 _ _ hst
  unfold elemAddr at h
  by_cases hsh : shape = []
  · subst hsh
    cases a <;> cases b <;> simp [InRange] at ha hb
    rfl
  · simp only [if_neg hsh, List.cons.injEq, and_true, addr, hst2, dot_rowMajor] at h
    exact rank_injective ha hb (by omega)

end Docc.Expand
