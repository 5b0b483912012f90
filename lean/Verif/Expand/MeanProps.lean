import Verif.Expand.ReduceProps
import Verif.Expand.TensorViol
/-
C67: MeanNode, and cases the reductions get wrong.
-/
namespace Docc.Expand
open Docc.Sym Docc.IR Docc.Types

/-! ### counting -/

theorem prod_append (a b : List Int) : prod (a ++ b) = prod a * prod b := by
  induction a with
  | nil => simp [prod]
  | cons n r ih => simp only [List.cons_append, prod, ih, Int.mul_assoc]

theorem prod_perm {a b : List Int} (h : a.Perm b) : prod a = prod b := by
  induction h with
  | nil => rfl
  | cons x _ ih => simp only [prod, ih]
  | swap x y l => simp only [prod, ← Int.mul_assoc, Int.mul_comm x y]
  | trans _ _ h1 h2 => exact h1.trans h2

theorem box_length (ns : List Int) (h : ∀ n ∈ ns, 0 ≤ n) : ((box ns).length : Int) = prod ns := by
  induction ns with
  | nil => rfl
  | cons n r ih =>
    have ih' := ih fun m hm => h m (List.mem_cons_of_mem _ hm)
    have hn := h n List.mem_cons_self
    simp only [box, List.length_flatMap, List.length_map, prod]
    rw [List.map_const', List.sum_replicate, List.length_range, smul_eq_mul, Int.natCast_mul, ih']
    congr 1
    omega

theorem pick_range' {α : Type} (f : Nat → Bool) (d : α) : ∀ (l : List α) (k : Nat),
    pick true ((List.range' k l.length).map f) l = ((List.range' k l.length).filter f).map fun i => l.getD (i - k) d
  | [], k => rfl
  | a :: l, k => by
    have ih := pick_range' f d l (k + 1)
    have hc : ((List.range' (k + 1) l.length).filter f).map (fun i => l.getD (i - (k + 1)) d) =
        ((List.range' (k + 1) l.length).filter f).map (fun i => (a :: l).getD (i - k) d) := by
      apply List.map_congr_left
      intro i hi
      have := (List.mem_filter.mp hi).1
      rw [List.mem_range'_1] at this
      have h2 : i - k = (i - (k + 1)) + 1 := by omega
      rw [h2]
      simp [List.getD]
    simp only [List.length_cons, List.range'_succ, List.map_cons, pick]
    rw [ih, hc]
    by_cases hf : f k = true
    · rw [if_pos hf, List.filter_cons_of_pos hf, List.map_cons]
      simp [List.getD]
    · rw [if_neg hf, List.filter_cons_of_neg hf]

theorem pick_maskOf {α : Type} (ax : List Nat) (l : List α) (d : α) :
    pick true (maskOf l.length ax) l = ((List.range l.length).filter fun i => ax.contains i).map fun i => l.getD i d := by
  have := pick_range' (fun i => ax.contains i) d l 0
  simpa [maskOf, List.range_eq_range'] using this

theorem prod_axes {ax : List Nat} {ns : List Int} (hnd : ax.Nodup) (hlt : ∀ a ∈ ax, a < ns.length) :
    prod (ax.map fun a => ns.getD a 0) = prod (pick true (maskOf ns.length ax) ns) := by
  rw [pick_maskOf ax ns 0]
  apply prod_perm
  apply List.Perm.map
  rw [List.perm_ext_iff_of_nodup hnd (List.nodup_range.filter _)]
  intro a
  simp only [List.mem_filter, List.mem_range, List.contains_iff_mem]
  exact ⟨fun h => ⟨hlt a h, h⟩, fun h => h.2⟩

theorem count_eval {ρ : Val} {shape : List Expr} {ns : List Int} (hs : Vals ρ shape ns) : ∀ (ax : List Nat) (acc : Expr) (a : Int),
    (∀ i ∈ ax, i < shape.length) → acc.eval ρ = .fin a →
    (ax.foldl (fun t i => .mul [t, shape.getD i (.int 0)]) acc).eval ρ = .fin (a * prod (ax.map fun i => ns.getD i 0))
  | [], acc, a, _, ha => by simp [ha, prod]
  | i :: ax, acc, a, hlt, ha => by
    have hi := hlt i List.mem_cons_self
    have hl := hs.length
    have h1 : (shape.getD i (.int 0)).eval ρ = .fin (ns.getD i 0) := by
      have := congrArg (fun l => l[i]?) hs
      simp only [List.getElem?_map] at this
      rw [List.getElem?_eq_getElem hi, List.getElem?_eq_getElem (by omega : i < ns.length)] at this
      simpa [List.getD, hi, (by omega : i < ns.length)] using this
    rw [List.foldl_cons, count_eval hs ax _ _ (fun j hj => hlt j (List.mem_cons_of_mem _ hj)) (Docc.Types.eval_mul2 ha h1), List.map_cons, prod, Int.mul_assoc]

/-- the fibres have as many elements as the product of the reduced extents -/
theorem fibre_length {m : List Bool} {ns o : List Int} (hm : m.length = ns.length) (hn : ∀ n ∈ ns, 0 ≤ n) (ho : InRange (pick false m ns) o) :
    ((fibre m ns o).length : Int) = prod (pick true m ns) := by
  rw [fibre, filter_box m ns o hm ho, List.length_map]
  exact box_length _ fun n h => hn n (mem_pick h)

/-! ### the mean -/

/-- fresh variables for a mean -/
structure MFresh (v : RVars) (count : String) (ds : List String) (y : Opd) (ident : String) (keep : Bool) (mask : List Bool) (shape : List Expr) : Prop where
  red : RFresh v y.data ident keep mask shape
  cnt : count ∉ v.all ∧ count ≠ y.data ∧ count ∉ ds
  ext : ∀ e ∈ shape, ∀ x ∈ e.atoms, x ≠ count
  ty : count ∉ tySyms y.ty
  ds : FreshVars ds y.data (outShape keep (.int 1) mask shape)

theorem mean_trans (E : Env) (add div ident : String) (x y : Opd) (keep : Bool) (shape : List Expr) (axes : List Int) (v : RVars) (count : String)
    (ds : List String) (trans : Trans) (e : Seq) (h : mean add div ident x y keep shape axes v count ds trans = some e) :
    ∃ e0, mean add div ident x y keep shape axes v count ds [] = some e0 ∧ e.den E = Rel.seq (e0.den E) (Rel.upd (runTrans E trans)) := by
  unfold mean at h ⊢
  cases hn : normAxes shape.length axes with
  | none => rw [hn] at h; cases h
  | some ax =>
    rw [hn] at h
    simp only [Option.bind_some] at h ⊢
    cases hr : reduce add ident x y keep shape axes v with
    | none => rw [hr] at h; cases h
    | some r =>
      rw [hr] at h
      simp only [Option.map_some, Option.some.injEq] at h ⊢
      subst h
      refine ⟨_, rfl, ?_⟩
      simp only [Seq.den, Node.den, Rel.seq_skip, Rel.seq_assoc]
      simp only [show Rel.upd (runTrans E []) = Rel.upd id from rfl, Rel.skip_seq]

/-- **C67 (Mean).** If no dimension is named twice: the quotient of the sum and the number of the elements with these kept coordinates. Missing:
axes with repetitions (refuted below), input and output in one container. -/
theorem mean_partial {E : Env} {σ : St} {add div ident : String} {x y : Opd} {keep : Bool} {shape : List Expr} {axes : List Int} {v : RVars} {count : String}
    {ds : List String} (hasg : ∀ a, E.op "assign" [a] = a) (hadd : ∀ a b, E.op add [a, b] = a + b) (hzero : σ ident [] = 0)
    (hax : ∀ a ∈ axes, -(shape.length : Int) ≤ a ∧ a < shape.length)
    (honce : axes.Nodup ∧ ∀ a ∈ axes, a < 0 → a + shape.length ∉ axes)
    (hv : MFresh v count ds y ident keep (axisMask shape.length axes) shape)
    (hsh : ∀ e ∈ shape, σ.defd E e ∧ 0 ≤ σ.ev E e)
    (hx : OpdOk E σ v.all y.data x) (hy : OpdOk E σ (v.all ++ ds) y.data y) (hxy : x.data ≠ y.data)
    (hinj : Injective E σ y.ty (outShape keep 1 (axisMask shape.length axes) (shape.map (σ.ev E)))) :
    ∃ e, mean add div ident x y keep shape axes v count ds [] = some e ∧
      Fills E σ e (v.all ++ count :: ds) y.data (InRange (pick false (axisMask shape.length axes) (shape.map (σ.ev E))))
        (fun o => elemAddr E σ y.ty (outIx keep 0 (axisMask shape.length axes) o))
        (fun o => E.op div [((fibre (axisMask shape.length axes) (shape.map (σ.ev E)) o).map (x.elem E σ)).sum,
          ((fibre (axisMask shape.length axes) (shape.map (σ.ev E)) o).length : Int)]) := by
  obtain ⟨r, hr, σ1, r1, r2, r3⟩ := sum_partial hasg hadd hzero hax hv.red hx (hy.sub fun a ha => List.mem_append_left _ ha) hxy hinj
  have hnax := normAxes_some hax
  have hmask := maskOf_axes hax
  refine ⟨_, by rw [mean, hnax, Option.bind_some, hr]; rfl, ?_⟩
  rw [hmask]
  have hmlen := axisMask_length shape.length axes
  generalize haxs : (axes.map fun a => if a < 0 then ((shape.length : Int) + a).toNat else a.toNat) = ax at hnax hmask
  have haxlt : ∀ a ∈ ax, a < shape.length := by
    intro a ha
    rw [← haxs, List.mem_map] at ha
    obtain ⟨b, hb, rfl⟩ := ha
    have := hax b hb
    split <;> omega
  have haxnd : ax.Nodup := by
    rw [← haxs, List.nodup_iff_pairwise_ne, List.pairwise_map]
    refine List.Pairwise.imp_of_mem ?_ (List.nodup_iff_pairwise_ne.mp honce.1)
    intro a b ha hb hne h
    have h1 := hax a ha
    have h2 := hax b hb
    by_cases ha0 : a < 0
    · by_cases hb0 : b < 0
      · rw [if_pos ha0, if_pos hb0] at h; omega
      · rw [if_pos ha0, if_neg hb0] at h
        exact honce.2 a ha ha0 ((by omega : b = a + shape.length) ▸ hb)
    · by_cases hb0 : b < 0
      · rw [if_neg ha0, if_pos hb0] at h
        exact honce.2 b hb hb0 ((by omega : a = b + shape.length) ▸ ha)
      · rw [if_neg ha0, if_neg hb0] at h; omega
  generalize hM : axisMask shape.length axes = M at *
  have hd1 : During σ y.data v.all σ1 := by
    intro a ha hav
    funext j
    exact r3 a j hav fun h => absurd h ha
  -- the count
  have hshV : Vals (σ.val E) shape (shape.map (σ.ev E)) := vals_of_concrete fun e he => (hsh e he).1
  have hshV1 : Vals (σ1.val E) shape (shape.map (σ.ev E)) := by
    unfold Vals at hshV ⊢
    rw [← hshV]
    exact List.map_congr_left fun e he => during_eval hd1 (hv.red.shape e he)
  have hcnt : σ1.ev E (countExpr shape ax) = prod (pick true M (shape.map (σ.ev E))) := by
    have h1 := count_eval hshV1 ax (.int 1) 1 haxlt rfl
    rw [countExpr, St.ev_of_eval h1, Int.one_mul, prod_axes haxnd (by simpa using haxlt)]
    simp only [List.length_map, hmask]
  generalize hσ2 : σ1.setS count (σ1.ev E (countExpr shape ax)) = σ2
  have hd2 : During σ y.data (v.all ++ count :: ds) σ2 := by
    intro a ha hav
    simp only [List.mem_append, List.mem_cons, not_or] at hav
    rw [← hσ2]
    funext j
    have : σ1.setS count (σ1.ev E (countExpr shape ax)) a j = σ1 a j := by
      simp [St.setS, St.set, hav.2.1]
    rw [this, hd1 a ha hav.1]
  have hyW : OpdOk E σ (v.all ++ count :: ds) y.data y := by
    refine ⟨hy.conc, fun a ha => ⟨fun h => ?_, (hy.fresh a ha).2⟩, fun h => ?_⟩
    · simp only [List.mem_append, List.mem_cons] at h
      rcases h with h | rfl | h
      · exact (hy.fresh a ha).1 (List.mem_append_left _ h)
      · exact hv.ty ha
      · exact (hy.fresh a ha).1 (List.mem_append_right _ h)
    · simp only [List.mem_append, List.mem_cons] at h
      rcases h with h | h | h
      · exact hy.data (List.mem_append_left _ h)
      · exact hv.cnt.2.1 h.symm
      · exact hy.data (List.mem_append_right _ h)
  have hadr : ∀ ix, elemAddr E σ2 y.ty ix = elemAddr E σ y.ty ix := fun ix => hyW.elemAddr_next hd2 ix
  have houtV : (outShape keep (.int 1) M shape).map (σ2.ev E) = outShape keep 1 M (shape.map (σ.ev E)) := by
    rw [outShape_map, St.ev_int]
    congr 1
    apply List.map_congr_left
    intro e he
    -- the shape mentions neither the loop variables of the sum nor the count
    rw [← hσ2, St.ev_congr E (σ := σ1.setS count _) (τ := σ1) fun a ha => by rw [St.setS_other _ _ (hv.ext e he a ha)]]
    exact during_ev hd1 (hv.red.shape e he)
  have hdiv := elementwise_partial (E := E) (σ := σ2) (op := div) (ins := [y, ⟨count, .ofShape y.ty.elem []⟩]) (out := y)
    (shape := outShape keep (.int 1) M shape) (vs := ds) hv.ds
    (by
      intro o ho
      simp only [List.mem_cons, List.not_mem_nil, or_false] at ho
      rcases ho with rfl | rfl
      · exact ⟨(hyW.next hd2).sub fun a ha => by simp [ha], Or.inr fun _ => rfl⟩
      · refine ⟨⟨⟨fun e he => ?_, ⟨0, rfl⟩⟩, fun a ha => ?_, hv.cnt.2.2⟩, Or.inl hv.cnt.2.1⟩
        · simp [Tensor.ofShape, stridesFromShape] at he
        · simp [Tensor.ofShape, stridesFromShape, tySyms, Expr.atomsL, Expr.atoms] at ha)
    ((hyW.next hd2).sub fun a ha => by simp [ha])
    (by
      rw [houtV]
      intro a b ha hb h
      rw [hadr, hadr] at h
      exact hinj a b ha hb h)
  rw [houtV] at hdiv
  obtain ⟨σ3, d1, d2, d3⟩ := hdiv
  have hml : M.length = (shape.map (σ.ev E)).length := by simpa using hmlen
  refine ⟨σ3, fun c s => ?_, fun o ho => ?_, fun a j ha hj => ?_⟩
  · simp only [Seq.den, Node.den, Rel.seq_skip]
    rw [show Rel.upd (runTrans E []) = Rel.upd id from rfl, show Rel.upd (runBlock E []) = Rel.upd id from rfl, Rel.skip_seq, Rel.skip_seq, Rel.seq_skip]
    have hu : ∀ s c s', Rel.upd (runTrans E [(count, countExpr shape ax)]) s c s' ↔ c = .normal ∧ s' = s.setS count (s.ev E (countExpr shape ax)) :=
      fun _ _ _ => Iff.rfl
    constructor
    · rintro (⟨s1, h1, h2⟩ | ⟨h1, h2⟩)
      · obtain ⟨_, rfl⟩ := (r1 _ _).mp h1
        rcases h2 with ⟨s2, h3, h4⟩ | ⟨h3, h4⟩
        · obtain ⟨_, rfl⟩ := (hu _ _ _).mp h3
          rw [hσ2] at h4
          exact (d1 _ _).mp h4
        · exact absurd ((hu _ _ _).mp h4).1 h3
      · exact absurd ((r1 _ _).mp h2).1 h1
    · rintro ⟨rfl, rfl⟩
      exact Or.inl ⟨σ1, (r1 _ _).mpr ⟨rfl, rfl⟩, Or.inl ⟨σ2, (hu _ _ _).mpr ⟨rfl, hσ2.symm⟩, (d1 _ _).mpr ⟨rfl, rfl⟩⟩⟩
  · have hp := outIx_range keep M _ o hml ho
    have := d2 _ hp
    rw [hadr] at this
    rw [this]
    simp only [List.map_cons, List.map_nil, Opd.elem]
    have e1 : σ2 y.data (elemAddr E σ2 y.ty (outIx keep 0 M o)) = ((fibre M (shape.map (σ.ev E)) o).map (x.elem E σ)).sum := by
      have := r2 o ho
      simp only at this
      rw [hadr, ← this, ← hσ2]
      simp [St.setS, St.set, Ne.symm hv.cnt.2.1]
    have e2 : σ2 count (elemAddr E σ2 (.ofShape y.ty.elem []) (outIx keep 0 M o)) = ((fibre M (shape.map (σ.ev E)) o).length : Int) := by
      rw [fibre_length hml (by
        intro n hn
        rw [List.mem_map] at hn
        obtain ⟨e, he, rfl⟩ := hn
        exact (hsh e he).2) ho, ← hcnt, ← hσ2]
      simp [elemAddr, Tensor.ofShape]
    rw [e1, e2]
  · simp only [List.mem_append, List.mem_cons, not_or] at ha
    have hA : a = y.data → ∀ p, InRange (outShape keep 1 M (shape.map (σ.ev E))) p → j ≠ elemAddr E σ y.ty p := by
      intro h p hp
      obtain ⟨o, h1, rfl⟩ := outIx_onto keep M _ p hml hp
      exact hj h o h1
    rw [d3 a j ha.2.2 fun h p hp => by rw [hadr]; exact hA h p hp]
    rw [← hσ2]
    have : σ1.setS count (σ1.ev E (countExpr shape ax)) a j = σ1 a j := by simp [St.setS, St.set, ha.2.1]
    rw [this]
    exact r3 a j ha.1 fun h o ho => hj h o ho

/-! ### instances -/

def exRV : RVars := ⟨["_i_init"], ["_i"], ["_k"]⟩
/-- a vector of N elements -/
def exN : Tensor := .ofShape .int64 [.sym "N"]

theorem exRFresh : RFresh exRV "Y" "0" false (axisMask 2 [-1]) [.sym "N", .sym "M"] :=
  ⟨by decide, by decide, by decide, by decide, by decide, by decide, by decide⟩

theorem exMat : OpdOk exEnv exSt exRV.all "Y" ⟨"X", exNM⟩ := by
  refine ⟨⟨?_, ⟨0, rfl⟩⟩, by decide, by decide⟩
  intro e he
  simp only [exNM, Tensor.ofShape, stridesFromShape, List.mem_cons, List.not_mem_nil, or_false] at he
  rcases he with rfl | rfl <;> exact ⟨_, rfl⟩

theorem exVec (ws : List String) (h : "Y" ∉ ws) : OpdOk exEnv exSt ws "Y" ⟨"Y", exN⟩ := by
  refine ⟨⟨?_, ⟨0, rfl⟩⟩, ?_, h⟩
  · intro e he
    simp only [exN, Tensor.ofShape, stridesFromShape, List.mem_cons, List.not_mem_nil, or_false] at he
    subst he
    exact ⟨1, rfl⟩
  · intro x hx
    simp [exN, Tensor.ofShape, stridesFromShape, tySyms, Expr.atomsL, Expr.atoms] at hx

theorem exVec_inj : Injective exEnv exSt exN (outShape false 1 (axisMask 2 [-1]) ([.sym "N", .sym "M"].map (exSt.ev exEnv))) :=
  rowMajor_injective (p := .int64) (shape := [.sym "N"]) (off := .int 0) (by
    intro e he
    rw [List.mem_singleton] at he
    subst he
    exact exDef _)

/-- the hypotheses of `sum_partial` (and `reduce_partial`) are met: row sums of a symbolic N x M tensor -/
example : ∃ e, reduce "int_add" "0" ⟨"X", exNM⟩ ⟨"Y", exN⟩ false [.sym "N", .sym "M"] [-1] exRV = some e ∧
    Fills exEnv exSt e exRV.all "Y" (InRange (pick false [false, true] [2, 3])) (fun o => elemAddr exEnv exSt exN (outIx false 0 [false, true] o))
      (fun o => ((fibre [false, true] [2, 3] o).map ((Opd.mk "X" exNM).elem exEnv exSt)).sum) :=
  sum_partial exEnv_assign (fun a b => by simp [exEnv]) (by decide) (by decide) exRFresh exMat (exVec _ (by decide)) (by decide) exVec_inj

/-- row 1 is reduced from the elements (1, 0), (1, 1), (1, 2) -/
example : fibre [false, true] [2, 3] [1] = [[1, 0], [1, 1], [1, 2]] := by decide

/-- the hypotheses of `mean_partial` are met -/
example : ∃ e, mean "int_add" "div" "0" ⟨"X", exNM⟩ ⟨"Y", exN⟩ false [.sym "N", .sym "M"] [-1] exRV "_mean_count" ["_j"] [] = some e ∧
    Fills exEnv exSt e (exRV.all ++ ["_mean_count", "_j"]) "Y" (InRange (pick false [false, true] [2, 3]))
      (fun o => elemAddr exEnv exSt exN (outIx false 0 [false, true] o))
      (fun o => exEnv.op "div" [((fibre [false, true] [2, 3] o).map ((Opd.mk "X" exNM).elem exEnv exSt)).sum, ((fibre [false, true] [2, 3] o).length : Int)]) :=
  mean_partial exEnv_assign (fun a b => by simp [exEnv]) (by decide) (by decide) (by decide)
    ⟨exRFresh, by decide, by decide, by decide, ⟨by decide, rfl, by decide, by decide⟩⟩
    (by
      intro e he
      simp only [List.mem_cons, List.not_mem_nil, or_false] at he
      rcases he with rfl | rfl
      · exact ⟨exDef _, by decide⟩
      · exact ⟨exDef _, by decide⟩)
    exMat (exVec _ (by decide)) (by decide) exVec_inj

/-- an environment with a maximum -/
def exMax : Env := ⟨fun _ _ => 0, fun o l => if o = "max" then match l with | [a, b] => max a b | _ => 0 else l.sum, fun _ _ _ _ => 0, 0⟩
/-- with a quotient -/
def exQuot : Env := ⟨fun _ _ => 0, fun o l => match o, l with | "div", [a, b] => a / b | _, l => l.sum, fun _ _ _ _ => 0, 0⟩

/-! ### violations -/

/-- a vector of 2 -/
def ex2 : Tensor := .ofShape .int64 [.int 2]
def exScal : Tensor := .ofShape .int64 []

/-- **C67 fails for a mean over axes with a repetition** (accepted by validation): the mean of `[10, 11, 12]` over axes `{0, 0}` is 33 / 9 = 3. -/
theorem mean_duplicate_axis_violated : ∃ (σ : St) (x y : Opd) (e : Seq), reduceValid x y false [.int 3] [0, 0] = true ∧
    mean "int_add" "div" "0" x y false [.int 3] [0, 0] ⟨[], [], ["_k"]⟩ "_mean_count" [] [] = some e ∧
    (fibre (axisMask 1 [0, 0]) [3] []).map (x.elem exQuot σ) = [10, 11, 12] ∧ ∀ c τ, e.den exQuot σ c τ → τ y.data [] = 3 := by
  refine ⟨exSt, ⟨"X", exFwd⟩, ⟨"Y", exScal⟩,
    (mean "int_add" "div" "0" ⟨"X", exFwd⟩ ⟨"Y", exScal⟩ false [.int 3] [0, 0] ⟨[], [], ["_k"]⟩ "_mean_count" [] []).getD .nil, by decide, rfl, by decide, fun c τ h => ?_⟩
  exact (Seq.run_obs_all 60 (x := "Y") (j := []) (c := .normal) (v := 3) (by decide) h).2

/-- the same with a negative name of the axis: `{0, -1}` -/
theorem mean_negative_axis_violated : ∃ (σ : St) (x y : Opd) (e : Seq), reduceValid x y false [.int 3] [0, -1] = true ∧
    mean "int_add" "div" "0" x y false [.int 3] [0, -1] ⟨[], [], ["_k"]⟩ "_mean_count" [] [] = some e ∧
    (fibre (axisMask 1 [0, -1]) [3] []).map (x.elem exQuot σ) = [10, 11, 12] ∧ ∀ c τ, e.den exQuot σ c τ → τ y.data [] = 3 := by
  refine ⟨exSt, ⟨"X", exFwd⟩, ⟨"Y", exScal⟩,
    (mean "int_add" "div" "0" ⟨"X", exFwd⟩ ⟨"Y", exScal⟩ false [.int 3] [0, -1] ⟨[], [], ["_k"]⟩ "_mean_count" [] []).getD .nil, by decide, rfl, by decide, fun c τ h => ?_⟩
  exact (Seq.run_obs_all 60 (x := "Y") (j := []) (c := .normal) (v := 3) (by decide) h).2

/-- **C67 fails for a reduction into its own input** (accepted by validation): the row sums of `[[10, 11], [12, 13]]`, stored where the matrix starts,
are 0 and 25 instead of 21 and 25: the input is overwritten by the identity first. -/
theorem reduce_in_place_violated : ∃ (σ : St) (x y : Opd) (e : Seq), x.data = y.data ∧ reduceValid x y false [.int 2, .int 2] [1] = true ∧
    reduce "int_add" "0" x y false [.int 2, .int 2] [1] exRV = some e ∧
    ((fibre (axisMask 2 [1]) [2, 2] [0]).map (x.elem exEnv σ)).sum = 21 ∧ ∀ c τ, e.den exEnv σ c τ → y.elem exEnv τ [0] = 0 := by
  refine ⟨exSt, ⟨"X", ex22⟩, ⟨"X", ex2⟩, (reduce "int_add" "0" ⟨"X", ex22⟩ ⟨"X", ex2⟩ false [.int 2, .int 2] [1] exRV).getD .nil, rfl, by decide, rfl, by decide, fun c τ h => ?_⟩
  exact (Seq.run_obs_all 60 (x := "X") (j := [0]) (c := .normal) (v := 0) (by decide) h).2

/-- the hypotheses of `max_partial` are met, with `-1000` as the identity below all elements -/
example : ∃ e σ', reduce "max" "INT64_MIN" ⟨"X", exFwd⟩ ⟨"Y", exScal⟩ false [.int 3] [0] ⟨[], [], ["_k"]⟩ = some e ∧
    (∀ c s, e.den exMax (fun x j => if x = "INT64_MIN" then -1000 else exSt x j) c s ↔ c = .normal ∧ s = σ') := by
  have := max_partial (E := exMax) (σ := fun x j => if x = "INT64_MIN" then -1000 else exSt x j) (mx := "max") (ident := "INT64_MIN") (x := ⟨"X", exFwd⟩)
    (y := ⟨"Y", exScal⟩) (keep := false) (shape := [.int 3]) (axes := [0]) (v := ⟨[], [], ["_k"]⟩) (fun a => by simp [exMax]) ?_ (by decide)
    ⟨by decide, by decide, by decide, by decide, by decide, by decide, by decide⟩
    ⟨⟨?_, ⟨0, rfl⟩⟩, by decide, by decide⟩ ⟨⟨?_, ⟨0, rfl⟩⟩, by decide, by decide⟩ (by decide)
    (rowMajor_injective (p := .int64) (shape := []) (off := .int 0) (by simp)) ?_
  · obtain ⟨e, σ', h1, h2, _⟩ := this
    exact ⟨e, σ', h1, h2⟩
  · intro a b
    simp [exMax]
  · intro e he
    simp only [exFwd, Tensor.ofShape, stridesFromShape, List.mem_cons, List.not_mem_nil, or_false] at he
    subst he
    exact ⟨1, rfl⟩
  · intro e he
    simp [exScal, Tensor.ofShape, stridesFromShape] at he
  · intro i hi
    have hm := (mem_box [3] i).mpr hi
    have : ∀ i ∈ box [3], (-1000 : Int) ≤ (Opd.mk "X" exFwd).elem exMax (fun x j => if x = "INT64_MIN" then -1000 else exSt x j) i := by decide
    exact this i hm

end Docc.Expand
