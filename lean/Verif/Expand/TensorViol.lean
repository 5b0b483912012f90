import Verif.Expand.TensorProps
/-
C66: cases the expansions get wrong, and instances that satisfy the hypotheses of the theorems.
-/
namespace Docc.Expand
open Docc.Sym Docc.IR Docc.Types

theorem exEnv_assign (v : Int) : exEnv.op "assign" [v] = v := by simp [exEnv]

/-- row-major N x M tensor -/
def exNM : Tensor := .ofShape .int64 [.sym "N", .sym "M"]
/-- its transposed shape -/
def exMN : Tensor := .ofShape .int64 [.sym "M", .sym "N"]
/-- N = 2, M = 3, X[k] = 10 + k, "5" is the constant 5 -/
def exSt : St := fun x j => if x = "N" then 2 else if x = "M" then 3 else if x = "5" then 5 else if x = "X" ∨ x = "Z" then 10 + j.sum else 0

theorem exDef (x : String) : exSt.defd exEnv (.sym x) := ⟨exSt x [], rfl⟩

theorem exFresh (sh : List Expr) (h : sh = [.sym "N", .sym "M"]) : FreshVars ["_i", "_i_0"] "Y" sh := by
  subst h
  refine ⟨by decide, rfl, by decide, ?_⟩
  decide

theorem exOk (d : String) (T : Tensor) (hd : d ∉ ["_i", "_i_0"]) (h : T = exNM ∨ T = exMN) : OpdOk exEnv exSt ["_i", "_i_0"] "Y" ⟨d, T⟩ := by
  rcases h with rfl | rfl
  all_goals
    refine ⟨⟨?_, ?_⟩, by show ∀ x ∈ tySyms (.ofShape .int64 [_, _]), _; decide, hd⟩
    · intro e he
      simp only [exNM, exMN, Tensor.ofShape, stridesFromShape, List.mem_cons, List.not_mem_nil, or_false] at he
      rcases he with rfl | rfl <;> exact ⟨_, rfl⟩
    · exact ⟨_, rfl⟩

/-- the hypotheses of `elementwise_partial` are met: `Y = X + Z` on symbolic N x M tensors, and in place `Y = Y + Z` -/
example : Fills exEnv exSt (elementwise "add" [⟨"X", exNM⟩, ⟨"Z", exNM⟩] ⟨"Y", exNM⟩ [.sym "N", .sym "M"] ["_i", "_i_0"]) ["_i", "_i_0"] "Y"
    (InRange [2, 3]) (elemAddr exEnv exSt exNM) (fun ix => exEnv.op "add" [(Opd.mk "X" exNM).elem exEnv exSt ix, (Opd.mk "Z" exNM).elem exEnv exSt ix]) :=
  elementwise_partial (exFresh _ rfl)
    (by
      intro o ho
      simp only [List.mem_cons, List.not_mem_nil, or_false] at ho
      rcases ho with rfl | rfl
      · exact ⟨exOk _ _ (by decide) (Or.inl rfl), Or.inl (by decide)⟩
      · exact ⟨exOk _ _ (by decide) (Or.inl rfl), Or.inl (by decide)⟩)
    (exOk _ _ (by decide) (Or.inl rfl)) (rowMajor_injective (by
      intro e he
      simp only [List.mem_cons, List.not_mem_nil, or_false] at he
      rcases he with rfl | rfl <;> exact exDef _))

example : Fills exEnv exSt (elementwise "add" [⟨"Y", exNM⟩, ⟨"Z", exNM⟩] ⟨"Y", exNM⟩ [.sym "N", .sym "M"] ["_i", "_i_0"]) ["_i", "_i_0"] "Y"
    (InRange [2, 3]) (elemAddr exEnv exSt exNM) (fun ix => exEnv.op "add" [(Opd.mk "Y" exNM).elem exEnv exSt ix, (Opd.mk "Z" exNM).elem exEnv exSt ix]) :=
  elementwise_partial (exFresh _ rfl)
    (by
      intro o ho
      simp only [List.mem_cons, List.not_mem_nil, or_false] at ho
      rcases ho with rfl | rfl
      · exact ⟨exOk _ _ (by decide) (Or.inl rfl), Or.inr fun _ => rfl⟩
      · exact ⟨exOk _ _ (by decide) (Or.inl rfl), Or.inl (by decide)⟩)
    (exOk _ _ (by decide) (Or.inl rfl)) (rowMajor_injective (by
      intro e he
      simp only [List.mem_cons, List.not_mem_nil, or_false] at he
      rcases he with rfl | rfl <;> exact exDef _))

/-- the hypotheses of `transpose_partial` are met -/
example : ∃ e, transpose ⟨"X", exNM⟩ ⟨"Y", exMN⟩ [.sym "N", .sym "M"] [] ["_i", "_i_0"] = some e ∧
    Fills exEnv exSt e ["_i", "_i_0"] "Y" (InRange [2, 3]) (fun ix => elemAddr exEnv exSt exMN (permuted [1, 0] ix)) (fun ix => (Opd.mk "X" exNM).elem exEnv exSt ix) :=
  transpose_partial exEnv_assign (Or.inl ⟨rfl, rfl⟩) (exFresh _ rfl) (exOk _ _ (by decide) (Or.inl rfl)) (exOk _ _ (by decide) (Or.inr rfl)) (by decide)
    (rowMajor_injective (by
      intro e he
      simp only [List.mem_cons, List.not_mem_nil, or_false] at he
      rcases he with rfl | rfl <;> exact exDef _))

example : transposeValid ⟨"X", exNM⟩ ⟨"Y", exMN⟩ [.sym "N", .sym "M"] [] = true := by decide

/-- the hypotheses of `broadcast_partial` are met: 1 x M to N x M -/
example : ∃ e, broadcast ⟨"X", .ofShape .int64 [.int 1, .sym "M"]⟩ ⟨"Y", exNM⟩ [.int 1, .sym "M"] [.sym "N", .sym "M"] ["_i", "_i_0"] = some e ∧
    Fills exEnv exSt e ["_i", "_i_0"] "Y" (InRange [2, 3]) (elemAddr exEnv exSt exNM)
      (fun ix => (Opd.mk "X" (.ofShape .int64 [.int 1, .sym "M"])).elem exEnv exSt (stretched [1, 3] ix)) :=
  broadcast_partial exEnv_assign (by decide) (.cons (Or.inl rfl) (.cons (Or.inr rfl) .nil)) (by decide) (exFresh _ rfl)
    ⟨⟨by
        intro e he
        simp only [Tensor.ofShape, stridesFromShape, List.mem_cons, List.not_mem_nil, or_false] at he
        rcases he with rfl | rfl <;> exact ⟨_, rfl⟩,
      ⟨_, rfl⟩⟩, by decide, by decide⟩
    (exOk _ _ (by decide) (Or.inl rfl)) (by decide) (rowMajor_injective (by
      intro e he
      simp only [List.mem_cons, List.not_mem_nil, or_false] at he
      rcases he with rfl | rfl <;> exact exDef _))

/-! ### violations -/

def ex22 : Tensor := .ofShape .int64 [.int 2, .int 2]

/-- the expansion of a transposition, or nothing -/
def exT (x y : Opd) (perm : List Nat) : Seq := (transpose x y [.int 2, .int 2] perm ["_i", "_i_0"]).getD .nil

/-- **C66 fails for a transposition in place** (accepted by validation): `X = X^T` for `X = [[10, 11], [12, 13]]` leaves 11 in row 0, column 1. -/
theorem transpose_in_place_violated : ∃ (σ : St) (x : Opd) (e : Seq), transposeValid x x [.int 2, .int 2] [1, 0] = true ∧
    transpose x x [.int 2, .int 2] [1, 0] ["_i", "_i_0"] = some e ∧ x.elem exEnv σ [1, 0] = 12 ∧
    ∀ c τ, e.den exEnv σ c τ → x.elem exEnv τ [0, 1] = 11 := by
  refine ⟨exSt, ⟨"X", ex22⟩, exT ⟨"X", ex22⟩ ⟨"X", ex22⟩ [1, 0], by decide, rfl, by decide, fun c τ h => ?_⟩
  exact (Seq.run_obs_all 60 (x := "X") (j := [1]) (c := .normal) (v := 11) (by decide) h).2

/-- **C66 fails for `perm = {0, 0}`**, which construction and validation accept: `Y[0, 1]` is never written, though the output has 4 elements. -/
theorem transpose_not_a_permutation_violated : ∃ (σ : St) (x y : Opd) (e : Seq), transposeValid x y [.int 2, .int 2] [0, 0] = true ∧
    transpose x y [.int 2, .int 2] [0, 0] ["_i", "_i_0"] = some e ∧
    (∀ i j, InRange [2, 2] [i, j] → x.elem exEnv σ [i, j] ≠ 0) ∧ ∀ c τ, e.den exEnv σ c τ → y.elem exEnv τ [0, 1] = 0 := by
  refine ⟨exSt, ⟨"X", ex22⟩, ⟨"Y", ex22⟩, exT ⟨"X", ex22⟩ ⟨"Y", ex22⟩ [0, 0], by decide, rfl, ?_, fun c τ h => ?_⟩
  · intro i j h
    have hm := (mem_box [2, 2] [i, j]).mpr h
    revert hm
    have : ∀ p ∈ box [2, 2], (Opd.mk "X" ex22).elem exEnv exSt p ≠ 0 := by decide
    exact this _
  · exact (Seq.run_obs_all 60 (x := "Y") (j := [1]) (c := .normal) (v := 0) (by decide) h).2

/-- a vector of length 3, and the same memory read backwards -/
def exFwd : Tensor := .ofShape .int64 [.int 3]
def exBwd : Tensor := ⟨.int64, [.int 3], [.int (-1)], .int 2⟩

/-- **C66 fails for an input that shares memory with the output**: `X = reverse(X)` with `X = [10, 11, 12]` leaves 12 in the last place. -/
theorem elementwise_overlap_violated : ∃ (σ : St) (x y : Opd), x.data = y.data ∧ x.elem exEnv σ [2] = 10 ∧
    ∀ c τ, (elementwise "assign" [x] y [.int 3] ["_i"]).den exEnv σ c τ → y.elem exEnv τ [2] = 12 := by
  refine ⟨exSt, ⟨"X", exBwd⟩, ⟨"X", exFwd⟩, rfl, by decide, fun c τ h => ?_⟩
  exact (Seq.run_obs_all 60 (x := "X") (j := [2]) (c := .normal) (v := 12) (by decide) h).2

/-- **C66 fails for blocks with further computations**: a tasklet beside the tensor node disappears with the block. -/
theorem put_others_violated : ∃ (site : Site) (e : Seq) (σ : St), e = elementwise "assign" [⟨"X", exFwd⟩] ⟨"Y", exFwd⟩ [.int 3] ["_i"] ∧
    runBlock exEnv site.others σ "W" [] = 5 ∧ ∀ c τ, (site.put e).den exEnv σ c τ → τ "W" [] = 0 := by
  refine ⟨⟨[.tasklet "assign" [("5", [])] "W" []], []⟩, _, exSt, rfl, by decide, fun c τ h => ?_⟩
  exact (Seq.run_obs_all 60 (x := "W") (j := []) (c := .normal) (v := 0) (by decide) h).2

/-- **C66 fails for the transition of a broadcast**: the assignments are dropped. -/
theorem putBroadcast_violated : ∃ (site : Site) (e : Seq) (σ : St), site.others = [] ∧
    broadcast ⟨"5", .ofShape .int64 []⟩ ⟨"Y", exFwd⟩ [] [.int 3] ["_i0"] = some e ∧ site.trans = [("k", .int 7)] ∧
    (∀ c τ, (site.put e).den exEnv σ c τ → τ "k" [] = 7) ∧ ∀ c τ, (site.putBroadcast e).den exEnv σ c τ → τ "k" [] = 0 := by
  refine ⟨⟨[], [("k", .int 7)]⟩, (broadcast ⟨"5", .ofShape .int64 []⟩ ⟨"Y", exFwd⟩ [] [.int 3] ["_i0"]).getD .nil, exSt, rfl, rfl, rfl, fun c τ h => ?_, fun c τ h => ?_⟩
  · exact (Seq.run_obs_all 60 (x := "k") (j := []) (c := .normal) (v := 7) (by decide) h).2
  · exact (Seq.run_obs_all 60 (x := "k") (j := []) (c := .normal) (v := 0) (by decide) h).2

/-- **C66 fails for an extent that happens to be 1**: an input of shape `K` (here 1) to 3 elements: `Y[2]` is read from beyond the end of X. -/
theorem broadcast_symbolic_one_violated : ∃ (σ : St) (x y : Opd) (e : Seq), σ "K" [] = 1 ∧ x.ty.shape = [.sym "K"] ∧
    broadcast x y [.sym "K"] [.int 3] ["_i0"] = some e ∧ x.elem exEnv σ (stretched [1] [2]) = 10 ∧ ∀ c τ, e.den exEnv σ c τ → y.elem exEnv τ [2] = 12 := by
  refine ⟨fun x j => if x = "K" then 1 else exSt x j, ⟨"X", .ofShape .int64 [.sym "K"]⟩, ⟨"Y", exFwd⟩,
    (broadcast ⟨"X", .ofShape .int64 [.sym "K"]⟩ ⟨"Y", exFwd⟩ [.sym "K"] [.int 3] ["_i0"]).getD .nil, by decide, rfl, rfl, by decide, fun c τ h => ?_⟩
  exact (Seq.run_obs_all 60 (x := "Y") (j := [2]) (c := .normal) (v := 12) (by decide) h).2

/-- **C66 fails for an input of lower rank**: shape `{2}` to `{2, 2}` (NumPy: every row is X) gives `Y[1, 0] = X[1]`, every column is X. -/
theorem broadcast_lower_rank_violated : ∃ (σ : St) (x y : Opd) (e : Seq), broadcast x y [.int 2] [.int 2, .int 2] ["_i0", "_i1"] = some e ∧
    x.elem exEnv σ [0] = 10 ∧ ∀ c τ, e.den exEnv σ c τ → y.elem exEnv τ [1, 0] = 11 := by
  refine ⟨exSt, ⟨"X", .ofShape .int64 [.int 2]⟩, ⟨"Y", ex22⟩,
    (broadcast ⟨"X", .ofShape .int64 [.int 2]⟩ ⟨"Y", ex22⟩ [.int 2] [.int 2, .int 2] ["_i0", "_i1"]).getD .nil, rfl, by decide, fun c τ h => ?_⟩
  exact (Seq.run_obs_all 60 (x := "Y") (j := [2]) (c := .normal) (v := 11) (by decide) h).2

/-- **C66 fails for an output of rank 0**: the expansion dereferences a null pointer, whatever the operands. -/
theorem broadcast_rank_zero_violated (x y : Opd) (sh : List Expr) (vs : List String) : broadcast x y sh [] vs = none := rfl

end Docc.Expand
