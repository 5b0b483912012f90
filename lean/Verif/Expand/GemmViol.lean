import Verif.Expand.MatMulProps
import Verif.Expand.MeanProps
/-
C68: examples and violations.
-/
namespace Docc.Expand
open Docc.Sym Docc.IR Docc.Types

/-- exact arithmetic -/
def exExact : Env := ⟨fun _ _ => 0, fun o l => match o, l with
  | "assign", [a] => a
  | "fp_fma", [a, b, c] => a * b + c
  | "fp_mul", [a, b] => a * b
  | "fp_add", [a, b] => a + b
  | _, _ => 0, fun _ _ _ _ => 0, 0⟩

theorem exExact_ok : Exact exExact := ⟨fun _ => rfl, fun _ _ _ => rfl, fun _ _ => rfl, fun _ _ => rfl⟩

/-- A = [1 2 3 4 ...], B = [10 11 12 ...], C = [100 101 ...], constants, symbolic extents N = 2, M = 2 -/
def exG : St := fun x j => match x, j with
  | "A", [k] => k + 1
  | "B", [k] => k + 10
  | "C", [k] => k + 100
  | "1.0", [] => 1
  | "N", [] => 2
  | "M", [] => 2
  | _, _ => 0

def exGV : GVars := ⟨"_i", "_j", "_k", "_sum", "_t1", "_t2"⟩

/-- C = A * B + C for 2 x 2 matrices of symbolic extents -/
def exGemm : Gemm := ⟨.rowMajor, false, false, .sym "N", .sym "M", .sym "M", ⟨"A", none, .sym "M"⟩, ⟨"B", none, .sym "M"⟩, ⟨"C", none, .sym "M"⟩,
  ⟨"C", none, .sym "M"⟩, "1.0", "1.0"⟩

/-- the hypotheses of `gemm_exact_partial` are met -/
example : ∃ e, gemm exGemm exGV = some e ∧ Fills exExact exG e exGV.all "C" (InRange [2, 2]) (fun ix => [0 + (2 * ix.getD 0 0 + ix.getD 1 0)])
    (fun ix => ((List.range 2).map fun (k : Nat) => exG "A" [0 + (2 * ix.getD 0 0 + k)] * exG "B" [0 + (2 * (k : Int) + ix.getD 1 0)]).sum * 1 +
      exG "C" [0 + (2 * ix.getD 0 0 + ix.getD 1 0)] * 1) :=
  gemm_exact_partial exExact_ok (by decide) rfl ⟨rfl, rfl⟩ ⟨by decide, by decide, by decide, Or.inr rfl, by decide, by
    intro X hX
    simp only [exGemm, List.mem_cons, List.not_mem_nil, or_false] at hX
    rcases hX with rfl | rfl | rfl | rfl <;> exact ⟨_, rfl⟩⟩ (by decide)

/-- **C68 fails for column-major matrices**: the layout is ignored. For A = [[1, 3], [2, 4]] and B = [[10, 12], [11, 13]] (by columns 1 2 3 4 and
10 11 12 13) the element (0, 0) of the product is 43; the expansion stores 34 = 1 * 10 + 2 * 12. -/
theorem gemm_colMajor_violated : ∃ (σ : St) (G : Gemm) (v : GVars) (e : Seq), G.layout = .colMajor ∧ GOk exExact σ G v ∧ gemm G v = some e ∧
    gemmSpec exExact σ G 0 0 = 43 ∧ ∀ c τ, e.den exExact σ c τ → τ G.cout.data (G.cout.pos exExact σ .colMajor 0 0) = 34 := by
  refine ⟨exG, ⟨.colMajor, false, false, .int 2, .int 2, .int 2, ⟨"A", none, .int 2⟩, ⟨"B", none, .int 2⟩, ⟨"C", none, .int 2⟩, ⟨"C", none, .int 2⟩, "1.0", "0.0"⟩,
    exGV, (gemm ⟨.colMajor, false, false, .int 2, .int 2, .int 2, ⟨"A", none, .int 2⟩, ⟨"B", none, .int 2⟩, ⟨"C", none, .int 2⟩, ⟨"C", none, .int 2⟩,
      "1.0", "0.0"⟩ exGV).getD .nil, rfl, ⟨by decide, by decide, by decide, Or.inr rfl, by decide, ?_⟩, rfl, by decide, fun c τ h => ?_⟩
  · intro X hX
    simp only [List.mem_cons, List.not_mem_nil, or_false] at hX
    rcases hX with rfl | rfl | rfl | rfl <;> exact ⟨_, rfl⟩
  · exact (Seq.run_obs_all 60 (x := "C") (j := [0]) (c := .normal) (v := 34) (by decide) h).2


/-- arithmetic with an element 999 that absorbs the others (NaN) -/
def exNaN : Env := ⟨fun _ _ => 0, fun o l => if 999 ∈ l then 999 else exExact.op o l, fun _ _ _ _ => 0, 0⟩

/-- **C68 fails for `beta = 0` and a C that is not a number** (an output that was never initialised): BLAS does not read C then, and the product of 1 and
10 is 10; the expansion stores NaN. -/
theorem gemm_beta_zero_violated : ∃ (σ : St) (G : Gemm) (v : GVars) (e : Seq), G.layout = .rowMajor ∧ GOk exNaN σ G v ∧ gemm G v = some e ∧
    σ G.beta [] = 0 ∧ σ G.alpha [] = 1 ∧ inner exNaN σ G 0 0 = 10 ∧ ∀ c τ, e.den exNaN σ c τ → τ G.cout.data (G.cout.pos exNaN σ .rowMajor 0 0) = 999 := by
  refine ⟨fun x j => if x = "C" then 999 else exG x j,
    ⟨.rowMajor, false, false, .int 1, .int 1, .int 1, ⟨"A", none, .int 1⟩, ⟨"B", none, .int 1⟩, ⟨"C", none, .int 1⟩, ⟨"C", none, .int 1⟩, "1.0", "0.0"⟩,
    exGV, (gemm ⟨.rowMajor, false, false, .int 1, .int 1, .int 1, ⟨"A", none, .int 1⟩, ⟨"B", none, .int 1⟩, ⟨"C", none, .int 1⟩, ⟨"C", none, .int 1⟩,
      "1.0", "0.0"⟩ exGV).getD .nil, rfl, ⟨by decide, by decide, by decide, Or.inr rfl, by decide, ?_⟩, rfl, by decide, by decide, by decide, fun c τ h => ?_⟩
  · intro X hX
    simp only [List.mem_cons, List.not_mem_nil, or_false] at hX
    rcases hX with rfl | rfl | rfl | rfl <;> exact ⟨_, rfl⟩
  · exact (Seq.run_obs_all 60 (x := "C") (j := [0]) (c := .normal) (v := 999) (by decide) h).2

/-! ### MatMul -/

def exMV : MMVars := ⟨"A_copy", ["A_ci", "A_ci_0"], "B_copy", ["B_ci", "B_ci_0"], [], "A_ref", "B_ref", "C_ref", exGV⟩

/-- a 2 x 2 matrix A of symbolic extents, stored by columns, times a row-major matrix B -/
def exMM : MatMul := ⟨[.sym "N", .sym "M"], [.sym "M", .sym "N"], [.int 1, .sym "N"], stridesFromShape [.sym "M", .sym "N"], .int 0, .int 3, "A", "B", "C",
  .ofShape .float [.sym "N", .sym "N"]⟩

/-- the hypotheses of `matmul_partial` are met, with a copy of A and an offset of B -/
example : isView exMM.shapeA exMM.stridesA = true ∧ ∃ e, matmul .float exMM exMV = some e ∧
    Fills exExact exG e exMV.all "C" (InRange [2, 2]) (elemAddr exExact exG exMM.tyY)
      (fun ix => ((List.range 2).map fun (l : Nat) => (exMM.opdA .float).elem exExact exG [ix.getD 0 0, l] * (exMM.opdB .float).elem exExact exG [l, ix.getD 1 0]).sum) :=
  ⟨by decide, matmul_partial (σ := exG) (M := exMM) (V := exMV) (k' := .sym "M") exExact_ok (by decide) (by decide) rfl rfl rfl rfl rfl rfl (by decide) (by decide)
    ⟨by decide, rfl, rfl, rfl, by decide, by decide, by
      intro e he
      refine ⟨?_, ?_⟩
      · simp only [exMM, stridesFromShape, List.mem_append, List.mem_cons, List.not_mem_nil, or_false] at he
        rcases he with (((((rfl | rfl) | (rfl | rfl)) | (rfl | rfl)) | (rfl | rfl)) | (rfl | rfl)) <;> exact ⟨_, rfl⟩
      · revert e; decide⟩⟩


/-- the product of two batches of matrices at an index -/
def productAt (E : Env) (σ : St) (p : Prim) (M : MatMul) (b : List Int) (i j : Int) : Int :=
  ((List.range (σ.ev E M.k).toNat).map fun (l : Nat) => (M.opdA p).elem E σ (b ++ [i, (l : Int)]) * (M.opdB p).elem E σ (b ++ [(l : Int), j])).sum

/-- a row vector [2, 4] in A, with stride 2 from position 1, times the column vector [10, 11] -/
def exOff : MatMul := ⟨[.int 1, .int 2], [.int 2, .int 1], [.int 1, .int 2], stridesFromShape [.int 2, .int 1], .int 1, .int 0, "A", "B", "C",
  .ofShape .float [.int 1, .int 1]⟩

/-- **C68 fails for a view with an offset**: the offset is applied when the view is copied and again to the copy. The product is 64; the expansion
stores 40 (from one element of the copy and one beyond its end). -/
theorem matmul_offset_violated : ∃ (σ : St) (M : MatMul) (V : MMVars) (e : Seq), matmul .float M V = some e ∧ productAt exExact σ .float M [] 0 0 = 64 ∧
    ∀ c τ, e.den exExact σ c τ → τ M.y (elemAddr exExact σ M.tyY [0, 0]) = 40 := by
  refine ⟨exG, exOff, exMV, (matmul .float exOff exMV).getD .nil, rfl, by decide, fun c τ h => ?_⟩
  exact (Seq.run_obs_all 60 (x := "C") (j := [0]) (c := .normal) (v := 40) (by decide) h).2

/-- two 1 x 1 matrices each -/
def exBatch : MatMul := ⟨[.int 2, .int 1, .int 1], [.int 2, .int 1, .int 1], stridesFromShape [.int 2, .int 1, .int 1], stridesFromShape [.int 2, .int 1, .int 1],
  .int 0, .int 0, "A", "B", "C", .ofShape .float [.int 2, .int 1, .int 1]⟩

def exBV : MMVars := ⟨"A_copy", ["A_ci", "A_ci_0", "A_ci_1"], "B_copy", ["B_ci", "B_ci_0", "B_ci_1"], ["_b"], "A_ref", "B_ref", "C_ref", exGV⟩

/-- **C68 fails for batches**: the references are made before the batch loops, so that all iterations compute the same product (with the value the
loop variable has by accident). The second product is 22; the expansion leaves the old value 101. -/
theorem matmul_batch_violated : ∃ (σ : St) (M : MatMul) (V : MMVars) (e : Seq), matmul .float M V = some e ∧ productAt exExact σ .float M [1] 0 0 = 22 ∧
    ∀ c τ, e.den exExact σ c τ → τ M.y (elemAddr exExact σ M.tyY [1, 0, 0]) = 101 := by
  refine ⟨exG, exBatch, exBV, (matmul .float exBatch exBV).getD .nil, rfl, by decide, fun c τ h => ?_⟩
  exact (Seq.run_obs_all 60 (x := "C") (j := [1]) (c := .normal) (v := 101) (by decide) h).2

/-- a 1 x 2 product, stored with stride 2 -/
def exOut : MatMul := ⟨[.int 1, .int 1], [.int 1, .int 2], stridesFromShape [.int 1, .int 1], stridesFromShape [.int 1, .int 2],
  .int 0, .int 0, "A", "B", "C", ⟨.float, [.int 1, .int 2], [.int 1, .int 2], .int 0⟩⟩

/-- **C68 fails for an output that is not row-major**: its strides are ignored. The element (0, 1) of the product is 11; the expansion leaves the old
value 102. -/
theorem matmul_output_violated : ∃ (σ : St) (M : MatMul) (V : MMVars) (e : Seq), matmul .float M V = some e ∧ productAt exExact σ .float M [] 0 1 = 11 ∧
    ∀ c τ, e.den exExact σ c τ → τ M.y (elemAddr exExact σ M.tyY [0, 1]) = 102 := by
  refine ⟨exG, exOut, exMV, (matmul .float exOut exMV).getD .nil, rfl, by decide, fun c τ h => ?_⟩
  exact (Seq.run_obs_all 60 (x := "C") (j := [2]) (c := .normal) (v := 102) (by decide) h).2

end Docc.Expand
