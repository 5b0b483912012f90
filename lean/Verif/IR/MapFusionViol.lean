import Verif.IR.MapFusionProps

/-
C83: an example for `map_fusion_partial`, and programs MapFusion changes.
-/
namespace Docc.IR
open Docc.Sym

/-- SymEngine on the expressions of the examples -/
def exMfEng : PolyEngine := ⟨fun e g => if g ≠ ["i"] then none
  else if e = .sym "i" then some [([1], .int 1)]
  else if e = .mul [.int 2, .sym "i"] then some [([1], .int 2)]
  else if e = .add [.sym "i", .sym "N"] then some [([1], .int 1), ([0], .sym "N")] else none,
  id, fun e => match e.intSum with | some n => .int n | none => e⟩

theorem exMfEng_norm : exMfEng.NormSound := by
  intro ρ e n h
  simp only [exMfEng]
  split
  · rename_i k hk; rw [← h, intSum_eval ρ e k hk]; rfl
  · exact h

theorem exMfEng_sound (ρ : Val) : exMfEng.Sound ρ := by
  constructor
  · intro e n h; exact h
  · intro e gens D n h hv
    simp only [exMfEng] at h
    split at h
    · simp at h
    · rename_i hg
      have hg : gens = ["i"] := by simpa using hg
      subst hg
      split at h
      · rename_i he; subst he
        simp only [Option.some.injEq] at h; subst h
        simp [Expr.eval] at hv
        simp [polyVal, monoVal, Expr.eval, hv]
      · split at h
        · rename_i he; subst he
          simp only [Option.some.injEq] at h; subst h
          simp [Expr.eval, Expr.evalL, V.mul] at hv
          simp [polyVal, monoVal, Expr.eval, hv]
        · split at h
          · rename_i he; subst he
            simp only [Option.some.injEq] at h; subst h
            simp [Expr.eval, Expr.evalL, V.add] at hv
            simp [polyVal, monoVal, Expr.eval, hv]
          · cases h

theorem exMfEng_syms : NoNewSyms exMfEng := by
  refine ⟨fun e s h => h, fun e s h => ?_, fun e gens D h t ht => ?_⟩
  · simp only [exMfEng] at h
    split at h
    · simp [Expr.atoms] at h
    · exact h
  · simp only [exMfEng] at h
    split at h
    · cases h
    · rename_i hg
      have hg : gens = ["i"] := by simpa using hg
      subst hg
      split at h
      · simp only [Option.some.injEq] at h; subst h
        simp at ht; subst ht
        simp [Expr.atoms]
      · split at h
        · simp only [Option.some.injEq] at h; subst h
          simp at ht; subst ht
          simp [Expr.atoms]
        · split at h
          · rename_i he; subst he
            simp only [Option.some.injEq] at h; subst h
            simp at ht
            rcases ht with rfl | rfl <;> simp [Expr.atoms, Expr.atomsL]
          · cases h

/-- `map (i = 0; i < n; i++) { B }` -/
def exMfMap (n : Int) (B : List Stmt) : Node := .loop true "i" (.int 0) (exLt "i" n) (exInc "i") (.cons (.block B) [] .nil)
/-- `for (k = 0; k < n; k++) { B; t }` -/
def exMfFor (n : Int) (B : List Stmt) (t : Trans) : Node := .loop false "k" (.int 0) (exLt "k" n) (exInc "k") (.cons (.block B) t .nil)
/-- the arrays of the examples -/
def exMfArr (x : String) : Bool := x == "A" || x == "B" || x == "C"
/-- one temporary per element -/
def exMfTmp (_ : String) (e : Expr) : String := if e = .sym "k" then "_t" else "_u"

/-- `A[i] := B[i]` -/
def exMfProd : Stmt := .tasklet "assign" [("B", [.sym "i"])] "A" [.sym "i"]
/-- `C[k] := A[k]` -/
def exMfCons : Stmt := .tasklet "assign" [("A", [.sym "k"])] "C" [.sym "k"]
/-- the candidate -/
def exMfCand : Cand := ⟨"A", .sym "k", .add [.sym "k", .mul [.int (-1), .int 0]], "_t"⟩

set_option maxRecDepth 4000 in
/-- the hypotheses of `map_fusion_partial` hold for `map i { A[i] := B[i] }; for k { C[k] := A[k] }` -/
example (σ : St) : canFuse exMfEng exMfArr (fun _ => true) exMfTmp ["A"] (exMfMap 2 [exMfProd]) [] (exMfFor 2 [exMfCons] []) = some [exMfCand] ∧
    FreshTemps [exMfCand] (exMfMap 2 [exMfProd]) (exMfFor 2 [exMfCons] []) ∧
    Iters exEnv "i" (exLt "i" 2) (exInc "i") σ (σ.ev exEnv (.int 0)) [0, 1] 2 ∧ Iters exEnv "k" (exLt "k" 2) (exInc "k") σ (σ.ev exEnv (.int 0)) [0, 1] 2 ∧
    Recomputable exEnv exMfEng σ "i" "k" [exMfProd] (.cons (.block [exMfCons]) [] .nil) [exMfCand] [0, 1] [0, 1] ∧ "i" ≠ constName := by
  have hev : ∀ (x : String) (v : Int), (σ.setS x v).ev exEnv (.sym x) = v := fun x v => by simp [St.ev_sym]
  have hp : producerOf exMfCand.cont [exMfProd] = some (.sym "i") := by decide
  refine ⟨by decide, ⟨by decide, ?_⟩, exIters "i" σ, exIters "k" σ, ⟨?_, ?_, ?_, ?_, ?_, ?_, ?_⟩, by decide⟩
  · intro c hc u
    simp at hc; subst hc
    cases u <;> decide
  · simp [opsOk, exMfProd]; decide
  · intro s hs n hn _
    simp at hs; subst hs
    simp [exMfProd, Stmt.opds] at hn; subst hn
    unfold Untouched; decide
  · intro s hs d hd
    simp at hs; subst hs
    simp [exMfProd, Stmt.subDims] at hd; subst hd
    exact ⟨fun n hn => by simp [Expr.atoms] at hn; exact Or.inl hn, fun v _ => ⟨v, by simp [Expr.eval, St.val]⟩⟩
  · intro c hc p hp'
    simp at hc; subst hc
    rw [hp] at hp'; simp only [Option.some.injEq] at hp'; subst hp'
    refine ⟨fun v => ⟨v, by simp [Expr.eval, St.val]⟩, fun v v' h => by rw [hev, hev] at h; exact h, fun D hD t ht => ?_⟩
    simp [exMfEng] at hD; subst hD
    simp at ht; subst ht; simp [Expr.atoms]
  · intro c hc
    simp at hc; subst hc
    refine ⟨fun n hn => by simp [exMfCand, Expr.atoms] at hn; exact Or.inl hn, fun w hw => ⟨⟨w, by simp [exMfCand, Expr.eval, St.val]⟩, fun p hp' => ?_⟩⟩
    rw [hp] at hp'; simp only [Option.some.injEq] at hp'; subst hp'
    exact ⟨w, hw, by rw [hev]; exact hev "k" w⟩
  · intro x hx h
    have : x = "A" := by simpa [exMfProd, blockWrites, Stmt.users, readsOf] using hx
    exact absurd this.symm (h exMfCand (by simp))
  · decide

/-! ### programs the transformation changes -/

/-- MapFusion accepts the two loops, and the transformed program ends with other contents of a container that is not a new temporary. -/
def FusionWrong (sh : Bool) (n1 n2 : Node) : Prop := ∃ (E : Env) (P : PolyEngine) (arr arg : String → Bool) (tmp : String → Expr → String) (xs : List String)
    (cs : List Cand) (σ σ' τ' : St) (y : String) (j : List Int), (∀ ρ, P.Sound ρ) ∧ P.NormSound ∧ NoNewSyms P ∧ canFuse P arr arg tmp xs n1 [] n2 = some cs ∧
    FreshTemps cs n1 n2 ∧ (Seq.cons n1 [] (.cons n2 [] .nil)).den E σ .normal σ' ∧ (Seq.cons n1 [] (.cons (fuseLoop P sh cs n1 n2) [] .nil)).den E σ .normal τ' ∧
    (∀ c ∈ cs, c.tmp ≠ y) ∧ σ' y j ≠ τ' y j

/-- collect a witness -/
theorem FusionWrong.of {sh : Bool} {n1 n2 : Node} {cs : List Cand} {y : String} {j : List Int} {a b : Int} (σ : St) (arg : String → Bool)
    (h : canFuse exMfEng exMfArr arg exMfTmp ["A"] n1 [] n2 = some cs) (hf : FreshTemps cs n1 n2)
    (ha : ((Seq.cons n1 [] (.cons n2 [] .nil)).run exEnv 60 σ).map (fun r => (r.1, r.2 y j)) = some (.normal, a))
    (hb : ((Seq.cons n1 [] (.cons (fuseLoop exMfEng sh cs n1 n2) [] .nil)).run exEnv 60 σ).map (fun r => (r.1, r.2 y j)) = some (.normal, b))
    (hy : ∀ c ∈ cs, c.tmp ≠ y) (hab : a ≠ b) : FusionWrong sh n1 n2 := by
  obtain ⟨σ', h1, h2⟩ := Seq.run_obs 60 ha
  obtain ⟨τ', h3, h4⟩ := Seq.run_obs 60 hb
  exact ⟨exEnv, exMfEng, exMfArr, arg, exMfTmp, ["A"], cs, σ, σ', τ', y, j, exMfEng_sound, exMfEng_norm, exMfEng_syms, h, hf, h1, h3, hy, by rw [h2, h4]; exact hab⟩

/-- `B[x] = x + 5`, everything else 0 -/
def exMfSt : St := fun x j => if x = "B" then j.headD 0 + 5 else 0

theorem fresh_of {cs : List Cand} {n1 n2 : Node} (h : (cs.map (·.tmp)).Nodup ∧ ∀ c ∈ cs, c.tmp ∉ (n1.users ++ n2.users).map (·.2)) :
    FreshTemps cs n1 n2 :=
  ⟨h.1, fun c hc u => ⟨fun hu => h.2 c hc (List.mem_map.2 ⟨_, List.mem_append_left _ hu, rfl⟩),
    fun hu => h.2 c hc (List.mem_map.2 ⟨_, List.mem_append_right _ hu, rfl⟩)⟩⟩

set_option maxRecDepth 8000 in
/-- **C83 is false** when the second loop reads elements the map did not write: `map i < 2 { A[i] := B[i] }; for k < 3 { C[k] := A[k] }` reads `A[2]`,
which keeps its old contents, and the transformed loop computes `B[2]`. -/
theorem map_fusion_range_violated : FusionWrong false (exMfMap 2 [exMfProd]) (exMfFor 3 [exMfCons] []) :=
  .of (cs := [exMfCand]) (y := "C") (j := [2]) (a := 0) (b := 7) exMfSt (fun _ => true) (by decide) (fresh_of (by decide)) (by decide) (by decide) (by decide) (by decide)

/-- `A[2 * i] := B[i]` -/
def exMfEven : Stmt := .tasklet "assign" [("B", [.sym "i"])] "A" [.mul [.int 2, .sym "i"]]
/-- its candidate -/
def exMfHalf : Cand := ⟨"A", .sym "k", .fn "idiv" [.add [.sym "k", .mul [.int (-1), .int 0]], .int 2], "_t"⟩

set_option maxRecDepth 8000 in
/-- **C83 is false** for strided maps: `map i { A[2 * i] := B[i] }; for k { C[k] := A[k] }` reads `A[1]`, which no iteration writes, and the
transformed loop computes it as iteration `1 / 2 = 0`. -/
theorem map_fusion_stride_violated : FusionWrong false (exMfMap 2 [exMfEven]) (exMfFor 2 [exMfCons] []) :=
  .of (cs := [exMfHalf]) (y := "C") (j := [1]) (a := 0) (b := 5) exMfSt (fun _ => true) (by decide) (fresh_of (by decide)) (by decide) (by decide) (by decide) (by decide)

/-- `B[k + 1] := A[k]` -/
def exMfShift : Stmt := .tasklet "assign" [("A", [.sym "k"])] "B" [.add [.sym "k", .int 1]]

set_option maxRecDepth 8000 in
/-- **C83 is false** when the second loop overwrites what the map read: after `for k { B[k + 1] := A[k] }` the transformed loop computes `A[1]`
from the new `B[1]`. -/
theorem map_fusion_input_violated : FusionWrong false (exMfMap 2 [exMfProd]) (exMfFor 2 [exMfShift] []) :=
  .of (cs := [exMfCand]) (y := "B") (j := [2]) (a := 6) (b := 5) exMfSt (fun _ => true) (by decide) (fresh_of (by decide)) (by decide) (by decide) (by decide) (by decide)

/-- `A[i] := i` -/
def exMfIota : Stmt := .tasklet "assign" [("i", [])] "A" [.sym "i"]

set_option maxRecDepth 8000 in
/-- **C83 is false** when the map stores its own variable: the copy of `A[i] := i` in the second loop reads `i` as it was left by the map. -/
theorem map_fusion_variable_violated : FusionWrong false (exMfMap 2 [exMfIota]) (exMfFor 2 [exMfCons] []) :=
  .of (cs := [exMfCand]) (y := "C") (j := [0]) (a := 0) (b := 2) exMfSt (fun _ => true) (by decide) (fresh_of (by decide)) (by decide) (by decide) (by decide) (by decide)

/-- `s := B[i]; A[i] := s` -/
def exMfScal : List Stmt := [.tasklet "assign" [("B", [.sym "i"])] "s" [], .tasklet "assign" [("s", [])] "A" [.sym "i"]]
/-- `C[k] := A[k] + s` -/
def exMfLast : Stmt := .tasklet "add" [("A", [.sym "k"]), ("s", [])] "C" [.sym "k"]

set_option maxRecDepth 8000 in
/-- **C83 is false** when the second loop uses another result of the map's block: `C[k] := A[k] + s` with the `s` the last iteration of the map
left; the copy of the block overwrites `s`. -/
theorem map_fusion_scalar_violated : FusionWrong false (exMfMap 2 exMfScal) (exMfFor 2 [exMfLast] []) :=
  .of (cs := [exMfCand]) (y := "C") (j := [0]) (a := 11) (b := 10) exMfSt (fun _ => true) (by decide) (fresh_of (by decide)) (by decide) (by decide) (by decide) (by decide)

/-- `A[i + N] := B[i]` -/
def exMfOff : Stmt := .tasklet "assign" [("B", [.sym "i"])] "A" [.add [.sym "i", .sym "N"]]
/-- its candidate -/
def exMfOffCand : Cand := ⟨"A", .sym "k", .add [.sym "k", .mul [.int (-1), .add [.int 0, .sym "N"]]], "_t"⟩

set_option maxRecDepth 8000 in
/-- **C83 is false** when the second loop changes a symbol the map only reads: `map i { A[i + N] := B[i] }; for k { C[k] := A[k]; N := N + 1 }`.
The check accepts `N` because the first loop does not write it. -/
theorem map_fusion_symbol_violated : FusionWrong false (exMfMap 2 [exMfOff]) (exMfFor 2 [exMfCons] [("N", .add [.sym "N", .int 1])]) :=
  .of (cs := [exMfOffCand]) (y := "C") (j := [1]) (a := 6) (b := 5) exMfSt (fun _ => true) (by decide) (fresh_of (by decide)) (by decide) (by decide) (by decide) (by decide)

/-- `C[k] := A[k] + A[k + 1]` -/
def exMfTwo : Stmt := .tasklet "add" [("A", [.sym "k"]), ("A", [.add [.sym "k", .int 1]])] "C" [.sym "k"]
/-- the second candidate -/
def exMfNext : Cand := ⟨"A", .add [.sym "k", .int 1], .add [.add [.sym "k", .int 1], .mul [.int (-1), .int 0]], "_u"⟩

set_option maxRecDepth 8000 in
/-- **C83 is false** when one access node feeds reads of two elements: `C[k] := A[k] + A[k + 1]` becomes the sum of two reads of the same
temporary.  Every other condition of `map_fusion_partial` holds for this program. -/
theorem map_fusion_shared_node_violated : FusionWrong true (exMfMap 3 [exMfProd]) (exMfFor 2 [exMfTwo] []) :=
  .of (cs := [exMfCand, exMfNext]) (y := "C") (j := [0]) (a := 11) (b := 12) exMfSt (fun _ => true) (by decide) (fresh_of (by decide)) (by decide) (by decide) (by decide) (by decide)

/-- with separate access nodes the same program keeps its results -/
example : ((Seq.cons (exMfMap 3 [exMfProd]) [] (.cons (fuseLoop exMfEng false [exMfCand, exMfNext] (exMfMap 3 [exMfProd]) (exMfFor 2 [exMfTwo] [])) [] .nil)).run
    exEnv 60 exMfSt).map (fun r => (r.2 "C" [0], r.2 "C" [1])) = some (11, 13) := by decide

end Docc.IR
