import Verif.IR.CudaViol

/-
CUDAParallelizeNestedMap: when the nest it builds can be launched.
-/
namespace Docc.IR
open Docc.Sym

/-- a nest of normalized maps on distinct dimensions can be launched -/
theorem launchable_of {K : Cuda} (hK : ∀ l, (K.order l).Perm l) {s : Seq} (hs : s.cmaps K = []) (hl : ∀ used, s.launchable K used = true) :
    ∀ (qs : List CMap) (used : List CDim), (∀ m ∈ qs, (K.dim m.i).isSome) → (qs.map fun m => K.dim m.i).Nodup →
      (∀ m ∈ qs, ∀ d ∈ used, K.dim m.i ≠ some d) →
      (∀ m ∈ qs, m.init = .int 0 ∧ loopStride m.i m.upd = some 1 ∧ ∃ b, canonicalBound (K.mono m.i) m.i m.cond = some b) →
      (mapNest s qs).launchable K used = true
  | [], used, _, _, _, _ => hl used
  | m :: r, used, hd, hn, hu, hf => by
    obtain ⟨d, hdm⟩ := Option.isSome_iff_exists.1 (hd m (List.mem_cons_self ..))
    rw [mapNest, Seq.one, Seq.launchable, Seq.launchable, Node.launchable]
    simp only [Cuda.dimOf, if_true, hdm, Bool.and_true, Bool.and_eq_true, Bool.not_eq_true']
    have hn' := List.nodup_cons.1 hn
    refine ⟨⟨?_, ?_⟩, launchable_of hK hs hl r (d :: used) (fun q hq => hd q (List.mem_cons_of_mem _ hq)) hn'.2 ?_
      fun q hq => hf q (List.mem_cons_of_mem _ hq)⟩
    · rw [← Bool.not_eq_true]
      intro h
      exact hu m (List.mem_cons_self ..) d (by simpa using h) hdm
    · obtain ⟨h0, h1, b, hb⟩ := hf m (List.mem_cons_self ..)
      have := iterations_eq hK (nestNode_cmaps hs m r hd) hn (List.mem_cons_self ..) hdm h0 h1
      show (K.iterations d (nestNode s m r)).isSome = true
      rw [this, hb]; rfl
    · intro q hq d' hd' e
      rcases List.mem_cons.1 hd' with rfl | hd'
      · exact hn'.1 (List.mem_map.2 ⟨q, hq, e.trans hdm.symm⟩)
      · exact hu q (List.mem_cons_of_mem _ hq) d' hd' e

/-- the dimensions in the order in which the CUDA scheduler assigns them (opt cuda_scheduler.cpp: X for the outermost map) -/
def CDim.all : List CDim := [.x, .y, .z]

/-- **C87** (partial).  If the maps around the innermost map have the dimensions X or X, Y from the outside in, every nest that
`CUDAParallelizeNestedMap` accepts can be launched afterwards.  Missing: other assignments of dimensions (`cuda_dimension_reuse_violated`). -/
theorem cuda_nest_launchable_partial {K : Cuda} {s : Seq} {m0 m : CMap} {r : List CMap} {b : Int} (hK : ∀ l, (K.order l).Perm l)
    (hdims : (m0 :: r).map (fun q => K.dim q.i) = (CDim.all.take (r.length + 1)).map some)
    (hf : ∀ q ∈ m0 :: r, q.init = .int 0 ∧ loopStride q.i q.upd = some 1 ∧ ∃ e, canonicalBound (K.mono q.i) q.i q.cond = some e)
    (hap : K.canNest (((m0 :: r).reverse).map fun q => (true, q)) m = true) (hbd : ∃ e, canonicalBound (K.mono m.i) m.i m.cond = some e)
    (hne : ∀ q ∈ m0 :: r, q.i ≠ m.i)
    (hs0 : s.cmaps (K.nested ((m0 :: r).getLast (by simp)).i m.i b) = [])
    (hl : ∀ used, s.launchable (K.nested ((m0 :: r).getLast (by simp)).i m.i b) used = true) :
    (nestNode s m0 (r ++ [m])).launchable (K.nested ((m0 :: r).getLast (by simp)).i m.i b) [] = true := by
  simp only [Cuda.canNest, Bool.and_eq_true] at hap
  obtain ⟨⟨⟨_, hanc⟩, hi0⟩, hst⟩ := hap
  have hm : m.init = .int 0 ∧ loopStride m.i m.upd = some 1 ∧ ∃ e, canonicalBound (K.mono m.i) m.i m.cond = some e :=
    ⟨by simpa using hi0, by simpa using hst, hbd⟩
  match r, hdims, hf, hne, hanc, hs0, hl with
  | [], hdims, hf, hne, hanc, hs0, hl =>
    have h0 : K.dim m0.i = some .x := by simpa [CDim.all] using hdims
    have g0 : (K.nested m0.i m.i b).dim m0.i = some .x := by simp [Cuda.nested, hne m0 (by simp), h0]
    have g1 : (K.nested m0.i m.i b).dim m.i = some .y := by simp [Cuda.nested, h0, CDim.next]
    have := launchable_of (K := K.nested m0.i m.i b) hK hs0 hl [m0, m] [] (by simp [g0, g1]) (by simp [g0, g1]) (by simp)
      (by
        intro q hq
        simp only [List.mem_cons, List.not_mem_nil, or_false] at hq
        rcases hq with rfl | rfl
        · exact hf q (by simp)
        · exact hm)
    rw [mapNest, Seq.one, Seq.launchable, Seq.launchable, Bool.and_true] at this
    exact this
  | [p], hdims, hf, hne, hanc, hs0, hl =>
    have h0 : K.dim m0.i = some .x ∧ K.dim p.i = some .y := by simpa [CDim.all] using hdims
    have g0 : (K.nested p.i m.i b).dim m0.i = some .x := by simp [Cuda.nested, hne m0 (by simp), h0]
    have g1 : (K.nested p.i m.i b).dim p.i = some .y := by simp [Cuda.nested, hne p (by simp), h0]
    have g2 : (K.nested p.i m.i b).dim m.i = some .z := by simp [Cuda.nested, h0, CDim.next]
    have := launchable_of (K := K.nested p.i m.i b) hK hs0 hl [m0, p, m] [] (by simp [g0, g1, g2]) (by simp [g0, g1, g2]) (by simp)
      (by
        intro q hq
        simp only [List.mem_cons, List.not_mem_nil, or_false] at hq
        rcases hq with rfl | rfl | rfl
        · exact hf q (by simp)
        · exact hf q (by simp)
        · exact hm)
    rw [mapNest, Seq.one, Seq.launchable, Seq.launchable, Bool.and_true] at this
    exact this
  | [p, q], hdims, hf, hne, hanc, hs0, hl =>
    have h0 : K.dim q.i = some .z := by
      have : K.dim m0.i = some .x ∧ K.dim p.i = some .y ∧ K.dim q.i = some .z := by simpa [CDim.all] using hdims
      exact this.2.2
    simp [h0, CDim.next] at hanc
  | _ :: _ :: _ :: t, hdims, _, _, _, _, _ =>
    have := congrArg List.length hdims
    simp only [List.length_map, List.length_cons, CDim.all, List.length_take, List.length_nil] at this
    omega

/-- Non-vacuity: a third map below maps on X and Y. -/
example : (exCuda (some .y) none 2).canNest [(true, exHdr "j" 3), (true, exHdr "i" 5)] (exHdr "k" 4) = true ∧
    ([exHdr "i" 5, exHdr "j" 3].map fun q => (exCuda (some .y) none 2).dim q.i) = [some .x, some .y] ∧
    (∀ q ∈ [exHdr "i" 5, exHdr "j" 3, exHdr "k" 4], q.init = .int 0 ∧ loopStride q.i q.upd = some 1 ∧
      ∃ e, canonicalBound ((exCuda (some .y) none 2).mono q.i) q.i q.cond = some e) := by
  refine ⟨by decide, by decide, ?_⟩
  simp [exHdr, exCuda, exLt, canonicalBound_lt, exInc, loopStride]

/-- **C87, violated.** A map on Y around a map on X around a sequential map: the transformation is accepted and gives the innermost map the dimension Y again, which the
dispatcher refuses. -/
theorem cuda_dimension_reuse_violated : ∃ (K : Cuda) (m0 p m : CMap) (s : Seq), K.dim m0.i = some .y ∧ K.dim p.i = some .x ∧
    (nestNode s m0 [p, m]).launchable K [] = true ∧ K.canNest [(true, p), (true, m0)] m = true ∧
    (nestNode s m0 [p, m]).launchable (K.nested p.i m.i 2) [] = false := by
  refine ⟨exCuda (some .y) none 2, exHdr "j" 3, exHdr "i" 5, exHdr "k" 4, .nil, by decide, by decide, ?_, by decide, ?_⟩
  · simp [nestNode, Node.launchable, Seq.launchable, mapNest, Seq.one, Cuda.dimOf, exCuda, exHdr, Cuda.iterations, Cuda.first, Node.cmaps,
      Seq.cmaps, exInc, loopStride, exLt, canonicalBound_lt]
  · simp [nestNode, Node.launchable, Seq.launchable, mapNest, Seq.one, Cuda.dimOf, Cuda.nested, exCuda, exHdr, Cuda.iterations, Cuda.first, Node.cmaps,
      Seq.cmaps, exInc, loopStride, CDim.next, exLt, canonicalBound_lt]

end Docc.IR
