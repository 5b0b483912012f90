import Verif.Expand.MatMul
import Verif.Expand.GemmProps
/-
C68: the expansion of MatMul multiplies matrices.
-/
namespace Docc.Expand
open Docc.Sym Docc.IR Docc.Types

theorem isView_false {a b s1 s2 : Expr} (h : isView [a, b] [s1, s2] = false) : s1 = .mul [.int 1, b] ∧ s2 = .int 1 := by
  simp only [isView, stridesFromShape, List.zip_cons_cons, List.zip_nil_left, List.any_cons, List.any_nil, Bool.or_false, Bool.or_eq_false_iff,
    decide_eq_false_iff_not, Decidable.not_not] at h
  exact h

theorem ld_eval {E : Env} {s : St} {b : Expr} (h : s.defd E b) : s.ev E (.mul [.int 1, b]) = s.ev E b := by
  rw [St.ev_of_eval (Docc.Types.eval_mul2 (a := .int 1) (x := 1) rfl (St.eval_of_defd h)), Int.one_mul]

theorem ld_defd {E : Env} {s : St} {b : Expr} (h : s.defd E b) : s.defd E (.mul [.int 1, b]) :=
  ⟨_, Docc.Types.eval_mul2 (a := .int 1) (x := 1) rfl (St.eval_of_defd h)⟩

/-- a matrix after `copy_if_view` -/
theorem copy_ok {E : Env} {s : St} {p : Prim} {name copy : String} {ci : List String} {a b s1 s2 off : Expr} (hasg : ∀ x, E.op "assign" [x] = x)
    (hci : ci.length = 2) (hnd : (copy :: ci).Nodup) (hname : name ∉ copy :: ci)
    (hex : ∀ e ∈ [a, b, s1, s2, off], s.defd E e ∧ ∀ x ∈ e.atoms, x ∉ copy :: ci) (hv : isView [a, b] [s1, s2] = true → s.ev E off = 0) :
    ∃ s', (∀ c t, (copyIfView p name copy ci [a, b] [s1, s2] off).1.den E s c t ↔ c = .normal ∧ t = s') ∧ (∀ x, x ∉ copy :: ci → s' x = s x) ∧
      ∀ r c, InRange [s.ev E a, s.ev E b] [r, c] → s' (copyIfView p name copy ci [a, b] [s1, s2] off).2 [s.ev E off + (s.ev E b * r + c)] =
        (Opd.mk name ⟨p, [a, b], [s1, s2], off⟩).elem E s [r, c] := by
  unfold copyIfView
  cases hvw : isView [a, b] [s1, s2] with
  | false =>
    obtain ⟨rfl, rfl⟩ := isView_false hvw
    refine ⟨s, fun c t => Iff.rfl, fun _ _ => rfl, fun r c _ => ?_⟩
    simp only [Bool.false_eq_true, if_false, Opd.elem, elemAddr, List.cons_ne_nil, List.map_cons, List.map_nil, addr, dot, St.ev_int]
    rw [ld_eval (hex b (by simp)).1]
    congr 2
    omega
  | true =>
    have hin : ∀ e ∈ [a, b, s1, s2, off], ∀ x ∈ e.atoms, x ∉ ci ∧ x ≠ copy := by
      intro e he x hx
      have := (hex e he).2 x hx
      simp only [List.mem_cons, not_or] at this
      exact ⟨this.2, this.1⟩
    rw [List.nodup_cons] at hnd
    have hfresh : FreshVars ci copy [a, b] := ⟨hnd.2, hci, hnd.1, fun e he => hin e (by
      simp only [List.mem_cons, List.not_mem_nil, or_false] at he
      rcases he with rfl | rfl <;> simp)⟩
    simp only [List.mem_cons, not_or] at hname
    have hcopy : OpdOk E s ci copy ⟨copy, .ofShape p [a, b]⟩ := by
      refine ⟨⟨fun e he => ?_, ⟨0, rfl⟩⟩, fun x hx => ?_, hnd.1⟩
      · simp only [Tensor.ofShape, stridesFromShape, List.mem_cons, List.not_mem_nil, or_false] at he
        rcases he with rfl | rfl
        · exact ld_defd (hex b (by simp)).1
        · exact ⟨1, rfl⟩
      · simp only [tySyms, Tensor.ofShape, stridesFromShape, List.mem_append, Expr.mem_atomsL, List.mem_cons, List.not_mem_nil, or_false] at hx
        rcases hx with ⟨e, rfl | rfl, hx⟩ | hx
        · refine hin b (by simp) x ?_
          simpa [Expr.atoms, Expr.atomsL] using hx
        · simp [Expr.atoms] at hx
        · simp [Expr.atoms] at hx
    have hx : OpdOk E s ci copy ⟨name, ⟨p, [a, b], [s1, s2], off⟩⟩ := by
      refine ⟨⟨fun e he => ?_, (hex off (by simp)).1⟩, fun x hx => ?_, hname.2⟩
      · simp only [List.mem_cons, List.not_mem_nil, or_false] at he
        rcases he with rfl | rfl <;> exact (hex _ (by simp)).1
      · simp only [tySyms, List.mem_append, Expr.mem_atomsL, List.mem_cons, List.not_mem_nil, or_false] at hx
        rcases hx with ⟨e, rfl | rfl, hx⟩ | hx <;> exact hin _ (by simp) x hx
    have hf := point_fills (E := E) (σ := s) (op := "assign") (ins := [⟨⟨name, ⟨p, [a, b], [s1, s2], off⟩⟩, syms ci, id⟩])
      (out := ⟨copy, .ofShape p [a, b]⟩) (oix := syms ci) (fo := id) (m := true) hfresh
      (by
        intro q hq
        rw [List.mem_singleton] at hq
        subst hq
        exact ⟨hx, Or.inl hname.1, fun s => vals_syms E s ci⟩)
      hcopy (fun s => vals_syms E s ci)
      (rowMajor_injective (by
        intro e he
        simp only [List.mem_cons, List.not_mem_nil, or_false] at he
        rcases he with rfl | rfl <;> exact (hex _ (by simp)).1))
    obtain ⟨s', h1, h2, h3⟩ := hf
    refine ⟨s', h1, fun x hx => ?_, fun r c hrc => ?_⟩
    · simp only [List.mem_cons, not_or] at hx
      funext j
      exact h3 x j hx.2 fun h => absurd h hx.1
    · have := h2 [r, c] hrc
      simp only [List.map_cons, List.map_nil, hasg, id, elemAddr, Tensor.ofShape, stridesFromShape, List.cons_ne_nil, if_false, addr, dot, St.ev_int] at this
      rw [ld_eval (hex b (by simp)).1] at this
      simp only [if_true]
      rw [hv hvw]
      rw [← this]
      congr 2
      omega


/-- programs that end normally, in one state -/
theorem Fills.after {E : Env} {σ s : St} {a e : Seq} {vs ws : List String} {Y : String} {dom : List Int → Prop} {A : List Int → List Int} {V : List Int → Int}
    (ha : ∀ c t, a.den E σ c t ↔ c = .normal ∧ t = s) (hs : ∀ x, x ∉ ws → s x = σ x) (h : Fills E s e vs Y dom A V)
    (hsub : ∀ x ∈ vs, x ∈ ws) : Fills E σ (a ++ e) ws Y dom A V := by
  obtain ⟨σ', h1, h2, h3⟩ := h
  refine ⟨σ', den_comp ha h1, h2, fun x j hx hj => ?_⟩
  rw [h3 x j (fun h => hx (hsub x h)) hj, hs x hx]

theorem Fills.cast {E : Env} {σ : St} {e : Seq} {vs : List String} {Y : String} {dom dom' : List Int → Prop} {A A' : List Int → List Int} {V V' : List Int → Int}
    (h : Fills E σ e vs Y dom A V) (hd : ∀ ix, dom ix ↔ dom' ix) (hA : ∀ ix, dom' ix → A ix = A' ix) (hV : ∀ ix, dom' ix → V ix = V' ix) :
    Fills E σ e vs Y dom' A' V' := by
  obtain ⟨σ', h1, h2, h3⟩ := h
  refine ⟨σ', h1, fun ix hix => ?_, fun x j hx hj => h3 x j hx fun hy ix hix => ?_⟩
  · rw [← hA ix hix, ← hV ix hix]
    exact h2 ix ((hd ix).mpr hix)
  · rw [hA ix ((hd ix).mp hix)]
    exact hj hy ix ((hd ix).mp hix)

theorem defd_congr {E : Env} {σ τ : St} {e : Expr} (h : ∀ x ∈ e.atoms, τ x = σ x) (hd : σ.defd E e) : τ.defd E e := by
  obtain ⟨k, hk⟩ := hd
  refine ⟨k, ?_⟩
  rw [eval_congr_atoms e (τ.val E) (σ.val E) rfl fun x hx => ?_]
  · exact hk
  · show τ x [] = σ x []
    rw [h x hx]

theorem ev_congr' {E : Env} {σ τ : St} {e : Expr} (h : ∀ x ∈ e.atoms, τ x = σ x) : τ.ev E e = σ.ev E e :=
  St.ev_congr E fun x hx => by rw [h x hx]

/-- **C68 (MatMul).** For matrices the expansion stores `Y[i][j] = Σ_k A[i][k] * B[k][j]`, for inputs of any strides, in exact arithmetic, and changes
nothing else. Missing from the full property: batch dimensions, offsets of inputs that are not row-major, outputs that are not row-major or have an offset
(violated below), integers (not expanded), outputs that share memory with an input, and rounding. -/
theorem matmul_partial {E : Env} {σ : St} {p : Prim} {M : MatMul} {V : MMVars} {m k k' n a1 a2 b1 b2 : Expr} (hE : Exact E) (h0 : σ "0.0" [] = 0)
    (h1 : σ "1.0" [] = 1) (hA : M.shapeA = [m, k]) (hB : M.shapeB = [k', n]) (hsA : M.stridesA = [a1, a2]) (hsB : M.stridesB = [b1, b2])
    (hY : M.tyY = .ofShape p [m, n])
    (hk : σ.ev E k' = σ.ev E k) (hoA : isView M.shapeA M.stridesA = true → σ.ev E M.offA = 0) (hoB : isView M.shapeB M.stridesB = true → σ.ev E M.offB = 0)
    (h : MMOk E σ M V) :
    ∃ e, matmul p M V = some e ∧ Fills E σ e V.all M.y (InRange [σ.ev E m, σ.ev E n]) (elemAddr E σ M.tyY)
      (fun ix => ((List.range (σ.ev E k).toNat).map fun (l : Nat) => (M.opdA p).elem E σ [ix.getD 0 0, l] * (M.opdB p).elem E σ [l, ix.getD 1 0]).sum) := by
  obtain ⟨sA, sB, rA, rB, oA, oB, a, b, y, tyY⟩ := M
  obtain ⟨copyA, ciA, copyB, ciB, batch, refA, refB, refC, g⟩ := V
  simp only at hA hB hsA hsB hY hoA hoB
  subst hA hB hsA hsB hY
  have hbt : batch = [] := List.length_eq_zero_iff.mp h.batch
  subst hbt
  have hex : ∀ e ∈ [m, k, k', n, a1, a2, b1, b2, oA, oB], σ.defd E e ∧ ∀ x ∈ e.atoms,
      (x ≠ copyA ∧ x ≠ copyB ∧ x ≠ refA ∧ x ≠ refB ∧ x ≠ refC ∧ (x ∉ ciA ∧ x ∉ ciB) ∧ x ∉ g.all) ∧ x ≠ y := by
    intro e he
    have := h.exprs e (by simpa using he)
    simpa only [MMVars.all, List.append_nil, List.mem_cons, List.mem_append, not_or] using this
  have hnd := h.nodup
  simp only [MMVars.all, List.append_nil, List.nodup_cons, List.nodup_append, List.mem_cons, List.mem_append, not_or] at hnd
  obtain ⟨⟨nAB, nArA, nArB, nArC, ⟨nAcA, nAcB⟩, nAg⟩, ⟨nBrA, nBrB, nBrC, ⟨nBcA, nBcB⟩, nBg⟩, ⟨nrAB, nrAC, ⟨nrAcA, nrAcB⟩, nrAg⟩, ⟨nrBC, ⟨nrBcA, nrBcB⟩, nrBg⟩,
    ⟨⟨nrCcA, nrCcB⟩, nrCg⟩, ⟨ndA, ndB, dAB⟩, ndg, dg⟩ := hnd
  have hnm := h.names
  have hout := h.out
  simp only [MMVars.all, List.append_nil, List.mem_cons, List.mem_append, not_or] at hnm
  -- copy A
  obtain ⟨s1, d1, f1, v1⟩ := copy_ok (E := E) (s := σ) (p := p) (name := a) (copy := copyA) (ci := ciA) (a := m) (b := k) (s1 := a1) (s2 := a2) (off := oA)
    hE.assign h.ciA (List.nodup_cons.mpr ⟨nAcA, ndA⟩) (by have := hnm a (by simp); simp [this])
    (fun e he => ⟨(hex e (by simp at he; rcases he with rfl | rfl | rfl | rfl | rfl <;> simp)).1, fun x hx => by
      have := (hex e (by simp at he; rcases he with rfl | rfl | rfl | rfl | rfl <;> simp)).2 x hx
      simp [this]⟩) hoA
  have e1 : ∀ e ∈ [m, k, k', n, a1, a2, b1, b2, oA, oB], s1.defd E e ∧ s1.ev E e = σ.ev E e := by
    intro e he
    have hf : ∀ x ∈ e.atoms, s1 x = σ x := fun x hx => f1 x (by have := (hex e he).2 x hx; simp [this])
    exact ⟨defd_congr hf (hex e he).1, ev_congr' hf⟩
  -- copy B
  obtain ⟨s2, d2, f2, v2⟩ := copy_ok (E := E) (s := s1) (p := p) (name := b) (copy := copyB) (ci := ciB) (a := k') (b := n) (s1 := b1) (s2 := b2) (off := oB)
    hE.assign h.ciB (List.nodup_cons.mpr ⟨nBcB, ndB⟩) (by have := hnm b (by simp); simp [this])
    (fun e he => ⟨(e1 e (by simp at he; rcases he with rfl | rfl | rfl | rfl | rfl <;> simp)).1, fun x hx => by
      have := (hex e (by simp at he; rcases he with rfl | rfl | rfl | rfl | rfl <;> simp)).2 x hx
      simp [this]⟩) (fun hv => by rw [(e1 oB (by simp)).2]; exact hoB hv)
  have e2 : ∀ e ∈ [m, k, k', n, a1, a2, b1, b2, oA, oB], s2.defd E e ∧ s2.ev E e = σ.ev E e := by
    intro e he
    have hf : ∀ x ∈ e.atoms, s2 x = s1 x := fun x hx => f2 x (by have := (hex e he).2 x hx; simp [this])
    exact ⟨defd_congr hf (e1 e he).1, (ev_congr' hf).trans (e1 e he).2⟩
  -- the references
  let s3 : St := ((s2.setS refA (s2.ev E oA)).setS refB (s2.ev E oB)).setS refC 0
  have f3 : ∀ x, x ≠ refA → x ≠ refB → x ≠ refC → s3 x = s2 x := by
    intro x h1 h2 h3
    funext j
    simp only [s3]
    rw [St.setS_other _ _ h3, St.setS_other _ _ h2, St.setS_other _ _ h1]
  have e3 : ∀ e ∈ [m, k, k', n, a1, a2, b1, b2, oA, oB], s3.defd E e ∧ s3.ev E e = σ.ev E e := by
    intro e he
    have hf : ∀ x ∈ e.atoms, s3 x = s2 x := fun x hx => by have := (hex e he).2 x hx; exact f3 x this.1.2.2.1 this.1.2.2.2.1 this.1.2.2.2.2.1
    exact ⟨defd_congr hf (e2 e he).1, (ev_congr' hf).trans (e2 e he).2⟩
  have hna : (copyIfView p a copyA ciA [m, k] [a1, a2] oA).2 = a ∨ (copyIfView p a copyA ciA [m, k] [a1, a2] oA).2 = copyA := by
    unfold copyIfView; split <;> simp
  have hnb : (copyIfView p b copyB ciB [k', n] [b1, b2] oB).2 = b ∨ (copyIfView p b copyB ciB [k', n] [b1, b2] oB).2 = copyB := by
    unfold copyIfView; split <;> simp
  have na := hnm a (by simp)
  have nb := hnm b (by simp)
  have ny := hnm y (by simp)
  have n0 := hnm "0.0" (by simp)
  have n1 := hnm "1.0" (by simp)
  have oa := hout a (by simp)
  have ob := hout b (by simp)
  have o0 := hout "0.0" (by simp)
  have o1 := hout "1.0" (by simp)
  simp only at oa ob o0 o1
  have gm := gemm_exact_partial (E := E) (σ := s3) (v := g) (G := MatMul.gemm ⟨[m, k], [k', n], [a1, a2], [b1, b2], oA, oB, a, b, y, .ofShape p [m, n]⟩
    ⟨copyA, ciA, copyB, ciB, [], refA, refB, refC, g⟩ (copyIfView p a copyA ciA [m, k] [a1, a2] oA).2 (copyIfView p b copyB ciB [k', n] [b1, b2] oB).2) hE
    (by rw [f3 "0.0", f2 "0.0", f1 "0.0", h0] <;> (have := hnm "0.0" (by simp); simp [this])) rfl ⟨rfl, rfl⟩
    (by
      refine ⟨ndg, ?_, ?_, Or.inr rfl, ?_, ?_⟩
      · intro x hx
        simp only [MatMul.gemm, List.mem_cons, List.not_mem_nil, or_false] at hx
        rcases hx with rfl | rfl | rfl | rfl | rfl | rfl | rfl
        · rcases hna with e | e <;> rw [e] <;> simp [*]
        · rcases hnb with e | e <;> rw [e] <;> simp [*]
        all_goals simp [*]
      · intro x hx
        simp only [MatMul.gemm, List.mem_cons, List.not_mem_nil, or_false] at hx ⊢
        rcases hx with rfl | rfl | rfl | rfl | rfl
        · rcases hna with e | e <;> rw [e]
          · exact oa
          · exact fun e => ny.1 e.symm
        · rcases hnb with e | e <;> rw [e]
          · exact ob
          · exact fun e => ny.2.1 e.symm
        · exact o1
        · exact o0
        · exact o0
      · intro x hx
        have hmem : x ∈ m.atoms ∨ x ∈ n.atoms ∨ x ∈ k.atoms ∨ x = refA ∨ x = refB ∨ x = refC := by
          simp only [MatMul.gemm, MatMul.m, MatMul.n, MatMul.k, Mat.syms, stridesFromShape, List.mem_append, Option.toList, List.length_cons, List.length_nil,
            List.mem_cons, List.not_mem_nil, or_false] at hx
          simp [Expr.atoms, Expr.atomsL] at hx
          grind
        rcases hmem with hx | hx | hx | rfl | rfl | rfl
        · exact ⟨((hex m (by simp)).2 x hx).1.2.2.2.2.2.2, ((hex m (by simp)).2 x hx).2⟩
        · exact ⟨((hex n (by simp)).2 x hx).1.2.2.2.2.2.2, ((hex n (by simp)).2 x hx).2⟩
        · exact ⟨((hex k (by simp)).2 x hx).1.2.2.2.2.2.2, ((hex k (by simp)).2 x hx).2⟩
        · exact ⟨nrAg, fun e => ny.2.2.1 e.symm⟩
        · exact ⟨nrBg, fun e => ny.2.2.2.1 e.symm⟩
        · exact ⟨nrCg, fun e => ny.2.2.2.2.1 e.symm⟩
      · intro X hX
        simp only [MatMul.gemm, MatMul.n, stridesFromShape, List.mem_cons, List.not_mem_nil, or_false] at hX
        rcases hX with rfl | rfl | rfl | rfl
        · exact ld_defd (e3 k (by simp)).1
        · exact ld_defd (e3 n (by simp)).1
        · exact (e3 n (by simp)).1
        · exact (e3 n (by simp)).1)
    (Int.le_refl _)
  obtain ⟨e, he, hfl⟩ := gm
  have hrA : s3 refA [] = σ.ev E oA := by
    simp only [s3]
    rw [St.setS_other _ _ nrAC, St.setS_other _ _ nrAB, St.setS_same, (e2 oA (by simp)).2]
  have hrB : s3 refB [] = σ.ev E oB := by
    simp only [s3]
    rw [St.setS_other _ _ nrBC, St.setS_same, (e2 oB (by simp)).2]
  have hrC : s3 refC [] = 0 := by
    simp only [s3]
    rw [St.setS_same]
  have hrefs : ∀ c t, (Seq.cons (.block []) [(refA, oA), (refB, oB), (refC, .int 0)] .nil).den E s2 c t ↔ c = .normal ∧ t = s3 := by
    intro c t
    rw [Seq.den, Node.den, Seq.den, show runBlock E [] = id from rfl, Rel.skip_seq, Rel.seq_skip]
    have : runTrans E [(refA, oA), (refB, oB), (refC, .int 0)] s2 = s3 := by
      simp only [runTrans, List.foldl_cons, List.foldl_nil, s3, St.ev_int]
      congr 2
      exact ev_congr' fun x hx => by
        funext j
        rw [St.setS_other _ _ ((hex oB (by simp)).2 x hx).1.2.2.1]
    rw [← this]
    exact Iff.rfl
  have hall := den_comp d1 (den_comp d2 hrefs)
  have hfl' : Fills E s3 e g.all y (InRange [σ.ev E m, σ.ev E n]) (elemAddr E σ (.ofShape p [m, n]))
      (fun ix => ((List.range (σ.ev E k).toNat).map fun (l : Nat) => (Opd.mk a ⟨p, [m, k], [a1, a2], oA⟩).elem E σ [ix.getD 0 0, l] *
        (Opd.mk b ⟨p, [k', n], [b1, b2], oB⟩).elem E σ [l, ix.getD 1 0]).sum) := by
    refine Fills.cast hfl (fun ix => ?_) (fun ix hix => ?_) (fun ix hix => ?_)
    · show InRange [s3.ev E m, s3.ev E n] ix ↔ _
      rw [(e3 m (by simp)).2, (e3 n (by simp)).2]
    · obtain ⟨i, j, rfl, hi, hj⟩ := inRange2 hix
      show [s3 refC [] + (s3.ev E n * i + j)] = _
      simp only [hrC, (e3 n (by simp)).2, elemAddr, Tensor.ofShape, stridesFromShape, List.cons_ne_nil, if_false, List.map_cons, List.map_nil, addr, dot, St.ev_int]
      rw [ld_eval (hex n (by simp)).1]
      congr 1
      omega
    · obtain ⟨i, j, rfl, hi, hj⟩ := inRange2 hix
      have hal : s3 "1.0" [] = 1 := by
        rw [f3 "1.0", f2 "1.0", f1 "1.0", h1] <;> simp [n1]
      have hbe : s3 "0.0" [] = 0 := by
        rw [f3 "0.0", f2 "0.0", f1 "0.0", h0] <;> simp [n0]
      show (List.map _ (List.range (s3.ev E k).toNat)).sum * s3 "1.0" [] + _ * s3 "0.0" [] = _
      rw [hal, hbe, Int.mul_one, Int.mul_zero, Int.add_zero, (e3 k (by simp)).2]
      congr 1
      apply List.map_congr_left
      intro l hl
      rw [List.mem_range] at hl
      have hl' : (l : Int) < σ.ev E k := by omega
      congr 1
      · show s3 (copyIfView p a copyA ciA [m, k] [a1, a2] oA).2 [s3 refA [] + (s3.ev E (.mul [.int 1, k]) * i + l)] = _
        rw [ld_eval (e3 k (by simp)).1, (e3 k (by simp)).2, hrA]
        have := v1 i l ⟨hi, ⟨by omega, hl'⟩, trivial⟩
        refine Eq.trans ?_ this
        rcases hna with e | e <;> rw [e]
        · rw [f3 a, f2 a] <;> simp [na]
        · rw [f3 copyA nArA nArB nArC, f2 copyA (by simp [nAB, nAcB])]
      · show s3 (copyIfView p b copyB ciB [k', n] [b1, b2] oB).2 [s3 refB [] + (s3.ev E (.mul [.int 1, n]) * l + j)] = _
        rw [ld_eval (e3 n (by simp)).1, (e3 n (by simp)).2, hrB]
        have := v2 l j ⟨⟨by omega, by rw [(e1 k' (by simp)).2, hk]; exact hl'⟩, by rw [(e1 n (by simp)).2]; exact hj, trivial⟩
        rw [(e1 oB (by simp)).2, (e1 n (by simp)).2] at this
        have h2 : (Opd.mk b ⟨p, [k', n], [b1, b2], oB⟩).elem E s1 [l, j] = (Opd.mk b ⟨p, [k', n], [b1, b2], oB⟩).elem E σ [l, j] := by
          simp only [Opd.elem, elemAddr, List.cons_ne_nil, if_false, List.map_cons, List.map_nil]
          rw [(e1 b1 (by simp)).2, (e1 b2 (by simp)).2, (e1 oB (by simp)).2, f1 b (by simp [nb])]
        refine Eq.trans ?_ (this.trans h2)
        rcases hnb with e | e <;> rw [e]
        · rw [f3 b] <;> simp [nb]
        · rw [f3 copyB nBrA nBrB nBrC]
  have hend := Fills.after (ws := copyA :: copyB :: refA :: refB :: refC :: (ciA ++ ciB ++ g.all ++ [])) hall (fun x hx => by
    simp only [List.append_nil, List.mem_cons, List.mem_append, not_or] at hx
    rw [f3 x hx.2.2.1 hx.2.2.2.1 hx.2.2.2.2.1, f2 x (by simp [hx]), f1 x (by simp [hx])]) hfl' (fun x hx => by simp [hx])
  refine ⟨_, ?_, hend⟩
  simp only [matmul, he, Option.map_some, Option.some.injEq]
  rw [Seq.append_assoc, Seq.append_assoc]
  rfl

end Docc.Expand
