import Verif.Expand.Gemm
import Verif.Expand.ReduceProps
/-
C68: the expansion of GEMM computes `alpha * A * B + beta * C`.
-/
namespace Docc.Expand
open Docc.Sym Docc.IR Docc.Types

/-- a nest around a body with scratch variables -/
theorem nest_body {E : Env} {body : Seq} {Inv : St → Prop} {ds : List Dim} {ns : List Int} {W : List String} {Y : String}
    {A : List Int → List Int} {F : List Int → Int → Int} (hnd : (ds.map (·.2.1)).Nodup) (hn : ∀ s, Inv s → ds.map (fun d => s.ev E d.2.2) = ns)
    (hY : Y ∉ ds.map (·.2.1)) (hYW : Y ∉ W) (hvars : ∀ s v k, v ∈ ds.map (·.2.1) → Inv s → Inv (s.setS v k))
    (H : ∀ s, Inv s → ∃ s', (∀ c s1, body.den E s c s1 ↔ c = .normal ∧ s1 = s') ∧ Inv s' ∧ (∀ v ∈ ds.map (·.2.1), s' v [] = s v []) ∧
      ∀ y j, y ∉ W → s' y j = s.set Y (A (ixOf (ds.map (·.2.1)) s)) (F (ixOf (ds.map (·.2.1)) s) (s Y (A (ixOf (ds.map (·.2.1)) s)))) y j)
    {s : St} (hs : Inv s) :
    ∃ s', (∀ c s1, (nest body ds).den E s c s1 ↔ c = .normal ∧ s1 = s') ∧ Inv s' ∧ ∀ y j, y ∉ ds.map (·.2.1) → y ∉ W → s' y j =
      if y = Y then ((box ns).filter (fun ix => A ix = j)).foldl (fun acc ix => F ix acc) (s Y j) else s y j := by
  classical
  let g : St → St := fun s => if h : Inv s then Classical.choose (H s h) else s
  have hg : ∀ s (h : Inv s), g s = Classical.choose (H s h) := fun s h => dif_pos h
  refine nest_acc (g := g) (Inv := Inv) ⟨fun s c s' h => ?_, fun s h => ?_, hvars, fun s v h hv => ?_⟩ hnd hn hY hYW (fun s h y j hy => ?_) hs
  · rw [hg s h]; exact (Classical.choose_spec (H s h)).1 c s'
  · rw [hg s h]; exact (Classical.choose_spec (H s h)).2.1
  · rw [hg s h]; exact (Classical.choose_spec (H s h)).2.2.1 v hv
  · rw [hg s h]; exact (Classical.choose_spec (H s h)).2.2.2 y j hy

/-- normal, single-valued programs compose -/
theorem den_comp {E : Env} {a b : Seq} {s t u : St} (ha : ∀ c s1, a.den E s c s1 ↔ c = .normal ∧ s1 = t)
    (hb : ∀ c s1, b.den E t c s1 ↔ c = .normal ∧ s1 = u) : ∀ c s1, (a ++ b).den E s c s1 ↔ c = .normal ∧ s1 = u := by
  intro c s1
  rw [Seq.den_append]
  constructor
  · rintro (⟨s2, h1, h2⟩ | ⟨h1, h2⟩)
    · obtain ⟨_, rfl⟩ := (ha _ _).mp h1
      exact (hb _ _).mp h2
    · exact absurd ((ha _ _).mp h2).1 h1
  · rintro ⟨rfl, rfl⟩
    exact Or.inl ⟨t, (ha _ _).mpr ⟨rfl, rfl⟩, (hb _ _).mpr ⟨rfl, rfl⟩⟩

theorem box_single (n : Int) : box [n] = (List.range n.toNat).map fun (k : Nat) => [(k : Int)] := by
  simp only [box, List.map_cons, List.map_nil]
  rw [← List.flatMap_pure_eq_map]
  rfl

/-- the index of a matrix element, in a state that agrees on the symbols of the matrix -/
theorem Mat.at_ev {E : Env} {σ s : St} {Y : String} {vs : List String} (h : During σ Y vs s) {X : Mat} (hd : σ.defd E X.ld)
    (hf : ∀ x ∈ X.syms, x ∉ vs ∧ x ≠ Y) (r c : String) : (X.at (.sym r) (.sym c)).2.map (s.ev E) = X.pos E σ .rowMajor (s r []) (s c []) := by
  have hl : X.ld.eval (s.val E) = .fin (σ.ev E X.ld) := by
    rw [during_eval h fun x hx => hf x (List.mem_append_right _ hx)]
    exact St.eval_of_defd hd
  have he : (Expr.add [.mul [X.ld, .sym r], .sym c]).eval (s.val E) = .fin (σ.ev E X.ld * s r [] + s c []) :=
    Docc.Types.eval_add2 (Docc.Types.eval_mul2 hl rfl) rfl
  unfold Mat.at Mat.pos
  cases hb : X.base with
  | none =>
    simp only [List.map_cons, List.map_nil]
    rw [St.ev_of_eval he]
    simp
  | some p =>
    have hp : s p = σ p := h p (hf p (List.mem_append_left _ (by simp [hb]))).2 (hf p (List.mem_append_left _ (by simp [hb]))).1
    simp only [List.map_cons, List.map_nil]
    rw [St.ev_of_eval (Docc.Types.eval_add2 (a := .sym p) (x := s p []) rfl he), hp]


/-- the state of the expansion at one element of the result -/
theorem gemm_body {E : Env} {σ : St} {G : Gemm} {v : GVars} (hL : G.layout = .rowMajor) (ha : ∀ x, E.op "assign" [x] = x) (h : GOk E σ G v)
    {s : St} (hs : During σ G.cout.data v.all s) :
    ∃ s', (∀ c s1, (gemmBody G v).den E s c s1 ↔ c = .normal ∧ s1 = s') ∧ During σ G.cout.data v.all s' ∧
      (∀ x ∈ [v.i, v.j], s' x [] = s x []) ∧
      ∀ y j, y ∉ [v.k, v.sum, v.t1, v.t2] → s' y j = s.set G.cout.data (G.cout.pos E σ .rowMajor (s v.i []) (s v.j []))
        (E.op "fp_add" [E.op "fp_mul" [inner E σ G (s v.i []) (s v.j []), σ G.alpha []], E.op "fp_mul"
          [s G.cin.data (G.cin.pos E σ .rowMajor (s v.i []) (s v.j [])), σ G.beta []]]) y j := by
  have hnd := h.nodup
  simp only [GVars.all, List.nodup_cons, List.mem_cons, List.not_mem_nil, or_false, not_or] at hnd
  obtain ⟨⟨hij, hik, his, hi1, hi2⟩, ⟨hjk, hjs, hj1, hj2⟩, ⟨hks, hk1, hk2⟩, ⟨hs1, hs2⟩, ⟨h12, -⟩⟩ := hnd
  have hname : ∀ x ∈ [G.a.data, G.b.data, G.cin.data, G.cout.data, G.alpha, G.beta, "0.0"], x ≠ v.i ∧ x ≠ v.j ∧ x ≠ v.k ∧ x ≠ v.sum ∧ x ≠ v.t1 ∧ x ≠ v.t2 := by
    intro x hx
    have := h.names x hx
    simpa [GVars.all] using this
  have hsyms : ∀ x ∈ G.m.atoms ++ G.n.atoms ++ G.k.atoms ++ G.a.syms ++ G.b.syms ++ G.cin.syms ++ G.cout.syms, x ∉ v.all ∧ x ≠ G.cout.data := h.syms
  simp only [List.mem_append] at hsyms
  have hk : v.k ∉ [G.cout.data] := by simpa using fun e => (hname G.cout.data (by simp)).2.2.1 e.symm
  -- clear the accumulator
  let s1 : St := s.set v.sum [] (σ "0.0" [])
  have hb1 : ∀ c t, (point "assign" [("0.0", [])] (v.sum, [])).den E s c t ↔ c = .normal ∧ t = s1 := by
    intro c t
    rw [point, one_block]
    have : runBlock E [.tasklet "assign" [("0.0", [])] v.sum []] s = s1 := by
      simp only [runBlock, List.foldl_cons, List.foldl_nil, Stmt.run, List.map_cons, List.map_nil, ha]
      rw [hs "0.0" (h.other _ (by simp)) (h.names _ (by simp))]
    rw [this]
  have hd1 : During σ G.cout.data v.all s1 := fun x hx hxv => by
    have : x ≠ v.sum := fun e => hxv (by simp [GVars.all, e])
    show s.set v.sum [] _ x = _
    funext j
    rw [St.set_other _ _ _ this, hs x hx hxv]
  have hi1' : s1 v.i [] = s v.i [] := congrFun (St.set_other _ _ _ his) []
  have hj1' : s1 v.j [] = s v.j [] := congrFun (St.set_other _ _ _ hjs) []
  -- the states of the inner loop
  have hdur : ∀ t, During s1 v.sum [v.k] t → During σ G.cout.data v.all t := by
    intro t ht x hx hxv
    have h1 : x ≠ v.sum := fun e => hxv (by simp [GVars.all, e])
    have h2 : x ∉ [v.k] := fun e => hxv (by simp [GVars.all, List.mem_singleton.mp e])
    rw [ht x h1 h2, hd1 x hx hxv]
  have hfr : ∀ X : Mat, (∀ x ∈ X.syms, x ∉ v.all ∧ x ≠ G.cout.data) → X.data ∉ v.all → X.data ≠ G.cout.data → σ.defd E X.ld →
      ∀ t, During σ G.cout.data v.all t → ∀ r c, t (X.at (.sym r) (.sym c)).1 ((X.at (.sym r) (.sym c)).2.map (t.ev E)) =
        X.elem E σ .rowMajor (t r []) (t c []) := by
    intro X h1 h2 h3 h4 t ht r c
    rw [Mat.at_ev ht h4 h1]
    exact congrFun (ht _ h3 h2) _
  obtain ⟨s2, hb2, hd2, hv2⟩ := point_nest (E := E) (σ := s1) (op := "fp_fma")
    (ins := [G.a.at (.sym v.i) (.sym v.k), G.b.at (.sym v.k) (.sym v.j), (v.sum, [])]) (Y := v.sum) (osub := []) (ds := [(false, v.k, G.k)])
    (by simp) (by simpa using fun e => hks e.symm) (by
      intro d hd x hx
      rw [List.mem_singleton] at hd
      subst hd
      have := (hsyms x (by simp [show x ∈ G.k.atoms from hx])).1
      simp only [GVars.all, List.mem_cons, List.not_mem_nil, or_false, not_or] at this
      simp [this])
    (A := fun _ => [])
    (F := fun ix acc => E.op "fp_fma" [G.a.elem E σ .rowMajor (s v.i []) (ix.headD 0), G.b.elem E σ .rowMajor (ix.headD 0) (s v.j []), acc])
    (fun _ _ => rfl)
    (fun t ht => by
      have hti : t v.i = s1 v.i := ht v.i his (by simpa using hik)
      have htj : t v.j = s1 v.j := ht v.j hjs (by simpa using hjk)
      simp only [List.map_cons, List.map_nil]
      rw [hfr G.a (fun x hx => hsyms x (by simp [hx])) (h.names _ (by simp)) (h.other _ (by simp)) (h.lds _ (by simp)) t (hdur t ht),
        hfr G.b (fun x hx => hsyms x (by simp [hx])) (h.names _ (by simp)) (h.other _ (by simp)) (h.lds _ (by simp)) t (hdur t ht), hti, htj, hi1', hj1']
      rfl)
    (s := s1) (fun _ _ _ => rfl)
  have hinner : s2 v.sum [] = inner E σ G (s v.i []) (s v.j []) := by
    rw [hv2]
    have : s1.ev E G.k = σ.ev E G.k := during_ev hd1 fun x hx => hsyms x (by simp [hx])
    simp only [List.map_cons, List.map_nil, this, box_single, inner, hL]
    rw [List.filter_eq_self.mpr (by simp), List.foldl_map]
    have h0 : s1 v.sum [] = σ "0.0" [] := by simp [s1, St.set]
    rw [h0]
    rfl
  have hs2 : During σ G.cout.data v.all s2 := hdur s2 hd2
  have hi2' : s2 v.i [] = s v.i [] := by rw [hd2 v.i his (by simpa using hik), hi1']
  have hj2' : s2 v.j [] = s v.j [] := by rw [hd2 v.j hjs (by simpa using hjk), hj1']
  -- scale and store
  refine ⟨_, den_comp hb1 (den_comp hb2 fun c t => one_block E _ s2 c t), ?_⟩
  simp only [runBlock, List.foldl_cons, List.foldl_nil, Stmt.run, List.map_cons, List.map_nil]
  generalize hx1 : s2.set v.t1 [] _ = u1
  generalize hx2 : u1.set v.t2 [] _ = u2
  have hu : ∀ x, x ≠ v.t1 → x ≠ v.t2 → u2 x = s2 x := by
    intro x h1 h2
    funext j
    rw [← hx2, St.set_other _ _ _ h2, ← hx1, St.set_other _ _ _ h1]
  have hu1 : ∀ x, x ≠ v.t1 → u1 x = s2 x := by
    intro x h1
    funext j
    rw [← hx1, St.set_other _ _ _ h1]
  have hdu1 : During σ G.cout.data v.all u1 := fun x hx hxv => by
    rw [hu1 x (fun e => hxv (by simp [GVars.all, e])), hs2 x hx hxv]
  have hdu : During σ G.cout.data v.all u2 := fun x hx hxv => by
    rw [hu x (fun e => hxv (by simp [GVars.all, e])) (fun e => hxv (by simp [GVars.all, e])), hs2 x hx hxv]
  have hcout : ((G.cout.at (.sym v.i) (.sym v.j)).2.map (u2.ev E)) = G.cout.pos E σ .rowMajor (s v.i []) (s v.j []) := by
    rw [Mat.at_ev hdu (h.lds _ (by simp)) (fun x hx => hsyms x (by simp [hx])), hu v.i hi1 hi2, hu v.j hj1 hj2, hi2', hj2']
  have hcin : ((G.cin.at (.sym v.i) (.sym v.j)).2.map (u1.ev E)) = G.cin.pos E σ .rowMajor (s v.i []) (s v.j []) := by
    rw [Mat.at_ev hdu1 (h.lds _ (by simp)) (fun x hx => hsyms x (by simp [hx])), hu1 v.i hi1, hu1 v.j hj1, hi2', hj2']
  have hsc : ∀ x ∈ [G.cin.data, G.cout.data], s2 x = s x := by
    intro x hx
    have hx' := hname x (by rcases List.mem_cons.mp hx with rfl | hx; · simp
                            · rw [List.mem_singleton] at hx; simp [hx])
    rw [hd2 x hx'.2.2.2.1 (by simpa using hx'.2.2.1)]
    exact St.set_other _ _ _ hx'.2.2.2.1
  have ht1 : u2 v.t1 [] = E.op "fp_mul" [inner E σ G (s v.i []) (s v.j []), σ G.alpha []] := by
    rw [← hx2, St.set_other _ _ _ h12, ← hx1]
    simp only [St.set, and_self, if_true]
    rw [hinner, hs2 G.alpha (h.other _ (by simp)) (h.names _ (by simp))]
  have ht2 : u2 v.t2 [] = E.op "fp_mul" [s G.cin.data (G.cin.pos E σ .rowMajor (s v.i []) (s v.j [])), σ G.beta []] := by
    rw [← hx2]
    simp only [St.set, and_self, if_true]
    rw [hcin, show (G.cin.at (.sym v.i) (.sym v.j)).1 = G.cin.data from rfl, hu1 _ (hname G.cin.data (by simp)).2.2.2.2.1, hsc _ (by simp),
      hdu1 G.beta (h.other _ (by simp)) (h.names _ (by simp))]
  rw [ht1, ht2, hcout, show (G.cout.at (.sym v.i) (.sym v.j)).1 = G.cout.data from rfl]
  have hoth : ∀ y, y ∉ [v.k, v.sum, v.t1, v.t2] → u2 y = s y := by
    intro y hy
    simp only [List.mem_cons, List.not_mem_nil, or_false, not_or] at hy
    rw [hu y hy.2.2.1 hy.2.2.2, hd2 y hy.2.1 (by simpa using hy.1)]
    exact St.set_other _ _ _ hy.2.1
  refine ⟨fun x hx hxv => ?_, fun x hx => ?_, fun y j hy => ?_⟩
  · funext j
    rw [St.set_other _ _ _ hx, hdu x hx hxv]
  · have hx' : x ∉ [v.k, v.sum, v.t1, v.t2] := by
      simp only [List.mem_cons, List.not_mem_nil, or_false] at hx
      rcases hx with rfl | rfl <;> simp [*]
    have hxc : x ≠ G.cout.data := by
      simp only [List.mem_cons, List.not_mem_nil, or_false] at hx
      rcases hx with rfl | rfl
      · exact fun e => (hname G.cout.data (by simp)).1 e.symm
      · exact fun e => (hname G.cout.data (by simp)).2.1 e.symm
    rw [St.set_other _ _ _ hxc, hoth x hx']
  · simp only [St.set]
    rw [hoth y hy]


theorem inRange2 {m n : Int} {ix : List Int} (h : InRange [m, n] ix) : ∃ a b, ix = [a, b] ∧ (0 ≤ a ∧ a < m) ∧ 0 ≤ b ∧ b < n := by
  match ix, h with
  | [a, b], h => exact ⟨a, b, rfl, h.1, h.2.1⟩

/-- **C68 (GEMM).** The expansion stores `alpha * (A * B)[i][j] + beta * C[i][j]` in `C[i][j]` for all `0 ≤ i < m`, `0 ≤ j < n`, where the inner product
is accumulated with `fma` in the order of the columns of A, and changes nothing else. Missing from the full property: column-major matrices and `beta = 0`
(violated below), transposed operands (not expanded), operands that share memory with the result other than C in its place. -/
theorem gemm_partial {E : Env} {σ : St} {G : Gemm} {v : GVars} (hL : G.layout = .rowMajor) (hT : G.transA = false ∧ G.transB = false)
    (ha : ∀ x, E.op "assign" [x] = x) (h : GOk E σ G v) (hld : σ.ev E G.n ≤ σ.ev E G.cout.ld) :
    ∃ e, gemm G v = some e ∧ Fills E σ e v.all G.cout.data (InRange [σ.ev E G.m, σ.ev E G.n])
      (fun ix => G.cout.pos E σ G.layout (ix.getD 0 0) (ix.getD 1 0)) (fun ix => gemmSpec E σ G (ix.getD 0 0) (ix.getD 1 0)) := by
  have hnd := h.nodup
  simp only [GVars.all, List.nodup_cons, List.mem_cons, List.not_mem_nil, or_false, not_or] at hnd
  obtain ⟨⟨hij, hik, his, hi1, hi2⟩, ⟨hjk, hjs, hj1, hj2⟩, -⟩ := hnd
  have hc : G.cout.data ∉ v.all := h.names _ (by simp)
  have hsyms := h.syms
  simp only [List.mem_append] at hsyms
  refine ⟨nest (gemmBody G v) [(true, v.i, G.m), (true, v.j, G.n)], by simp [gemm, hT], ?_⟩
  let A : List Int → List Int := fun ix => G.cout.pos E σ .rowMajor (ix.getD 0 0) (ix.getD 1 0)
  let F : List Int → Int → Int := fun ix acc => E.op "fp_add" [E.op "fp_mul" [inner E σ G (ix.getD 0 0) (ix.getD 1 0), σ G.alpha []], E.op "fp_mul"
          [if G.cin.data = G.cout.data then acc else G.cin.elem E σ .rowMajor (ix.getD 0 0) (ix.getD 1 0), σ G.beta []]]
  obtain ⟨σ', h1, h2, h3⟩ := nest_body (E := E) (body := gemmBody G v) (Inv := During σ G.cout.data v.all) (ds := [(true, v.i, G.m), (true, v.j, G.n)])
    (ns := [σ.ev E G.m, σ.ev E G.n]) (W := [v.k, v.sum, v.t1, v.t2]) (Y := G.cout.data) (A := A) (F := F)
    (by simpa using hij) (fun s hs => by
      simp only [List.map_cons, List.map_nil]
      rw [during_ev hs fun x hx => hsyms x (by simp [hx]), during_ev hs fun x hx => hsyms x (by simp [hx])])
    (by intro hx; apply hc; simp only [List.map_cons, List.map_nil, List.mem_cons, List.not_mem_nil, or_false] at hx; rcases hx with hx | hx <;> simp [GVars.all, hx])
    (by intro hx; apply hc; simp only [List.mem_cons, List.not_mem_nil, or_false] at hx; rcases hx with hx | hx | hx | hx <;> simp [GVars.all, hx])
    (fun s x k hx hs y hy hyv => by
      have : y ≠ x := by
        intro e
        apply hyv
        subst e
        simp only [List.map_cons, List.map_nil, List.mem_cons, List.not_mem_nil, or_false] at hx
        rcases hx with hx | hx <;> simp [GVars.all, hx]
      rw [St.setS_other _ _ this]
      exact hs y hy hyv)
    (fun s hs => by
      obtain ⟨s', b1, b2, b3, b4⟩ := gemm_body hL ha h hs
      refine ⟨s', b1, b2, b3, fun y j hy => ?_⟩
      rw [b4 y j hy]
      congr 2
      simp only [F, ixOf, List.map_cons, List.map_nil, List.getD_cons_zero, List.getD_cons_succ]
      congr 4
      split
      · rename_i he
        rcases h.cin with hx | hx
        · exact absurd he hx
        · rw [he]
          show _ = s _ (G.cout.pos E σ .rowMajor _ _)
          rw [← hx]
          rfl
      · rename_i he
        rw [hs _ he (h.names _ (by simp))]
        rfl)
    (s := σ) (fun _ _ _ => rfl)
  have hinj : ∀ a ∈ box [σ.ev E G.m, σ.ev E G.n], ∀ b ∈ box [σ.ev E G.m, σ.ev E G.n], A a = A b → a = b := by
    intro a ha b hb hab
    obtain ⟨i, j, rfl, ⟨hi0, him⟩, hj0, hjn⟩ := inRange2 ((mem_box _ _).mp ha)
    obtain ⟨i', j', rfl, ⟨hi0', him'⟩, hj0', hjn'⟩ := inRange2 ((mem_box _ _).mp hb)
    simp only [A, Mat.pos, List.getD_cons_zero, List.getD_cons_succ, List.cons.injEq, and_true] at hab
    have e1 : σ.ev E G.cout.ld * i + j = σ.ev E G.cout.ld * i' + j' := by omega
    have hii : i = i' := by
      rcases Int.lt_trichotomy i i' with hlt | he | hgt
      · have := Int.mul_le_mul_of_nonneg_left (show i + 1 ≤ i' by omega) (show 0 ≤ σ.ev E G.cout.ld by omega)
        rw [Int.mul_add] at this
        omega
      · exact he
      · have := Int.mul_le_mul_of_nonneg_left (show i' + 1 ≤ i by omega) (show 0 ≤ σ.ev E G.cout.ld by omega)
        rw [Int.mul_add] at this
        omega
    subst hii
    have : j = j' := by omega
    subst this
    rfl
  rw [hL]
  refine ⟨σ', h1, fun ix hix => ?_, fun x j hx hj => ?_⟩
  · have := h3 G.cout.data (A ix) (by intro hx; apply hc; simp only [List.map_cons, List.map_nil, List.mem_cons, List.not_mem_nil, or_false] at hx; rcases hx with hx | hx <;> simp [GVars.all, hx])
      (by intro hx; apply hc; simp only [List.mem_cons, List.not_mem_nil, or_false] at hx; rcases hx with hx | hx | hx | hx <;> simp [GVars.all, hx])
    rw [if_pos rfl, filter_one (nodup_box _) hinj ((mem_box _ _).mpr hix)] at this
    show σ' G.cout.data (A ix) = gemmSpec E σ G (ix.getD 0 0) (ix.getD 1 0)
    rw [this]
    simp only [List.foldl_cons, List.foldl_nil, F, gemmSpec]
    congr 4
    split
    · rename_i he
      rcases h.cin with hx | hx
      · exact absurd he hx
      · simp only [Mat.elem, hx, hL, A]
    · rw [hL]
  · have hx' : x ∉ [v.i, v.j] ∧ x ∉ [v.k, v.sum, v.t1, v.t2] := by
      simp only [GVars.all, List.mem_cons, List.not_mem_nil, or_false, not_or] at hx
      simp [hx]
    rw [h3 x j hx'.1 hx'.2]
    split
    · rename_i he
      subst he
      rw [List.filter_eq_nil_iff.mpr]
      · rfl
      · intro ix hix
        simp only [decide_eq_true_eq]
        exact fun e => hj rfl ix ((mem_box _ _).mp hix) e.symm
    · rfl

/-- exact arithmetic for the operations of GEMM -/
structure Exact (E : Env) : Prop where
  assign : ∀ x, E.op "assign" [x] = x
  fma : ∀ a b c, E.op "fp_fma" [a, b, c] = a * b + c
  mul : ∀ a b, E.op "fp_mul" [a, b] = a * b
  add : ∀ a b, E.op "fp_add" [a, b] = a + b

theorem foldl_fma (f g : Nat → Int) (l : List Nat) (z : Int) : l.foldl (fun acc k => f k * g k + acc) z = (l.map fun k => f k * g k).sum + z := by
  induction l generalizing z with
  | nil => simp
  | cons a r ih => rw [List.foldl_cons, ih, List.map_cons, List.sum_cons]; omega

/-- **C68 (GEMM, exact).** In exact arithmetic the result is `alpha * Σ_k A[i][k] B[k][j] + beta * C[i][j]`. -/
theorem gemm_exact_partial {E : Env} {σ : St} {G : Gemm} {v : GVars} (hE : Exact E) (h0 : σ "0.0" [] = 0) (hL : G.layout = .rowMajor)
    (hT : G.transA = false ∧ G.transB = false) (h : GOk E σ G v) (hld : σ.ev E G.n ≤ σ.ev E G.cout.ld) :
    ∃ e, gemm G v = some e ∧ Fills E σ e v.all G.cout.data (InRange [σ.ev E G.m, σ.ev E G.n])
      (fun ix => G.cout.pos E σ G.layout (ix.getD 0 0) (ix.getD 1 0))
      (fun ix => ((List.range (σ.ev E G.k).toNat).map fun (k : Nat) => G.a.elem E σ G.layout (ix.getD 0 0) k * G.b.elem E σ G.layout k (ix.getD 1 0)).sum * σ G.alpha [] +
        G.cin.elem E σ G.layout (ix.getD 0 0) (ix.getD 1 0) * σ G.beta []) := by
  obtain ⟨e, he, hf⟩ := gemm_partial hL hT hE.assign h hld
  refine ⟨e, he, hf.congr fun ix _ => ?_⟩
  simp only [gemmSpec, inner, hE.fma, hE.mul, hE.add, h0]
  rw [foldl_fma]
  simp

/-- An expansion is refused exactly if an operand is transposed; `none` means that nothing is changed. -/
theorem gemm_refused (G : Gemm) (v : GVars) : gemm G v = none ↔ (G.transA = true ∨ G.transB = true) := by
  unfold gemm
  by_cases h : (G.transA || G.transB) = true
  · simp only [h, if_true, true_iff]; simpa using h
  · simp only [h]; simpa using h

end Docc.Expand
