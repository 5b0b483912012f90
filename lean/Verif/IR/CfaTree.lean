import Verif.IR.CfaThm

/-
The queries that follow the tree of node pointers, and the entry of the graph.
-/
namespace Docc.IR
open Docc.Sym

/-- the vertices of different if-elses with a vertex behind them -/
def OneJoin (verts : List V) : Prop := ∀ i j, V.nop i ∈ verts → V.nop j ∈ verts → i = j

mutual
/-- vertices of nodes are the `cv k` -/
theorem Node.verts_form {C : Brs → Bool} : (n : Node) → ∀ (L : V) (k : Nat), ∀ v ∈ (n.cfg C L k).verts, (∃ i, v = cv i) ∨ ∃ i, v = .nop i
  | .block _, L, k, v, h => by simp only [Node.cfg, List.mem_singleton] at h; exact .inl ⟨_, h⟩
  | .ret _ _, L, k, v, h => by simp only [Node.cfg, List.mem_singleton] at h; exact .inl ⟨_, h⟩
  | .brk, L, k, v, h => by simp only [Node.cfg, List.mem_singleton] at h; exact .inl ⟨_, h⟩
  | .cont, L, k, v, h => by simp only [Node.cfg, List.mem_singleton] at h; exact .inl ⟨_, h⟩
  | .seq s, L, k, v, h => Seq.verts_form s L none none (k + 1) v h
  | .whileL s, L, k, v, h => by
    simp only [Node.cfg, List.mem_cons] at h
    rcases h with h | h
    · exact .inl ⟨_, h⟩
    · exact Seq.verts_form s _ _ _ _ v h
  | .loop _ _ _ _ _ s, L, k, v, h => by
    simp only [Node.cfg, List.mem_cons] at h
    rcases h with h | h
    · exact .inl ⟨_, h⟩
    · exact Seq.verts_form s _ _ _ _ v h
  | .ifElse b, L, k, v, h => by
    simp only [Node.cfg, List.mem_cons, List.mem_append] at h
    rcases h with (h | h) | h
    · exact .inl ⟨_, h⟩
    · exact Brs.verts_form b _ _ _ _ v h
    · split at h
      · simp only [List.mem_singleton] at h; exact .inr ⟨_, h⟩
      · simp at h
theorem Seq.verts_form {C : Brs → Bool} : (s : Seq) → ∀ (L : V) (st cur : Option V) (k : Nat), ∀ v ∈ (s.cfg C L st cur k).verts, (∃ i, v = cv i) ∨ ∃ i, v = .nop i
  | .nil, L, st, cur, k, v, h => by simp [Seq.cfg] at h
  | .cons n t r, L, st, cur, k, v, h => by
    simp only [Seq.cfg] at h
    split at h
    · exact Node.verts_form n L k v h
    · simp only [List.mem_append] at h
      rcases h with h | h
      · exact Node.verts_form n L k v h
      · exact Seq.verts_form r _ _ _ _ v h
theorem Brs.verts_form {C : Brs → Bool} : (b : Brs) → ∀ (L h j : V) (k : Nat), ∀ v ∈ (b.cfg C L h j k).verts, (∃ i, v = cv i) ∨ ∃ i, v = .nop i
  | .nil, L, h, j, k, v, hv => by simp [Brs.cfg] at hv
  | .cons c s r, L, h, j, k, v, hv => by
    simp only [Brs.cfg, List.mem_append] at hv
    rcases hv with hv | hv
    · exact Seq.verts_form s _ _ _ _ v hv
    · exact Brs.verts_form r _ _ _ _ v hv
end

/-- with one vertex behind if-elses the node pointer identifies the vertex -/
theorem ptr_inj {C : Brs → Bool} {s : Seq} (h1 : OneJoin (s.flow C).verts) {v w : V} (hv : v ∈ (s.flow C).verts) (hw : w ∈ (s.flow C).verts) (h : v.ptr = w.ptr) : v = w := by
  rcases Seq.verts_form s _ _ _ _ v hv with ⟨i, rfl⟩ | ⟨i, rfl⟩ <;> rcases Seq.verts_form s _ _ _ _ w hw with ⟨j, rfl⟩ | ⟨j, rfl⟩
  · simp only [cv, V.ptr, Option.some.injEq] at h; rw [h]
  · cases h
  · cases h
  · rw [h1 i j hv hw]

theorem path_cut {G : List (V × V)} {b : V} {q1 : List V} (q2 : List V) : ∀ {p : List V}, Path G p → p = q1 ++ b :: q2 → Path G (q1 ++ [b]) := by
  induction q1 with
  | nil => intro p _ _; exact trivial
  | cons x r ih =>
    intro p hp hpe
    subst hpe
    cases r with
    | nil => exact ⟨(by simpa [Path] using hp.1), trivial⟩
    | cons y z =>
      have hp : Path G (x :: y :: (z ++ b :: q2)) := hp
      exact ⟨hp.1, ih hp.2 rfl⟩

/-- dominators of dominators are dominators -/
theorem Dominates.trans {G : List (V × V)} {src a b c : V} (h1 : Dominates G src a b) (h2 : Dominates G src b c) (hac : a ≠ c) : Dominates G src a c := by
  refine ⟨hac, fun p hp hl => ?_⟩
  have hb := h2.2 p hp hl
  obtain ⟨q1, q2, hq⟩ := List.append_of_mem hb
  have hp' := path_cut q2 hp hq
  cases q1 with
  | nil =>
    have e : b = src := by simp only [List.nil_append, List.cons.injEq] at hq; exact hq.1.symm
    subst e
    have := h1.2 [] trivial rfl
    simp only [List.mem_singleton] at this
    exact absurd this h1.1
  | cons x r =>
    have e : x = src := by simp only [List.cons_append, List.cons.injEq] at hq; exact hq.1.symm
    subst e
    have hm := h1.2 (r ++ [b]) hp' (by rw [← List.cons_append]; exact List.getLast?_concat)
    rw [hq]
    rw [← List.cons_append] at hm
    rcases List.mem_append.mp hm with hm | hm
    · exact List.mem_append_left _ hm
    · simp only [List.mem_singleton] at hm
      exact absurd hm h1.1

/-- no vertex that can be reached dominates one of its dominators -/
theorem Dominates.asymm {G : List (V × V)} {src a b : V} (h1 : Dominates G src a b) (h2 : Dominates G src b a) :
    ¬ ∃ p, Path G (src :: p) ∧ (src :: p).getLast? = some b := by
  rintro ⟨p, hp, hl⟩
  -- take a shortest path
  have key : ∀ n : Nat, ∀ x y : V, Dominates G src x y → Dominates G src y x → ∀ p : List V, p.length = n → Path G (src :: p) → (src :: p).getLast? = some y → False := by
    intro n
    induction n using Nat.strongRecOn with
    | _ n ih =>
      intro x y hxy hyx p hn hp hl
      have hx := hxy.2 p hp hl
      obtain ⟨q1, q2, hq⟩ := List.append_of_mem hx
      have hp' := path_cut q2 hp hq
      have hq2 : q2 ≠ [] := by
        intro e
        rw [hq, e] at hl
        have : (q1 ++ [x]).getLast? = some x := List.getLast?_concat
        rw [this] at hl
        cases hl; exact hxy.1 rfl
      cases q1 with
      | nil =>
        have e : x = src := by simp only [List.nil_append, List.cons.injEq] at hq; exact hq.1.symm
        subst e
        have := hyx.2 [] trivial rfl
        simp only [List.mem_singleton] at this
        exact hyx.1 this
      | cons z r =>
        have e : z = src := by simp only [List.cons_append, List.cons.injEq] at hq; exact hq.1.symm
        subst e
        have hlen : (r ++ [x]).length < n := by
          have : p.length = (r ++ x :: q2).length := by
            simp only [List.cons_append, List.cons.injEq, true_and] at hq; rw [hq]
          have h0 : 0 < q2.length := List.length_pos_iff.mpr hq2
          simp only [List.length_append, List.length_cons, List.length_nil] at this ⊢
          omega
        exact ih _ hlen y x hyx hxy (r ++ [x]) rfl hp' (by rw [← List.cons_append]; exact List.getLast?_concat)
  exact key p.length a b h1 h2 p rfl hp hl

/-- following the pointers from a vertex leads to a dominator of the vertex -/
theorem walk_dominates {C : Brs → Bool} {s : Seq} {src : V} {T : V → Option V} {D : Option Nat → Option (Option Nat)} (h1 : OneJoin (s.flow C).verts)
    (hT : IdomTree (s.flow C).edges src T) (hTv : ∀ v w, T v = some w → w ∈ (s.flow C).verts) (hD : PtrTree T (s.flow C).verts D) {a : V} (ha : a ∈ (s.flow C).verts) :
    ∀ (f : Nat) (b : V), b ∈ (s.flow C).verts → (∃ p, Path (s.flow C).edges (src :: p) ∧ (src :: p).getLast? = some b) →
      walk D a.ptr f b.ptr = some true → Dominates (s.flow C).edges src a b
  | 0, _, _, _, h => by cases h
  | f + 1, b, hb, hr, h => by
    unfold walk at h
    split at h
    · cases h
    · rename_i q hq
      obtain ⟨v, hv, w, hvp, hTv', hwq⟩ := hD.from_tree _ _ hq
      obtain rfl := ptr_inj h1 hv hb hvp
      have hdom := hT _ _ hTv'
      split at h
      · rename_i e
        obtain rfl := ptr_inj h1 (hTv _ _ hTv') ha (hwq.trans e)
        exact hdom
      · rw [← hwq] at h
        obtain ⟨p, hp, hl⟩ := hr
        have hw := hdom.2 p hp hl
        obtain ⟨q1, q2, hq'⟩ := List.append_of_mem hw
        have hrw : ∃ p, Path (s.flow C).edges (src :: p) ∧ (src :: p).getLast? = some w := by
          have hp' := path_cut q2 hp hq'
          cases q1 with
          | nil =>
            have e : w = src := by simp only [List.nil_append, List.cons.injEq] at hq'; exact hq'.1.symm
            subst e
            exact ⟨[], trivial, rfl⟩
          | cons z r =>
            have e : z = src := by simp only [List.cons_append, List.cons.injEq] at hq'; exact hq'.1.symm
            subst e
            exact ⟨r ++ [w], hp', by rw [← List.cons_append]; exact List.getLast?_concat⟩
        have ih := walk_dominates h1 hT hTv hD ha f w (hTv _ _ hTv') hrw h
        refine ih.trans hdom fun e => ?_
        subst e
        exact Dominates.asymm hdom ih ⟨p, hp, hl⟩

/-- **C100** (partial): when `dominates(a, b)` holds, every execution visits `a` before `b`.  For programs with at most one vertex behind an if-else
(`shared_join_violated`) and without empty nested sequences and empty cases of complete if-elses; `T` is the tree of Boost, `D` the map of pointers. -/
theorem cfa_dominates_partial {E : Env} {C : Brs → Bool} (hC : CompleteSound E C) {s : Seq} (hs : s.filled C = true) (h1 : OneJoin (s.flow C).verts)
    {src : V} (hsrc : (s.flow C).start = some src) {T : V → Option V} (hT : IdomTree (s.flow C).edges src T) (hTv : ∀ v w, T v = some w → w ∈ (s.flow C).verts)
    {D : Option Nat → Option (Option Nat)} (hD : PtrTree T (s.flow C).verts D) {a b : Nat} (ha : cv a ∈ (s.flow C).verts) (hb : cv b ∈ (s.flow C).verts)
    (hd : CfaDominates D a b) {σ : St} {l : List V} {o : Option (Ctl × St)} (h : s.Visits E σ l o) {l1 l2 : List V} (hl : l = l1 ++ cv b :: l2) : cv a ∈ l1 := by
  obtain ⟨f, hf⟩ := hd
  have hnil : s.isNil = false := by
    cases s with
    | nil => cases hsrc
    | cons n t r => rfl
  obtain ⟨f', hf1, hf2⟩ := Seq.follows_begin (P := fun _ => True) hC (fun _ => trivial) s hs hnil (.nop 0) 1
  have hf' : f' = src := by
    have : some f' = some src := hf1.symm.trans hsrc
    cases this; rfl
  subst hf'
  obtain ⟨p, hp1, hp2, _⟩ := ((hf2 σ l o h).1 l1 (cv b) l2 hl fun _ _ => trivial).path
  exact cfg_dominates_partial hC hs hsrc (walk_dominates h1 hT hTv hD ha f (cv b) hb ⟨p, hp1, hp2⟩ hf) h hl

end Docc.IR
