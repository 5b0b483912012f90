import Verif.IR.ArgsProps
import Verif.IR.Par

/-
A sufficient condition for `LocalsDead`: the locals are scalars that are assigned before they are read.
-/
namespace Docc.IR
open Docc.Sym

/-- no element of the first list is in the second -/
def disj (l X : List String) : Bool := l.all fun x => !X.contains x

theorem disj_iff {l X : List String} : disj l X = true ↔ ∀ x ∈ l, x ∉ X := by simp [disj]

/-- The computation does not depend on the scalars `X` and accesses the containers `L` only as scalars; the list of scalars of `X` that it does not
assign. -/
def Stmt.fresh (L X : List String) : Stmt → Option (List String)
  | .tasklet _ ins out sub =>
    if (ins.all fun r => !L.contains r.1 || r.2.isEmpty) && disj (ins.map (·.1)) X && disj (Expr.atomsL (ins.flatMap (·.2))) X && disj (Expr.atomsL sub) X
    then some (if sub.isEmpty then X.filter (· != out) else X) else none
  | .lib _ rs _ => if disj rs L && disj rs X then some X else none

/-- the same for a block -/
def blockFresh (L X : List String) : List Stmt → Option (List String)
  | [] => some X
  | s :: r => (s.fresh L X).bind fun Y => blockFresh L Y r

/-- the same for the assignments of a transition -/
def transFresh (X : List String) : Trans → Option (List String)
  | [] => some X
  | a :: t => if disj a.2.atoms X then transFresh (X.filter (· != a.1)) t else none

mutual
/-- the same for a node; the result is for normal termination -/
def Node.fresh (L X : List String) : Node → Option (List String)
  | .block l => blockFresh L X l
  | .seq s => s.fresh L X
  | .ifElse b => b.fresh L X
  | .whileL s => (s.fresh L X).map fun _ => X
  | .loop _ i a c u s => if disj a.atoms X && disj c.atoms (X.filter (· != i)) && disj u.atoms (X.filter (· != i)) && (s.fresh L (X.filter (· != i))).isSome
    then some (X.filter (· != i)) else none
  | .brk => some X
  | .cont => some X
  | .ret _ _ => some X
def Seq.fresh (L X : List String) : Seq → Option (List String)
  | .nil => some X
  | .cons n t r => (n.fresh L X).bind fun Y => (transFresh Y t).bind fun Z => r.fresh L Z
def Brs.fresh (L X : List String) : Brs → Option (List String)
  | .nil => some X
  | .cons c s r => if disj c.atoms X && (s.fresh L X).isSome && (r.fresh L X).isSome then some X else none
end

/-- the memories differ only in the scalars `X` and in elements of `L` that are no scalars -/
def AgreeF (L X : List String) (σ τ : St) : Prop := ∀ x j, (x ∈ L → j = []) → (x ∈ X → j ≠ []) → σ x j = τ x j

theorem AgreeF.mono {L X Y : List String} {σ τ : St} (h : AgreeF L X σ τ) (hs : ∀ x ∈ X, x ∈ Y) : AgreeF L Y σ τ :=
  fun x j h1 h2 => h x j h1 fun hx => h2 (hs x hx)

theorem AgreeF.ev {L X : List String} {σ τ : St} (h : AgreeF L X σ τ) (E : Env) {e : Expr} (he : ∀ x ∈ e.atoms, x ∉ X) : σ.ev E e = τ.ev E e :=
  St.ev_congr E fun x hx => h x [] (fun _ => rfl) fun hX => absurd hX (he x hx)
theorem AgreeF.cond {L X : List String} {σ τ : St} (h : AgreeF L X σ τ) (E : Env) {c : Cond} (hc : ∀ x ∈ c.atoms, x ∉ X) : σ.cond E c = τ.cond E c :=
  St.cond_congr E fun x hx => h x [] (fun _ => rfl) fun hX => absurd hX (hc x hx)

theorem AgreeF.set {L X : List String} {σ τ : St} (h : AgreeF L X σ τ) (x : String) (i : List Int) (v : Int) : AgreeF L X (σ.set x i v) (τ.set x i v) := by
  intro y j h1 h2
  simp only [St.set]
  split
  · rfl
  · exact h y j h1 h2

theorem AgreeF.setS {L X : List String} {σ τ : St} (h : AgreeF L X σ τ) (x : String) (v : Int) :
    AgreeF L (X.filter (· != x)) (σ.setS x v) (τ.setS x v) := by
  intro y j h1 h2
  simp only [St.setS, St.set]
  split
  · rfl
  · rename_i hn
    refine h y j h1 fun hy hj => ?_
    by_cases e : y = x
    · exact hn ⟨e, hj⟩
    · exact h2 (List.mem_filter.2 ⟨hy, by simpa using e⟩) hj

theorem filter_sub (X : List String) (x : String) : ∀ y ∈ X.filter (· != x), y ∈ X := fun _ h => (List.mem_filter.1 h).1

theorem Stmt.fresh_sound (E : Env) {L X Y : List String} {σ τ : St} (s : Stmt) (h : s.fresh L X = some Y) (hA : AgreeF L X σ τ) :
    (∀ x ∈ Y, x ∈ X) ∧ AgreeF L Y (s.run E σ) (s.run E τ) := by
  cases s with
  | tasklet op ins out sub =>
    rw [Stmt.fresh] at h
    split at h
    · rename_i hc
      simp only [Bool.and_eq_true, disj_iff] at hc
      obtain ⟨⟨⟨h1, h2⟩, h3⟩, h4⟩ := hc
      have e1 : ∀ e ∈ sub, σ.ev E e = τ.ev E e := fun e he => hA.ev E fun x hx => h4 x ((Expr.mem_atomsL x sub).2 ⟨e, he, hx⟩)
      have e2 : (ins.map fun r => τ r.1 (r.2.map (τ.ev E))) = ins.map fun r => σ r.1 (r.2.map (σ.ev E)) := by
        refine List.map_congr_left fun r hr => ?_
        have : r.2.map (τ.ev E) = r.2.map (σ.ev E) := List.map_congr_left fun e he =>
          (hA.ev E fun x hx => h3 x ((Expr.mem_atomsL x _).2 ⟨e, List.mem_flatMap.2 ⟨r, hr, he⟩, hx⟩)).symm
        rw [this]
        refine (hA r.1 _ (fun hL => ?_) (fun hX => absurd hX (h2 _ (List.mem_map.2 ⟨r, hr, rfl⟩)))).symm
        have := List.all_eq_true.1 h1 r hr
        simp only [Bool.or_eq_true, Bool.not_eq_true', List.contains_eq_mem, decide_eq_false_iff_not, List.isEmpty_iff] at this
        rw [this.resolve_left (not_not_intro hL)]; rfl
      have e3 : sub.map (τ.ev E) = sub.map (σ.ev E) := List.map_congr_left fun e he => (e1 e he).symm
      simp only [Stmt.run, e2, e3]
      simp only [Option.some.injEq] at h
      subst h
      cases sub with
      | nil => exact ⟨by simpa using filter_sub X out, hA.setS out _⟩
      | cons e r => exact ⟨fun x hx => by simpa using hx, by simpa using hA.set out _ _⟩
    · cases h
  | lib op rs ws =>
    rw [Stmt.fresh] at h
    split at h
    · rename_i hc
      rw [Bool.and_eq_true, disj_iff, disj_iff] at hc
      simp only [Option.some.injEq] at h
      subst h
      refine ⟨fun _ h => h, fun x j h1 h2 => ?_⟩
      have e : rs.map τ = rs.map σ := List.map_congr_left fun r hr => funext fun j =>
        (hA r j (fun hL => absurd hL (hc.1 r hr)) (fun hX => absurd hX (hc.2 r hr))).symm
      simp only [Stmt.run, e]
      by_cases hw : x ∈ ws
      · exact congrFun (setMany_mem ws _ σ τ hw) j
      · rw [setMany_not_mem ws _ σ hw, setMany_not_mem ws _ τ hw]; exact hA x j h1 h2
    · cases h

theorem blockFresh_sound (E : Env) {L : List String} : ∀ (l : List Stmt) {X Y : List String} {σ τ : St}, blockFresh L X l = some Y → AgreeF L X σ τ →
    (∀ x ∈ Y, x ∈ X) ∧ AgreeF L Y (runBlock E l σ) (runBlock E l τ)
  | [], X, Y, σ, τ, h, hA => by
    simp only [blockFresh, Option.some.injEq] at h
    subst h
    exact ⟨fun _ h => h, hA⟩
  | s :: l, X, Y, σ, τ, h, hA => by
    rw [blockFresh] at h
    cases h1 : s.fresh L X with
    | none => rw [h1] at h; cases h
    | some Z =>
      rw [h1] at h
      obtain ⟨a, b⟩ := s.fresh_sound E h1 hA
      obtain ⟨c, d⟩ := blockFresh_sound E l (X := Z) (Y := Y) h b
      exact ⟨fun x hx => a x (c x hx), d⟩

theorem transFresh_sound (E : Env) {L : List String} : ∀ (t : Trans) {X Y : List String} {σ τ : St}, transFresh X t = some Y → AgreeF L X σ τ →
    (∀ x ∈ Y, x ∈ X) ∧ AgreeF L Y (runTrans E t σ) (runTrans E t τ)
  | [], X, Y, σ, τ, h, hA => by
    simp only [transFresh, Option.some.injEq] at h
    subst h
    exact ⟨fun _ h => h, hA⟩
  | a :: t, X, Y, σ, τ, h, hA => by
    rw [transFresh] at h
    split at h
    · rename_i hc
      rw [disj_iff] at hc
      have hb : AgreeF L (X.filter (· != a.1)) (σ.setS a.1 (σ.ev E a.2)) (τ.setS a.1 (τ.ev E a.2)) := by rw [hA.ev E hc]; exact hA.setS _ _
      obtain ⟨c, d⟩ := transFresh_sound E t h hb
      exact ⟨fun x hx => filter_sub X a.1 x (c x hx), d⟩
    · cases h

/-- what a run from another memory with other contents of the locals has to do -/
def FreshOk (L X Y : List String) (R : Rel) : Prop := (∀ x ∈ Y, x ∈ X) ∧ ∀ σ τ k σ', AgreeF L X σ τ → R σ k σ' →
  ∃ τ', R τ k τ' ∧ AgreeF L X σ' τ' ∧ (k = .normal → AgreeF L Y σ' τ')

mutual
theorem Node.fresh_sound (E : Env) (L : List String) : (n : Node) → ∀ X Y, n.fresh L X = some Y → FreshOk L X Y (n.den E)
  | .block l, X, Y, h => by
    rw [Node.fresh] at h
    rw [Node.den]
    refine ⟨(blockFresh_sound E l (σ := fun _ _ => 0) (τ := fun _ _ => 0) h fun _ _ _ _ => rfl).1, fun σ τ k σ' hA hr => ?_⟩
    obtain ⟨rfl, rfl⟩ := hr
    obtain ⟨a, b⟩ := blockFresh_sound E l h hA
    exact ⟨_, ⟨rfl, rfl⟩, b.mono a, fun _ => b⟩
  | .seq s, X, Y, h => by
    rw [Node.fresh] at h
    rw [Node.den]
    exact Seq.fresh_sound E L s X Y h
  | .ifElse b, X, Y, h => by
    rw [Node.fresh] at h
    rw [Node.den]
    exact Brs.fresh_sound E L b X Y h
  | .whileL s, X, Y, h => by
    rw [Node.fresh, Option.map_eq_some_iff] at h
    obtain ⟨Z, h1, rfl⟩ := h
    obtain ⟨_, h3⟩ := Seq.fresh_sound E L s X Z h1
    rw [Node.den]
    refine ⟨fun _ h => h, fun σ τ k σ' hA hr => ?_⟩
    obtain ⟨τ', a, b⟩ := Rel.forever_sim (A := AgreeF L X) (fun σ τ c σ' hA hr => by
      obtain ⟨τ', a, b, _⟩ := h3 σ τ c σ' hA hr
      exact ⟨τ', a, b⟩) σ τ k σ' hA hr
    exact ⟨τ', a, b, fun _ => b⟩
  | .loop m i a c u s, X, Y, h => by
    rw [Node.fresh] at h
    split at h
    · rename_i hc
      simp only [Bool.and_eq_true, disj_iff] at hc
      obtain ⟨⟨⟨h1, h2⟩, h3⟩, h4⟩ := hc
      simp only [Option.some.injEq] at h
      subst h
      obtain ⟨Z, hZ⟩ := Option.isSome_iff_exists.1 h4
      obtain ⟨_, h5⟩ := Seq.fresh_sound E L s _ Z hZ
      refine ⟨filter_sub X i, fun σ τ k σ' hA hr => ?_⟩
      rw [Node.den, Rel.upd_seq] at hr ⊢
      have hA0 : AgreeF L (X.filter (· != i)) (σ.setS i (σ.ev E a)) (τ.setS i (τ.ev E a)) := by rw [hA.ev E h1]; exact hA.setS _ _
      obtain ⟨τ', a', b⟩ := Rel.iter_sim (A := AgreeF L (X.filter (· != i))) (fun σ τ hA => hA.cond E h2)
        (fun σ τ hA => by
          show AgreeF _ _ (σ.setS i (σ.ev E u)) (τ.setS i (τ.ev E u))
          rw [hA.ev E h3]; exact (hA.setS i _).mono (filter_sub _ _))
        (fun σ τ c σ' hA hr => by
          obtain ⟨τ', a, b, _⟩ := h5 σ τ c σ' hA hr
          exact ⟨τ', a, b⟩) _ _ k σ' hA0 hr
      exact ⟨τ', a', b.mono (filter_sub X i), fun _ => b⟩
    · cases h
  | .brk, X, Y, h => by
    simp only [Node.fresh, Option.some.injEq] at h; subst h
    refine ⟨fun _ h => h, fun σ τ k σ' hA hr => ?_⟩
    rw [Node.den] at hr ⊢; obtain ⟨rfl, rfl⟩ := hr; exact ⟨_, ⟨rfl, rfl⟩, hA, fun _ => hA⟩
  | .cont, X, Y, h => by
    simp only [Node.fresh, Option.some.injEq] at h; subst h
    refine ⟨fun _ h => h, fun σ τ k σ' hA hr => ?_⟩
    rw [Node.den] at hr ⊢; obtain ⟨rfl, rfl⟩ := hr; exact ⟨_, ⟨rfl, rfl⟩, hA, fun _ => hA⟩
  | .ret _ _, X, Y, h => by
    simp only [Node.fresh, Option.some.injEq] at h; subst h
    refine ⟨fun _ h => h, fun σ τ k σ' hA hr => ?_⟩
    rw [Node.den] at hr ⊢; obtain ⟨rfl, rfl⟩ := hr; exact ⟨_, ⟨rfl, rfl⟩, hA, fun _ => hA⟩
theorem Seq.fresh_sound (E : Env) (L : List String) : (s : Seq) → ∀ X Y, s.fresh L X = some Y → FreshOk L X Y (s.den E)
  | .nil, X, Y, h => by
    simp only [Seq.fresh, Option.some.injEq] at h; subst h
    refine ⟨fun _ h => h, fun σ τ k σ' hA hr => ?_⟩
    rw [Seq.den] at hr ⊢; obtain ⟨rfl, rfl⟩ := hr; exact ⟨_, ⟨rfl, rfl⟩, hA, fun _ => hA⟩
  | .cons n t r, X, Y, h => by
    rw [Seq.fresh, Option.bind_eq_some_iff] at h
    obtain ⟨Y1, h1, h⟩ := h
    rw [Option.bind_eq_some_iff] at h
    obtain ⟨Y2, h2, h3⟩ := h
    obtain ⟨a1, a2⟩ := Node.fresh_sound E L n X Y1 h1
    have b1 := (transFresh_sound E (L := L) t (σ := fun _ _ => 0) (τ := fun _ _ => 0) h2 fun _ _ _ _ => rfl).1
    obtain ⟨c1, c2⟩ := Seq.fresh_sound E L r Y2 Y h3
    refine ⟨fun x hx => a1 x (b1 x (c1 x hx)), fun σ τ k σ' hA hr => ?_⟩
    rw [Seq.den] at hr ⊢
    rcases hr with ⟨σ1, r1, r2⟩ | ⟨hk, r1⟩
    · obtain ⟨τ1, d1, _, d2⟩ := a2 σ τ _ σ1 hA r1
      rw [Rel.upd_seq] at r2 ⊢
      obtain ⟨τ', e1, e2, e3⟩ := c2 _ _ k σ' (transFresh_sound E t h2 (d2 rfl)).2 r2
      exact ⟨τ', Or.inl ⟨τ1, d1, e1⟩, e2.mono fun x hx => a1 x (b1 x hx), e3⟩
    · obtain ⟨τ1, d1, d2, _⟩ := a2 σ τ _ σ' hA r1
      exact ⟨τ1, Or.inr ⟨hk, d1⟩, d2, fun e => absurd e hk⟩
theorem Brs.fresh_sound (E : Env) (L : List String) : (b : Brs) → ∀ X Y, b.fresh L X = some Y → FreshOk L X Y (b.den E)
  | .nil, X, Y, h => by
    simp only [Brs.fresh, Option.some.injEq] at h; subst h
    refine ⟨fun _ h => h, fun σ τ k σ' hA hr => ?_⟩
    rw [Brs.den] at hr ⊢; obtain ⟨rfl, rfl⟩ := hr; exact ⟨_, ⟨rfl, rfl⟩, hA, fun _ => hA⟩
  | .cons c s r, X, Y, h => by
    rw [Brs.fresh] at h
    split at h
    · rename_i hc
      simp only [Bool.and_eq_true, disj_iff] at hc
      obtain ⟨⟨h1, h2⟩, h3⟩ := hc
      simp only [Option.some.injEq] at h
      subst h
      obtain ⟨Z, hZ⟩ := Option.isSome_iff_exists.1 h2
      obtain ⟨Z', hZ'⟩ := Option.isSome_iff_exists.1 h3
      refine ⟨fun _ h => h, fun σ τ k σ' hA hr => ?_⟩
      rw [Brs.den] at hr ⊢
      simp only [Rel.ite, ← hA.cond E h1] at hr ⊢
      split at hr
      · rename_i hc
        obtain ⟨τ', a, b, _⟩ := (Seq.fresh_sound E L s X Z hZ).2 σ τ k σ' hA hr
        exact ⟨τ', by simpa only [hc, if_true] using a, b, fun _ => b⟩
      · rename_i hc
        obtain ⟨τ', a, b, _⟩ := (Brs.fresh_sound E L r X Z' hZ').2 σ τ k σ' hA hr
        exact ⟨τ', by simp only [hc]; exact a, b, fun _ => b⟩
    · cases h
end

/-- If all locals of a region are scalars that are assigned before they are read, their contents at entry do not matter. -/
theorem localsDead_of_fresh (E : Env) (C : ArgCtx) (n : Node) (L : List String) (hL : ∀ x, C.isLocal n x = true ↔ x ∈ L)
    (h : (n.fresh L L).isSome = true) (ρ : St) : n.LocalsDead E C ρ := by
  obtain ⟨Y, hY⟩ := Option.isSome_iff_exists.1 h
  intro k ρ' hd κ hκ
  obtain ⟨κ', h1, h2, _⟩ := (Node.fresh_sound E L n L Y hY).2 ρ κ k ρ' (fun x j h1 h2 => by
    by_cases hx : x ∈ L
    · exact absurd (h1 hx) (h2 hx)
    · exact (congrFun (hκ x fun hl => hx ((hL x).1 hl)) j).symm) hd
  exact ⟨κ', h1, fun x hx => funext fun j => (h2 x j (fun h => absurd ((hL x).2 h) hx) (fun h => absurd ((hL x).2 h) hx)).symm⟩

end Docc.IR
