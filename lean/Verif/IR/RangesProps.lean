import Verif.IR.RangesLemmas
import Verif.IR.AssumAnProps
import Verif.IR.Par
import Verif.Sym.ExtremeShape

/-
C84: the accesses of a region lie in the ranges that are reported for it.
-/
namespace Docc.IR
open Docc.Sym

/-! ### specification -/

/-- the computation, run in `ρ`, accesses element `idx` of `x`; a library node may access every element of its operands -/
def Stmt.Touches (E : Env) (ρ : St) : Stmt → String → List Int → Prop
  | .tasklet _ ins out sub, x, idx => (∃ r ∈ ins, r.1 = x ∧ idx = r.2.map (ρ.ev E)) ∨ (out = x ∧ idx = sub.map (ρ.ev E))
  | .lib _ reads writes, x, _ => x ∈ reads ∨ x ∈ writes

/-- an execution of `n` that starts in `σ` accesses element `idx` of `x` -/
def Node.Accesses (E : Env) (n : Node) (σ : St) (x : String) (idx : List Int) : Prop :=
  ∃ p l τ l1 s l2, (p, l) ∈ n.blocksAt ∧ n.vis E p σ τ ∧ l = l1 ++ s :: l2 ∧ s.Touches E (runBlock E l1 τ) x idx

/-- the index lies within the bounds, evaluated in `σ` -/
def Range.Contains (E : Env) (σ : St) (r : Range) (idx : List Int) : Prop :=
  idx.length ≤ r.dims.length ∧ ∀ (k : Nat) (v : Int), idx[k]? = some v → ∃ lo hi, r.dims[k]? = some (some lo, some hi) ∧ σ.ev E lo ≤ v ∧ v ≤ σ.ev E hi

/-! ### collecting the bounds -/

/-- the entry records the bounds of `e` under the assumptions `A` -/
structure DimAcc.Has (P : List String) (A : Assums) (e : Expr) (d : DimAcc) : Prop where
  lo : d.loUndef = true ∨ ∃ lo ∈ d.lows, symMinimumNew true P A e = .ok lo
  hi : d.upUndef = true ∨ ∃ hi ∈ d.ups, symMaximumNew true P A e = .ok hi

/-- the second entry records more -/
structure DimAcc.Le (d d' : DimAcc) : Prop where
  lows : ∀ e ∈ d.lows, e ∈ d'.lows
  ups : ∀ e ∈ d.ups, e ∈ d'.ups
  lo : d.loUndef = true → d'.loUndef = true
  up : d.upUndef = true → d'.upUndef = true

theorem DimAcc.Le.rfl' (d : DimAcc) : d.Le d := ⟨fun _ h => h, fun _ h => h, fun h => h, fun h => h⟩
theorem DimAcc.Le.trans {a b c : DimAcc} (h : a.Le b) (h' : b.Le c) : a.Le c :=
  ⟨fun e he => h'.lows e (h.lows e he), fun e he => h'.ups e (h.ups e he), fun x => h'.lo (h.lo x), fun x => h'.up (h.up x)⟩

theorem DimAcc.Has.mono {P : List String} {A : Assums} {e : Expr} {d d' : DimAcc} (h : d.Has P A e) (hl : d.Le d') : d'.Has P A e :=
  ⟨h.lo.imp hl.lo fun ⟨x, hx, hm⟩ => ⟨x, hl.lows x hx, hm⟩, h.hi.imp hl.up fun ⟨x, hx, hm⟩ => ⟨x, hl.ups x hx, hm⟩⟩

/-- all recorded bounds are terms over the parameters -/
def DimAcc.Shaped (P : List String) (d : DimAcc) : Prop := (∀ e ∈ d.lows, Shape P e) ∧ ∀ e ∈ d.ups, Shape P e

theorem DimAcc.low_spec {P : List String} {A : Assums} (d : DimAcc) (e : Expr) : d.Le (d.addLow (symMinimumNew true P A e)) ∧
    ((d.addLow (symMinimumNew true P A e)).loUndef = true ∨ ∃ lo ∈ (d.addLow (symMinimumNew true P A e)).lows, symMinimumNew true P A e = .ok lo) ∧
    (d.Shaped P → (d.addLow (symMinimumNew true P A e)).Shaped P) := by
  have smin : ∀ m, symMinimumNew true P A e = .ok m → Shape P m := fun m => (extremes_shape true P A maxDepth e m).1
  cases hlb : symMinimumNew true P A e with
  | ok lo =>
    unfold DimAcc.addLow
    dsimp only
    split
    · exact ⟨⟨fun _ h => h, fun _ h => h, fun _ => rfl, fun h => h⟩, Or.inl rfl, fun h => h⟩
    · refine ⟨⟨fun _ h => List.mem_append_left _ h, fun _ h => h, fun h => h, fun h => h⟩, Or.inr ⟨lo, by simp, rfl⟩, fun h => ⟨?_, h.2⟩⟩
      intro x hx
      rcases List.mem_append.1 hx with hx | hx
      · exact h.1 x hx
      · rw [List.mem_singleton.1 hx]; exact smin lo hlb
  | ub => exact ⟨⟨fun _ h => h, fun _ h => h, fun _ => rfl, fun h => h⟩, Or.inl rfl, fun h => h⟩
  | null => exact ⟨⟨fun _ h => h, fun _ h => h, fun _ => rfl, fun h => h⟩, Or.inl rfl, fun h => h⟩

theorem DimAcc.up_spec {P : List String} {A : Assums} (d : DimAcc) (e : Expr) : d.Le (d.addUp (symMaximumNew true P A e)) ∧
    ((d.addUp (symMaximumNew true P A e)).upUndef = true ∨ ∃ hi ∈ (d.addUp (symMaximumNew true P A e)).ups, symMaximumNew true P A e = .ok hi) ∧
    (d.Shaped P → (d.addUp (symMaximumNew true P A e)).Shaped P) := by
  have smax : ∀ m, symMaximumNew true P A e = .ok m → Shape P m := fun m => (extremes_shape true P A maxDepth e m).2
  cases hlb : symMaximumNew true P A e with
  | ok lo =>
    unfold DimAcc.addUp
    dsimp only
    split
    · exact ⟨⟨fun _ h => h, fun _ h => h, fun h => h, fun _ => rfl⟩, Or.inl rfl, fun h => h⟩
    · refine ⟨⟨fun _ h => h, fun _ h => List.mem_append_left _ h, fun h => h, fun h => h⟩, Or.inr ⟨lo, by simp, rfl⟩, fun h => ⟨h.1, ?_⟩⟩
      intro x hx
      rcases List.mem_append.1 hx with hx | hx
      · exact h.2 x hx
      · rw [List.mem_singleton.1 hx]; exact smax lo hlb
  | ub => exact ⟨⟨fun _ h => h, fun _ h => h, fun h => h, fun _ => rfl⟩, Or.inl rfl, fun h => h⟩
  | null => exact ⟨⟨fun _ h => h, fun _ h => h, fun h => h, fun _ => rfl⟩, Or.inl rfl, fun h => h⟩

theorem DimAcc.add_spec {P : List String} {A : Assums} {d d' : DimAcc} {e : Expr} (h : d.add P A e = .ok d') :
    d.Le d' ∧ d'.Has P A e ∧ (d.Shaped P → d'.Shaped P) := by
  unfold DimAcc.add at h
  split at h
  · cases h
  · cases h
  · simp only [Res.ok.injEq] at h
    subst h
    obtain ⟨a1, a2, a3⟩ := DimAcc.low_spec (P := P) (A := A) d e
    obtain ⟨b1, b2, b3⟩ := DimAcc.up_spec (P := P) (A := A) (d.addLow (symMinimumNew true P A e)) e
    exact ⟨a1.trans b1, ⟨a2.imp b1.lo fun ⟨x, hx, hm⟩ => ⟨x, b1.lows x hx, hm⟩, b2⟩, fun h => b3 (a3 h)⟩

/-- entries are only added to -/
def AccLe (ds ds' : List DimAcc) : Prop := ∀ (k : Nat) (d : DimAcc), ds[k]? = some d → ∃ d', ds'[k]? = some d' ∧ d.Le d'

theorem addSubset_spec {P : List String} {A : Assums} : ∀ (sub : List Expr) (ds ds' : List DimAcc), addSubset P A ds sub = .ok ds' →
    AccLe ds ds' ∧ (∀ (k : Nat) (e : Expr), sub[k]? = some e → ∃ d, ds'[k]? = some d ∧ d.Has P A e) ∧
      ((∀ d ∈ ds, d.Shaped P) → ∀ d ∈ ds', d.Shaped P)
  | [], ds, ds', h => by
    rw [addSubset] at h
    simp only [Res.ok.injEq] at h
    subst h
    exact ⟨fun k d hd => ⟨d, hd, .rfl' d⟩, by simp, fun h => h⟩
  | e :: r, [], ds', h => by
    rw [addSubset] at h
    obtain ⟨d, hd, h⟩ := bind_ok h
    obtain ⟨ds1, h1, h⟩ := bind_ok h
    simp only [Res.ok.injEq] at h
    subst h
    obtain ⟨_, a2, a3⟩ := DimAcc.add_spec hd
    obtain ⟨_, b2, b3⟩ := addSubset_spec r [] ds1 h1
    refine ⟨by intro k d hd; simp at hd, fun k f hk => ?_, fun h => List.forall_mem_cons.2 ⟨a3 (by simp [DimAcc.Shaped]), b3 (by simp)⟩⟩
    cases k with
    | zero => simp only [List.getElem?_cons_zero, Option.some.injEq] at hk; subst hk; exact ⟨d, by simp, a2⟩
    | succ k => simp only [List.getElem?_cons_succ] at hk ⊢; exact b2 k f hk
  | e :: r, d0 :: ds, ds', h => by
    rw [addSubset] at h
    obtain ⟨d, hd, h⟩ := bind_ok h
    obtain ⟨ds1, h1, h⟩ := bind_ok h
    simp only [Res.ok.injEq] at h
    subst h
    obtain ⟨a1, a2, a3⟩ := DimAcc.add_spec hd
    obtain ⟨b1, b2, b3⟩ := addSubset_spec r ds ds1 h1
    refine ⟨fun k f hk => ?_, fun k f hk => ?_, fun h => List.forall_mem_cons.2 ⟨a3 (h d0 (by simp)), b3 fun x hx => h x (by simp [hx])⟩⟩
    · cases k with
      | zero => simp only [List.getElem?_cons_zero, Option.some.injEq] at hk; subst hk; exact ⟨d, by simp, a1⟩
      | succ k => simp only [List.getElem?_cons_succ] at hk ⊢; exact b1 k f hk
    · cases k with
      | zero => simp only [List.getElem?_cons_zero, Option.some.injEq] at hk; subst hk; exact ⟨d, by simp, a2⟩
      | succ k => simp only [List.getElem?_cons_succ] at hk ⊢; exact b2 k f hk

theorem AccLe.trans {a b c : List DimAcc} (h : AccLe a b) (h' : AccLe b c) : AccLe a c := fun k d hd => by
  obtain ⟨d1, h1, l1⟩ := h k d hd
  obtain ⟨d2, h2, l2⟩ := h' k d1 h1
  exact ⟨d2, h2, l1.trans l2⟩

theorem addSubsets_spec {P : List String} : ∀ (l : List (Assums × List Expr)) (ds ds' : List DimAcc), addSubsets P l ds = .ok ds' →
    AccLe ds ds' ∧ (∀ q ∈ l, ∀ (k : Nat) (e : Expr), q.2[k]? = some e → ∃ d, ds'[k]? = some d ∧ d.Has P q.1 e) ∧
      ((∀ d ∈ ds, d.Shaped P) → ∀ d ∈ ds', d.Shaped P)
  | [], ds, ds', h => by
    rw [addSubsets] at h
    simp only [Res.ok.injEq] at h
    subst h
    exact ⟨fun k d hd => ⟨d, hd, .rfl' d⟩, by simp, fun h => h⟩
  | (A, sub) :: r, ds, ds', h => by
    rw [addSubsets] at h
    obtain ⟨ds1, h1, h⟩ := bind_ok h
    obtain ⟨a1, a2, a3⟩ := addSubset_spec sub ds ds1 h1
    obtain ⟨b1, b2, b3⟩ := addSubsets_spec r ds1 ds' h
    refine ⟨a1.trans b1, List.forall_mem_cons.2 ⟨fun k e hk => ?_, b2⟩, fun h => b3 (a3 h)⟩
    obtain ⟨d, hd, hh⟩ := a2 k e hk
    obtain ⟨d', hd', hl⟩ := b1 k d hd
    exact ⟨d', hd', hh.mono hl⟩

/-! ### the minimum and the maximum of bounds that are numbers -/

theorem min_le_mem {ρ : Val} {l : List Expr} (h : ∀ e ∈ l, ∃ v, e.eval ρ = .fin v) (hl : l ≠ []) :
    ∃ m, (Expr.min l).eval ρ = .fin m ∧ ∀ e ∈ l, ∀ v, e.eval ρ = .fin v → m ≤ v := by
  have go : ∀ (r : List Expr) (u : Int), (∀ e ∈ r, ∃ v, e.eval ρ = .fin v) →
      ∃ m, (Expr.evalL ρ r).foldl V.min (.fin u) = .fin m ∧ m ≤ u ∧ ∀ e ∈ r, ∀ v, e.eval ρ = .fin v → m ≤ v := by
    intro r
    induction r with
    | nil => intro u _; exact ⟨u, rfl, Int.le_refl _, by simp⟩
    | cons a r ih =>
      intro u hr
      obtain ⟨w, hw⟩ := hr a (by simp)
      obtain ⟨m, h1, h2, h3⟩ := ih (if u ≤ w then u else w) fun e he => hr e (by simp [he])
      refine ⟨m, ?_, ?_, List.forall_mem_cons.2 ⟨fun v hv => ?_, h3⟩⟩
      · simp only [Expr.evalL, List.foldl_cons, hw, V.min]; exact h1
      · split at h2 <;> omega
      · rw [hw] at hv; cases hv; split at h2 <;> omega
  cases l with
  | nil => exact absurd rfl hl
  | cons a r =>
    obtain ⟨w, hw⟩ := h a (by simp)
    obtain ⟨m, h1, h2, h3⟩ := go r w fun e he => h e (by simp [he])
    exact ⟨m, by simp only [Expr.eval, Expr.evalL, hw]; exact h1, List.forall_mem_cons.2 ⟨fun v hv => by rw [hw] at hv; cases hv; exact h2, h3⟩⟩

theorem le_max_mem {ρ : Val} {l : List Expr} (h : ∀ e ∈ l, ∃ v, e.eval ρ = .fin v) (hl : l ≠ []) :
    ∃ m, (Expr.max l).eval ρ = .fin m ∧ ∀ e ∈ l, ∀ v, e.eval ρ = .fin v → v ≤ m := by
  have go : ∀ (r : List Expr) (u : Int), (∀ e ∈ r, ∃ v, e.eval ρ = .fin v) →
      ∃ m, (Expr.evalL ρ r).foldl V.max (.fin u) = .fin m ∧ u ≤ m ∧ ∀ e ∈ r, ∀ v, e.eval ρ = .fin v → v ≤ m := by
    intro r
    induction r with
    | nil => intro u _; exact ⟨u, rfl, Int.le_refl _, by simp⟩
    | cons a r ih =>
      intro u hr
      obtain ⟨w, hw⟩ := hr a (by simp)
      obtain ⟨m, h1, h2, h3⟩ := ih (if u ≤ w then w else u) fun e he => hr e (by simp [he])
      refine ⟨m, ?_, ?_, List.forall_mem_cons.2 ⟨fun v hv => ?_, h3⟩⟩
      · simp only [Expr.evalL, List.foldl_cons, hw, V.max]; exact h1
      · split at h2 <;> omega
      · rw [hw] at hv; cases hv; split at h2 <;> omega
  cases l with
  | nil => exact absurd rfl hl
  | cons a r =>
    obtain ⟨w, hw⟩ := h a (by simp)
    obtain ⟨m, h1, h2, h3⟩ := go r w fun e he => h e (by simp [he])
    exact ⟨m, by simp only [Expr.eval, Expr.evalL, hw]; exact h1, List.forall_mem_cons.2 ⟨fun v hv => by rw [hw] at hv; cases hv; exact h2, h3⟩⟩

theorem bound_fnsL_nil {l : List Expr} (h : Expr.fnsL l = []) : ∀ m ∈ l, m.fns = [] := by
  induction l with
  | nil => simp
  | cons a r ih =>
    simp only [Expr.fnsL, List.append_eq_nil_iff] at h
    exact List.forall_mem_cons.2 ⟨h.1, ih h.2⟩

/-! ### the blocks have assumptions -/

mutual
theorem Node.assums_block (C : Ctx) : (n : Node) → ∀ A p l, (p, l) ∈ n.blocksAt → ∃ B, n.assums C A p = some B
  | .block _, A, p, l, h => by
    simp only [Node.blocksAt, List.mem_singleton, Prod.mk.injEq] at h
    obtain ⟨rfl, _⟩ := h
    exact ⟨A, by simp [Node.assums]⟩
  | .seq s, A, p, l, h => by
    rw [Node.blocksAt] at h
    obtain ⟨B, hB⟩ := Seq.assums_block C s A p l h
    exact ⟨B, by simp only [Node.assums]; exact hB⟩
  | .ifElse b, A, p, l, h => by
    rw [Node.blocksAt] at h
    obtain ⟨B, hB⟩ := Brs.assums_block C b A p l h
    exact ⟨B, by simp only [Node.assums]; exact hB⟩
  | .whileL s, A, p, l, h => by
    rw [Node.blocksAt] at h
    obtain ⟨⟨q, l'⟩, h1, h2⟩ := List.mem_map.1 h
    simp only [Prod.mk.injEq] at h2
    obtain ⟨rfl, rfl⟩ := h2
    obtain ⟨B, hB⟩ := Seq.assums_block C s A q l' h1
    exact ⟨B, by simp only [Node.assums]; exact hB⟩
  | .loop m i a c u s, A, p, l, h => by
    rw [Node.blocksAt] at h
    obtain ⟨⟨q, l'⟩, h1, h2⟩ := List.mem_map.1 h
    simp only [Prod.mk.injEq] at h2
    obtain ⟨rfl, rfl⟩ := h2
    obtain ⟨B, hB⟩ := Seq.assums_block C s (propagate (C.body A.2 i a c u s) A.1, propagate (C.body A.2 i a c u s) A.2) q l' h1
    exact ⟨B, by simp only [Node.assums]; exact hB⟩
  | .brk, A, p, l, h => by simp [Node.blocksAt] at h
  | .cont, A, p, l, h => by simp [Node.blocksAt] at h
  | .ret _ _, A, p, l, h => by simp [Node.blocksAt] at h
theorem Seq.assums_block (C : Ctx) : (s : Seq) → ∀ A p l, (p, l) ∈ s.blocksAt → ∃ B, s.assums C A p = some B
  | .nil, A, p, l, h => by simp [Seq.blocksAt] at h
  | .cons n t r, A, p, l, h => by
    rw [Seq.blocksAt] at h
    split at h
    · simp at h
    · rcases List.mem_append.1 h with h | h
      · obtain ⟨⟨q, l'⟩, h1, h2⟩ := List.mem_map.1 h
        simp only [Prod.mk.injEq] at h2
        obtain ⟨rfl, rfl⟩ := h2
        obtain ⟨B, hB⟩ := Node.assums_block C n A q l' h1
        exact ⟨B, by simp only [Seq.assums]; exact hB⟩
      · obtain ⟨⟨q, l'⟩, h1, h2⟩ := List.mem_map.1 h
        simp only [Prod.mk.injEq] at h2
        obtain ⟨rfl, rfl⟩ := h2
        obtain ⟨B, hB⟩ := Seq.assums_block C r A q l' h1
        cases q with
        | nil => exact (Seq.no_root r l' h1).elim
        | cons j q => exact ⟨B, by simp only [shiftPath, Seq.assums]; exact hB⟩
theorem Brs.assums_block (C : Ctx) : (b : Brs) → ∀ A p l, (p, l) ∈ b.blocksAt → ∃ B, b.assums C A p = some B
  | .nil, A, p, l, h => by simp [Brs.blocksAt] at h
  | .cons c s r, A, p, l, h => by
    rw [Brs.blocksAt] at h
    rcases List.mem_append.1 h with h | h
    · obtain ⟨⟨q, l'⟩, h1, h2⟩ := List.mem_map.1 h
      simp only [Prod.mk.injEq] at h2
      obtain ⟨rfl, rfl⟩ := h2
      obtain ⟨B, hB⟩ := Seq.assums_block C s A q l' h1
      exact ⟨B, by simp only [Brs.assums]; exact hB⟩
    · obtain ⟨⟨q, l'⟩, h1, h2⟩ := List.mem_map.1 h
      simp only [Prod.mk.injEq] at h2
      obtain ⟨rfl, rfl⟩ := h2
      obtain ⟨B, hB⟩ := Brs.assums_block C r A q l' h1
      cases q with
      | nil => exact (Brs.no_root r l' h1).elim
      | cons j q => exact ⟨B, by simp only [shiftPath, Brs.assums]; exact hB⟩
end

/-! ### the theorem -/

/-- the subsets with which a computation accesses `x` -/
def Stmt.subsOf (x : String) (s : Stmt) : List (List Expr) := s.readSubs x ++ s.writeSubs x

/-- no block writes a symbol of one of its own subsets of `x` -/
def Node.SubsetsStable (n : Node) (x : String) : Prop :=
  ∀ p l, (p, l) ∈ n.blocksAt → ∀ s ∈ l, ∀ sub ∈ s.subsOf x, ∀ y ∈ Expr.atomsL sub, ¬ writes (l.flatMap Stmt.users) y

/-- no library node of `n` has `x` as an operand -/
def Node.NoLib (n : Node) (x : String) : Prop :=
  ∀ p l, (p, l) ∈ n.blocksAt → ∀ op rs ws, Stmt.lib op rs ws ∈ l → x ∉ rs ∧ x ∉ ws

theorem touches_subset {E : Env} {ρ : St} {s : Stmt} {x : String} {idx : List Int} (hl : ∀ op rs ws, s = .lib op rs ws → x ∉ rs ∧ x ∉ ws)
    (h : s.Touches E ρ x idx) : ∃ sub ∈ s.subsOf x, idx = sub.map (ρ.ev E) := by
  cases s with
  | tasklet op ins out sub =>
    rcases h with ⟨r, hr, rfl, rfl⟩ | ⟨rfl, rfl⟩
    · refine ⟨r.2, ?_, rfl⟩
      simp only [Stmt.subsOf, Stmt.readSubs, List.mem_append, List.mem_map, List.mem_filter]
      exact Or.inl ⟨r, ⟨hr, by simp⟩, rfl⟩
    · exact ⟨sub, by simp [Stmt.subsOf, Stmt.writeSubs], rfl⟩
  | lib op rs ws =>
    have := hl op rs ws rfl
    rcases h with h | h
    · exact absurd h this.1
    · exact absurd h this.2

/-- **C84 (partial).** If `MemAccessRanges::get` reports a range for container `x` in a region that is not undefined, then every element of `x` that an
execution of the region accesses lies within the bounds, evaluated at the entry of the region: for all regions, inputs and executions (also those that do
not terminate), provided the assumptions reported for the blocks hold when they are entered (`assumptions_sound_partial`), the bounds contain no
function, `x` is no operand of a library node, and no block writes a symbol of its own subsets.  Missing: these cases, in which the range is wrong
(`RangesViol`). -/
theorem mem_access_ranges_partial (E : Env) (C : Ctx) (A : Assums × Assums) (n : Node) (x : String) (r : Range) (σ : St)
    (hr : n.range C A x = .ok r) (hu : r.undefined = false)
    (hA : ∀ p B τ, n.assums C A p = some B → n.vis E p σ τ → B.1.Hold (τ.val E))
    (hf : ∀ d ∈ r.dims, ∀ e, d.1 = some e ∨ d.2 = some e → e.fns = [])
    (hl : n.NoLib x) (hs : n.SubsetsStable x) (idx : List Int) (h : n.Accesses E σ x idx) : r.Contains E σ idx := by
  obtain ⟨p, l, τ, l1, s, l2, hb, hv, rfl, ht⟩ := h
  have hsl : s ∈ l1 ++ s :: l2 := by simp
  obtain ⟨sub, hsub, rfl⟩ := touches_subset (fun op rs ws e => hl p _ hb op rs ws (e ▸ hsl)) ht
  obtain ⟨B, hB⟩ := Node.assums_block C n A p _ hb
  have hH := hA p B τ hB hv
  unfold Node.range at hr
  obtain ⟨ds, hds, hr⟩ := bind_ok hr
  split at hr
  · cases hr
  simp only [Res.ok.injEq] at hr
  obtain ⟨_, h2, h3⟩ := addSubsets_spec _ _ _ hds
  have hmem : (B.1, sub) ∈ n.subsetsOf C A (Stmt.readSubs x) ++ n.subsetsOf C A (Stmt.writeSubs x) := by
    have go : ∀ f : Stmt → List (List Expr), sub ∈ f s → (B.1, sub) ∈ n.subsetsOf C A f := by
      intro f hf
      unfold Node.subsetsOf
      refine List.mem_flatMap.2 ⟨(p, l1 ++ s :: l2), hb, ?_⟩
      simp only [hB]
      exact List.mem_flatMap.2 ⟨s, hsl, List.mem_map.2 ⟨sub, hf, rfl⟩⟩
    rcases List.mem_append.1 hsub with h | h
    · exact List.mem_append_left _ (go _ h)
    · exact List.mem_append_right _ (go _ h)
  have hdims : r.dims = ds.map DimAcc.final := by rw [← hr]
  have hk := h2 _ hmem
  have hshape := h3 (by simp)
  constructor
  · rw [List.length_map, hdims, List.length_map]
    rcases Nat.lt_or_ge ds.length sub.length with hlt | hge
    · obtain ⟨d, hd, _⟩ := hk ds.length sub[ds.length] (by simp [hlt])
      simp at hd
    · exact hge
  · intro k v hkv
    rw [List.getElem?_map] at hkv
    obtain ⟨e, he, rfl⟩ := Option.map_eq_some_iff.1 hkv
    obtain ⟨d, hd, hhas⟩ := hk k e he
    have hdk : r.dims[k]? = some d.final := by rw [hdims, List.getElem?_map, hd]; rfl
    have hmemd : d.final ∈ r.dims := List.mem_of_getElem? hdk
    have hdef : d.final.1.isNone = false ∧ d.final.2.isNone = false := by
      have : r.undefined = (ds.map DimAcc.final).any fun b => b.1.isNone || b.2.isNone := by rw [← hr]
      rw [this, ← hdims, List.any_eq_false] at hu
      have := hu _ hmemd
      simp only [Bool.or_eq_true, not_or, Bool.not_eq_true] at this
      exact this
    have hsh := hshape d (List.mem_of_getElem? hd)
    -- the two bounds
    have hlo : d.lows ≠ [] ∧ d.loUndef = false := by
      by_contra hc
      have := hdef.1
      rw [DimAcc.final] at this
      simp only [if_neg hc] at this
      cases this
    have hhi : d.ups ≠ [] ∧ d.upUndef = false := by
      by_contra hc
      have := hdef.2
      rw [DimAcc.final] at this
      simp only [if_neg hc] at this
      cases this
    have hfin : d.final = (some (.min d.lows), some (.max d.ups)) := by
      rw [DimAcc.final]; simp only [if_pos hlo, if_pos hhi]
    rw [hfin] at hdk hmemd
    have hfl : ∀ m ∈ d.lows, m.fns = [] := by
      have := hf _ hmemd _ (Or.inl rfl)
      simp only [Expr.fns] at this
      exact fun m hm => bound_fnsL_nil this m hm
    have hfu : ∀ m ∈ d.ups, m.fns = [] := by
      have := hf _ hmemd _ (Or.inr rfl)
      simp only [Expr.fns] at this
      exact fun m hm => bound_fnsL_nil this m hm
    obtain ⟨lo, hlom, hmin⟩ := hhas.lo.resolve_left (by simp [hlo.2])
    obtain ⟨hi, him, hmax⟩ := hhas.hi.resolve_left (by simp [hhi.2])
    -- parameters keep their values
    have hpar : ∀ m, Shape (C.params n) m → m.eval (τ.val E) = m.eval (σ.val E) := by
      intro m hm
      refine eval_congr_atoms m _ _ rfl fun y hy => ?_
      have hy := hm.atoms y hy
      simp only [Ctx.params, List.mem_filter, Bool.and_eq_true, Bool.not_eq_true', decide_eq_false_iff_not] at hy
      exact congrFun (Node.vis_inv E y (σ y) n hy.2.2 p σ τ rfl hv).1 []
    have hval : ∀ m, Shape (C.params n) m → m.fns = [] → ∃ v, m.eval (σ.val E) = .fin v := fun m hm hf => hm.fin _ hf
    obtain ⟨m, hm1, hm2⟩ := min_le_mem (fun e he => hval e (hsh.1 e he) (hfl e he)) hlo.1
    obtain ⟨M, hM1, hM2⟩ := le_max_mem (fun e he => hval e (hsh.2 e he) (hfu e he)) hhi.1
    obtain ⟨vlo, hvlo⟩ := hval lo (hsh.1 lo hlom) (hfl lo hlom)
    obtain ⟨vhi, hvhi⟩ := hval hi (hsh.2 hi him) (hfu hi him)
    -- the index has a value, the same at the entry of the block
    obtain ⟨v, hv1⟩ := bounded_fin true _ _ (τ.val E) _ e lo hmin (hfl lo hlom)
    have hsame : (runBlock E l1 τ).ev E e = τ.ev E e := by
      refine St.ev_congr E fun y hy => congrFun (runBlock_frame E l1 τ y fun hw => ?_) []
      refine hs p _ hb s hsl sub hsub y ((Expr.mem_atomsL y sub).2 ⟨e, List.mem_of_getElem? he, hy⟩) ?_
      rw [List.flatMap_append, writes_append]
      exact Or.inl hw
    have hev : τ.ev E e = v := St.ev_of_eval hv1
    obtain ⟨c1, c2⟩ := extreme_values_new_closed_partial true (C.params n) B.1 (τ.val E) hH e lo hi (by rw [hv1]; simp)
    have d1 := c1 hmin (hfl lo hlom) (by rw [hpar lo (hsh.1 lo hlom), hvlo]; simp)
    have d2 := c2 hmax (hfu hi him) (by rw [hpar hi (hsh.2 hi him), hvhi]; simp)
    rw [hpar lo (hsh.1 lo hlom), hvlo, hv1] at d1
    rw [hpar hi (hsh.2 hi him), hvhi, hv1] at d2
    have d1' : vlo ≤ v := by simpa [V.le_def, V.le] using d1
    have d2' : v ≤ vhi := by simpa [V.le_def, V.le] using d2
    refine ⟨_, _, hdk, ?_, ?_⟩
    · rw [hsame, hev, St.ev_of_eval hm1]; exact Int.le_trans (hm2 lo hlom vlo hvlo) d1'
    · rw [hsame, hev, St.ev_of_eval hM1]; exact Int.le_trans d2' (hM2 hi him vhi hvhi)

end Docc.IR
