import Verif.IR.SymPropProps

/-! C75: the theorem about SymbolPropagation. -/
namespace Docc.IR
open Docc.Sym

theorem Path.join {G : List (V × V)} {b : V} {q : List V} : ∀ {p : List V}, Path G p → p.getLast? = some b → Path G (b :: q) → Path G (p ++ q)
  | [], _, h, _ => by simp at h
  | [a], _, h, hq => by simp at h; subst h; exact hq
  | a :: a' :: p, h, hl, hq => by
    refine ⟨h.1, ?_⟩
    exact Path.join (p := a' :: p) h.2 (by simpa using hl) hq

theorem getLast?_join {b z : V} {p q : List V} (h : p.getLast? = some b) (hq : (b :: q).getLast? = some z) : (p ++ q).getLast? = some z := by
  cases q with
  | nil => simp at hq; subst hq; simpa using h
  | cons c q => rw [List.getLast?_append]; simp only [List.getLast?_cons_cons] at hq; simp [hq]

/-- a use between write and read is dominated by the write when the read is -/
theorem dominates_between {G : List (V × V)} {src w r u : V} (h : Dominates G src w r) (hu : UsedBetween G w r u) : Dominates G src w u := by
  obtain ⟨h1, h2, q, hq, hl, hn⟩ := hu
  refine ⟨Ne.symm h1, fun p hp hpl => ?_⟩
  have := h.2 (p ++ q) (by rw [← List.cons_append]; exact hp.join hpl hq) (by rw [← List.cons_append]; exact getLast?_join hpl hl)
  rw [← List.cons_append, List.mem_append] at this
  rcases this with h | h
  · exact h
  · exact absurd (List.mem_cons_of_mem _ h) hn

/-- **C75.** Forward propagation: if the pass replaces `x` by `e` at a read whose only definition is the assignment `x := e` of a
transition, then the program behaves as before.  Missing, each with a counterexample: a write of a symbol of `e` that the read dominates and that lies
between write and read (in a loop around the read), a read in a transition that itself assigns `x` or a symbol of `e`, and the propagation
of an `e` changed by inverted assignments.  Also missing (partial answers of the users graph): break, continue, loop
conditions without symbols, symbols of a loop condition other than the last one; and right-hand sides that divide by zero. -/
theorem symbol_propagation_partial {E : Env} {C : Brs → Bool} (hC : CompleteSound E C) {s : Seq} (hs : s.flowOk = true) {x : String} {e : Expr}
    {i j : Nat} (hr : V.ev j (.read, x) ∉ s.stale 2) (hd : ∀ σ : St, ∃ n, e.eval (σ.val E) = .fin n)
    (hw : s.asg x e (.ev i (.write, x)) 2 = true) (hdef : DefinedBy E s x (.ev i (.write, x)) (.ev j (.read, x)))
    (ha : Accepted (s.graph C) x e (.ev i (.write, x)) (.ev j (.read, x)))
    (hm1 : ∀ u, ∀ y ∈ e.atoms, u.wr y = true → Dominates (s.graph C) (.nop 0) (.ev j (.read, x)) u →
      ¬ UsedBetween (s.graph C) (.ev i (.write, x)) (.ev j (.read, x)) u)
    (hm2 : s.apart (x :: e.atoms) (.ev j (.read, x)) 2 = true) :
    (s.prop x e (.ev j (.read, x)) 2).den E = s.den E := by
  obtain ⟨hx, hdom, hacc⟩ := ha
  refine prop_last hx hd s hw hm2 ?_
  rintro l ⟨σ, o, hl⟩
  obtain ⟨a, b, rfl, hb⟩ := hdef σ l o hl
  refine ⟨a, b, rfl, fun v hv y hy => ?_⟩
  rcases List.mem_cons.mp hy with rfl | hy
  · exact hb v hv
  · cases hwr : v.wr y with
    | false => rfl
    | true =>
      exfalso
      have hwb : V.ev i (.write, x) ∉ b := fun h => by have := hb _ h; simp [V.wr] at this
      have hvw : v ≠ .ev i (.write, x) := fun h => hwb (h ▸ hv)
      have hvr : v ≠ .ev j (.read, x) := by rintro rfl; simp [V.wr] at hwr
      obtain ⟨b1, b2, rfl⟩ := List.append_of_mem hv
      have hu : UsedBetween (s.graph C) (.ev i (.write, x)) (.ev j (.read, x)) v :=
        uses_between_complete_partial hC hs (l0 := a ++ .ev i (.write, x) :: b1) (l1 := b2) (l2 := []) (σ := σ) (o := o) (by simpa using hl)
          hvw (by simp) (fun h => hwb (by simp [h])) hvr hr
      obtain ⟨z, hz⟩ : ∃ z, (v, z) ∈ s.graph C := by
        obtain ⟨_, _, p, hp, hpl, _⟩ := hu
        cases p with
        | nil => simp at hpl; exact absurd hpl hvr
        | cons z p => exact ⟨z, hp.1⟩
      rcases hacc with h | h
      · refine h v z hz y hy hwr ⟨hvw, hvr, dominates_between hdom hu, fun hd => hm1 v y hy hwr hd hu⟩
      · exact h v z hz y hy hwr hu

theorem propInverse_add {x : String} {a b d' : Expr} (h : propInverse x (.add [a, b]) = some d') :
    ∃ c, (a = .sym x ∧ b = .int c ∨ a = .int c ∧ b = .sym x) ∧ d' = .add [.sym x, .mul [.int (-1), .int c]] := by
  unfold propInverse at h
  split at h
  · cases h
  · dsimp only at h
    by_cases ha : a = .sym x
    · simp only [ha, if_true] at h
      cases b <;> simp at h
      exact ⟨_, Or.inl ⟨ha, rfl⟩, h.symm⟩
    · simp only [ha, if_false] at h
      by_cases hb : b = .sym x
      · simp only [hb, if_true] at h
        cases a <;> simp at h
        exact ⟨_, Or.inr ⟨rfl, hb⟩, h.symm⟩
      · simp only [hb, if_false] at h; cases h

theorem propInverse_mul {x : String} {a b d' : Expr} (h : propInverse x (.mul [a, b]) = some d') :
    ∃ c, (a = .sym x ∧ b = .int c ∨ a = .int c ∧ b = .sym x) ∧ (c ≠ 1 → d' = .fn "idiv" [.sym x, .int c]) ∧ (c = 1 → d' = .sym x) := by
  have key : ∀ c : Int, (if c = 0 then Expr.fn "idiv" [.sym x, .int c] else if c = 1 then .sym x else .fn "idiv" [.sym x, .int c]) = d' →
      (c ≠ 1 → d' = .fn "idiv" [.sym x, .int c]) ∧ (c = 1 → d' = .sym x) := by
    rintro c rfl
    refine ⟨fun h => ?_, ?_⟩
    · simp [h]
    · rintro rfl; rfl
  unfold propInverse at h
  split at h
  · cases h
  · dsimp only at h
    by_cases ha : a = .sym x
    · simp only [ha, if_true] at h
      cases b <;> simp at h
      exact ⟨_, Or.inl ⟨ha, rfl⟩, key _ h⟩
    · simp only [ha, if_false] at h
      by_cases hb : b = .sym x
      · simp only [hb, if_true] at h
        cases a <;> simp at h
        exact ⟨_, Or.inr ⟨rfl, hb⟩, key _ h⟩
      · simp only [hb, if_false] at h; cases h

/-- **C75.** The pass's `inverse` is right for sums of two arguments: its value, after the assignment, is the value of the symbol before. -/
theorem propInverse_sum_partial {x : String} {a b d' : Expr} {ρ : Val} {n : Int} (h : propInverse x (.add [a, b]) = some d')
    (hn : (Expr.add [a, b]).eval ρ = .fin n) : d'.eval (ρ.set x n) = .fin (ρ.sym x) := by
  obtain ⟨c, hc, rfl⟩ := propInverse_add h
  have hn' : n = ρ.sym x + c := by
    rcases hc with ⟨rfl, rfl⟩ | ⟨rfl, rfl⟩ <;> simp [Expr.eval, Expr.evalL, Sym.V.add] at hn <;> omega
  simp [Expr.eval, Expr.evalL, Sym.V.add, Sym.V.mul, Val.set]
  omega

/-- **C75.** ... and for products of two arguments, unless the factor is zero. -/
theorem propInverse_product_partial {x : String} {a b d' : Expr} {ρ : Val} {n : Int} (h : propInverse x (.mul [a, b]) = some d')
    (hn : (Expr.mul [a, b]).eval ρ = .fin n) (h0 : a ≠ .int 0 ∧ b ≠ .int 0) : d'.eval (ρ.set x n) = .fin (ρ.sym x) := by
  obtain ⟨c, hc, h1, h2⟩ := propInverse_mul h
  have hn' : n = ρ.sym x * c := by
    rcases hc with ⟨rfl, rfl⟩ | ⟨rfl, rfl⟩ <;> simp [Expr.eval, Expr.evalL, Sym.V.mul] at hn
    · exact hn.symm
    · rw [Int.mul_comm]; exact hn.symm
  have hc0 : c ≠ 0 := by
    rintro rfl
    rcases hc with ⟨_, rfl⟩ | ⟨rfl, _⟩
    · exact h0.2 rfl
    · exact h0.1 rfl
  by_cases c1 : c = 1
  · rw [h2 c1]; subst c1; simp [Expr.eval, Val.set, hn']
  · rw [h1 c1]
    subst hn'
    simp [Expr.eval, Expr.evalL, Val.set, finArgs, applyFn, hc0, Int.mul_tdiv_cancel]

end Docc.IR
