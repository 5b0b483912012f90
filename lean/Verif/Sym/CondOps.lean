import Verif.Sym.CNFProps
import Verif.Sym.ExprProps

/-
Equality, symbols and substitution of conditions (symbolic.cpp:296-329, applied to `Condition`).
-/
namespace Docc.Sym

mutual
/-- SymEngine::eq on conditions -/
def Cond.beq : Cond → Cond → Bool
  | .tt, .tt => true
  | .ff, .ff => true
  | .atom x, .atom y => x == y
  | .eq a b, .eq c d => a == c && b == d
  | .ne a b, .ne c d => a == c && b == d
  | .le a b, .le c d => a == c && b == d
  | .lt a b, .lt c d => a == c && b == d
  | .eqB a b, .eqB c d => Cond.beq a c && Cond.beq b d
  | .neB a b, .neB c d => Cond.beq a c && Cond.beq b d
  | .not a, .not b => Cond.beq a b
  | .and a, .and b => Cond.beqL a b
  | .or a, .or b => Cond.beqL a b
  | _, _ => false
/-- equality of argument lists -/
def Cond.beqL : List Cond → List Cond → Bool
  | [], [] => true
  | a :: r, b :: s => Cond.beq a b && Cond.beqL r s
  | _, _ => false
end

theorem Cond.beqL_iff (l l' : List Cond) (ih : ∀ e ∈ l, ∀ e', Cond.beq e e' = true ↔ e = e') :
    Cond.beqL l l' = true ↔ l = l' := by
  induction l generalizing l' with
  | nil => cases l' <;> simp [Cond.beqL]
  | cons a r ihr =>
    cases l' with
    | nil => simp [Cond.beqL]
    | cons b s =>
      simp only [Cond.beqL, Bool.and_eq_true, List.cons.injEq]
      rw [ih a (by simp), ihr s (fun e he => ih e (List.mem_cons_of_mem _ he))]

theorem Cond.beq_iff (e e' : Cond) : Cond.beq e e' = true ↔ e = e' := by
  induction e using Cond.induct generalizing e' with
  | htt => cases e' <;> simp [Cond.beq]
  | hff => cases e' <;> simp [Cond.beq]
  | hatom x => cases e' <;> simp [Cond.beq]
  | heq a b | hne a b | hle a b | hlt a b => cases e' <;> simp [Cond.beq]
  | heqB a b ih1 ih2 | hneB a b ih1 ih2 => cases e' <;> simp [Cond.beq, ih1, ih2]
  | hnot c ih => cases e' <;> simp [Cond.beq, ih]
  | hand l ih | hor l ih => cases e' <;> simp [Cond.beq, Cond.beqL_iff _ _ ih]

instance : DecidableEq Cond := fun a b => decidable_of_iff _ (Cond.beq_iff a b)

mutual
/-- the symbols of a condition -/
def Cond.atoms : Cond → List String
  | .tt => []
  | .ff => []
  | .atom x => [x]
  | .eq a b => a.atoms ++ b.atoms
  | .ne a b => a.atoms ++ b.atoms
  | .le a b => a.atoms ++ b.atoms
  | .lt a b => a.atoms ++ b.atoms
  | .eqB a b => Cond.atoms a ++ Cond.atoms b
  | .neB a b => Cond.atoms a ++ Cond.atoms b
  | .not c => Cond.atoms c
  | .and l => Cond.atomsL l
  | .or l => Cond.atomsL l
/-- symbols of an argument list -/
def Cond.atomsL : List Cond → List String
  | [] => []
  | c :: r => Cond.atoms c ++ Cond.atomsL r
end

theorem Cond.mem_atomsL (x : String) (l : List Cond) : x ∈ Cond.atomsL l ↔ ∃ c ∈ l, x ∈ c.atoms := by
  induction l with
  | nil => simp [Cond.atomsL]
  | cons e r ih => simp [Cond.atomsL, ih]

theorem Cond.evalAll_congr (v w : Leaf) (l m : List Cond) (h : l.map (Cond.eval v) = m.map (Cond.eval w)) :
    Cond.evalAll v l = Cond.evalAll w m := by
  induction l generalizing m with
  | nil => cases m <;> simp_all [Cond.evalAll]
  | cons a r ih =>
    cases m with
    | nil => simp at h
    | cons b s => simp only [List.map_cons, List.cons.injEq] at h; simp only [Cond.evalAll, h.1, ih s h.2]

theorem Cond.evalAny_congr (v w : Leaf) (l m : List Cond) (h : l.map (Cond.eval v) = m.map (Cond.eval w)) :
    Cond.evalAny v l = Cond.evalAny w m := by
  induction l generalizing m with
  | nil => cases m <;> simp_all [Cond.evalAny]
  | cons a r ih =>
    cases m with
    | nil => simp at h
    | cons b s => simp only [List.map_cons, List.cons.injEq] at h; simp only [Cond.evalAny, h.1, ih s h.2]

/-- The truth value depends only on the values of the symbols (and of operands, through `hex`). -/
theorem Cond.eval_congr (v w : Leaf) (c : Cond)
    (hex : ∀ e : Expr, (∀ x ∈ e.atoms, x ∈ c.atoms) → v.ex e = w.ex e) (hat : ∀ x ∈ c.atoms, v.at' x = w.at' x) :
    c.eval v = c.eval w := by
  induction c using Cond.induct with
  | htt => rfl
  | hff => rfl
  | hatom x => exact hat x (by simp [Cond.atoms])
  | heq a b | hne a b | hle a b | hlt a b =>
    simp only [Cond.eval]
    rw [hex a (fun x hx => by simp [Cond.atoms, hx]), hex b (fun x hx => by simp [Cond.atoms, hx])]
  | heqB a b ih1 ih2 | hneB a b ih1 ih2 =>
    simp only [Cond.eval]
    rw [ih1 (fun e he => hex e fun x hx => by simp [Cond.atoms, he x hx]) (fun x hx => hat x (by simp [Cond.atoms, hx])),
      ih2 (fun e he => hex e fun x hx => by simp [Cond.atoms, he x hx]) (fun x hx => hat x (by simp [Cond.atoms, hx]))]
  | hnot c ih => simp only [Cond.eval]; rw [ih hex hat]
  | hand l ih =>
    simp only [Cond.eval]
    refine Cond.evalAll_congr _ _ _ _ (List.map_congr_left fun c hc => ih c hc ?_ ?_)
    · exact fun e he => hex e fun x hx => (Cond.mem_atomsL x l).2 ⟨c, hc, he x hx⟩
    · exact fun x hx => hat x ((Cond.mem_atomsL x l).2 ⟨c, hc, hx⟩)
  | hor l ih =>
    simp only [Cond.eval]
    refine Cond.evalAny_congr _ _ _ _ (List.map_congr_left fun c hc => ih c hc ?_ ?_)
    · exact fun e he => hex e fun x hx => (Cond.mem_atomsL x l).2 ⟨c, hc, he x hx⟩
    · exact fun x hx => hat x ((Cond.mem_atomsL x l).2 ⟨c, hc, hx⟩)

mutual
/-- `SymEngine::subs` on a condition: operands are substituted; a boolean symbol is renamed when old and new are
symbols. -/
def Cond.subs (c : Cond) (old new : Expr) : Cond :=
  match c with
  | .tt => .tt
  | .ff => .ff
  | .atom x => if old = .sym x then (match new with | .sym y => .atom y | _ => .atom x) else .atom x
  | .eq a b => .eq (a.subs old new) (b.subs old new)
  | .ne a b => .ne (a.subs old new) (b.subs old new)
  | .le a b => .le (a.subs old new) (b.subs old new)
  | .lt a b => .lt (a.subs old new) (b.subs old new)
  | .eqB a b => .eqB (Cond.subs a old new) (Cond.subs b old new)
  | .neB a b => .neB (Cond.subs a old new) (Cond.subs b old new)
  | .not a => .not (Cond.subs a old new)
  | .and l => .and (Cond.subsL l old new)
  | .or l => .or (Cond.subsL l old new)
/-- substitution in an argument list -/
def Cond.subsL (l : List Cond) (old new : Expr) : List Cond :=
  match l with
  | [] => []
  | c :: r => Cond.subs c old new :: Cond.subsL r old new
end

mutual
/-- the boolean symbols of a condition -/
def Cond.boolSyms : Cond → List String
  | .tt => []
  | .ff => []
  | .atom x => [x]
  | .eq _ _ => []
  | .ne _ _ => []
  | .le _ _ => []
  | .lt _ _ => []
  | .eqB a b => Cond.boolSyms a ++ Cond.boolSyms b
  | .neB a b => Cond.boolSyms a ++ Cond.boolSyms b
  | .not c => Cond.boolSyms c
  | .and l => Cond.boolSymsL l
  | .or l => Cond.boolSymsL l
/-- boolean symbols of an argument list -/
def Cond.boolSymsL : List Cond → List String
  | [] => []
  | c :: r => Cond.boolSyms c ++ Cond.boolSymsL r
end

theorem Cond.mem_boolSymsL (x : String) (l : List Cond) : x ∈ Cond.boolSymsL l ↔ ∃ c ∈ l, x ∈ c.boolSyms := by
  induction l with
  | nil => simp [Cond.boolSymsL]
  | cons e r ih => simp [Cond.boolSymsL, ih]

theorem Cond.subsL_eq_map (o n : Expr) (l : List Cond) : Cond.subsL l o n = l.map (fun e => Cond.subs e o n) := by
  induction l with
  | nil => rfl
  | cons e r ih => simp [Cond.subsL, ih]

/-- Substitution commutes with evaluation when it does on operands and on boolean symbols. -/
theorem Cond.eval_subs (v w : Leaf) (c : Cond) (old new : Expr) (hex : ∀ e : Expr, v.ex (e.subs old new) = w.ex e)
    (hat : ∀ x ∈ c.boolSyms, (Cond.subs (.atom x) old new).eval v = w.at' x) :
    (c.subs old new).eval v = c.eval w := by
  induction c using Cond.induct with
  | htt => rfl
  | hff => rfl
  | hatom x => exact hat x (by simp [Cond.boolSyms])
  | heq a b | hne a b | hle a b | hlt a b => simp only [Cond.subs, Cond.eval, hex]
  | heqB a b ih1 ih2 | hneB a b ih1 ih2 =>
    simp only [Cond.subs, Cond.eval]
    rw [ih1 (fun x hx => hat x (by simp [Cond.boolSyms, hx])), ih2 (fun x hx => hat x (by simp [Cond.boolSyms, hx]))]
  | hnot c ih => simp only [Cond.subs, Cond.eval]; rw [ih hat]
  | hand l ih =>
    simp only [Cond.subs, Cond.eval, Cond.subsL_eq_map]
    refine Cond.evalAll_congr _ _ _ _ ?_
    rw [List.map_map]
    exact List.map_congr_left fun c hc => ih c hc fun x hx => hat x ((Cond.mem_boolSymsL x l).2 ⟨c, hc, hx⟩)
  | hor l ih =>
    simp only [Cond.subs, Cond.eval, Cond.subsL_eq_map]
    refine Cond.evalAny_congr _ _ _ _ ?_
    rw [List.map_map]
    exact List.map_congr_left fun c hc => ih c hc fun x hx => hat x ((Cond.mem_boolSymsL x l).2 ⟨c, hc, hx⟩)

end Docc.Sym
