import Verif.IR.Replace
import Verif.IR.Users
import Verif.IR.Jump

/-
WhileToForConversion (sdfg/src/passes/structured_control_flow/while_to_for_conversion.cpp).
-/
namespace Docc.IR
open Docc.Sym

/-- all but the last child, and the last child with its transition -/
def Seq.splitLast : Seq → Option (Seq × Node × Trans)
  | .nil => none
  | .cons n t .nil => some (.nil, n, t)
  | .cons n t r => match r.splitLast with
    | none => none
    | some (i, l, tl) => some (.cons n t i, l, tl)

/-- split at the first child whose transition assigns `i` -/
def Seq.splitUpd (i : String) : Seq → Option (Seq × Node × Trans × Seq)
  | .nil => none
  | .cons n t r =>
    if t.any (fun a => a.1 == i) then some (.nil, n, t, r)
    else match r.splitUpd i with
      | none => none
      | some (s1, m, tm, s2) => some (.cons n t s1, m, tm, s2)

/-- The pass's engine: does SymEngine reduce `Not(c1) == c2` to true; and where `unordered_map` insertion places an entry. -/
structure W2F where
  isNeg : Cond → Cond → Bool
  insert : Trans → String × Expr → Trans

/-- contracts -/
def W2F.Sound (W : W2F) : Prop :=
  (∀ c1 c2, W.isNeg c1 c2 = true → ∀ v, c2.eval v = !c1.eval v) ∧ ∀ t a, (W.insert t a).Perm (a :: t)

/-- while_to_for_conversion.cpp:31-64: the closing if-else; gives (first condition, continue condition): one case is exactly
`break`, the other exactly `continue`.  Note: transitions inside the branches are ignored by the pass. -/
def exitTest : Node → Option (Cond × Cond × Cond)
  | .ifElse (.cons c1 (.cons .brk _ .nil) (.cons c2 (.cons .cont _ .nil) .nil)) => some (c1, c2, c2)
  | .ifElse (.cons c1 (.cons .cont _ .nil) (.cons c2 (.cons .brk _ .nil) .nil)) => some (c1, c2, c1)
  | _ => none

mutual
/-- while_to_for_conversion.cpp:124-149: no break, continue or return; nested loops are not searched -/
def Node.noExit : Node → Bool
  | .block _ => true
  | .seq s => s.noExit
  | .ifElse b => b.noExit
  | .whileL _ => true
  | .loop _ _ _ _ _ _ => true
  | .brk => false
  | .cont => false
  | .ret _ _ => false
/-- of a sequence -/
def Seq.noExit : Seq → Bool
  | .nil => true
  | .cons n _ r => n.noExit && r.noExit
/-- of the cases -/
def Brs.noExit : Brs → Bool
  | .nil => true
  | .cons _ s r => s.noExit && r.noExit
end

/-- number of write users -/
def numWrites (u : List User) (x : String) : Nat := u.count (Use.write, x)

/-- while_to_for_conversion.cpp:71-101: exactly one symbol of the condition is written in the body, exactly once.
(`c.atoms` may list a symbol twice: the set of symbols is considered.) -/
def movingSym (c : Cond) (u : List User) : Option String :=
  match (c.atoms.eraseDups).filter (fun x => numWrites u x != 0) with
  | [x] => if numWrites u x = 1 then some x else none
  | _ => none

/-- The parts of an accepted while loop. -/
structure W2FMatch where
  i : String
  u : Expr
  k : Cond
  s1 : Seq
  n : Node
  t : Trans
  s2 : Seq

/-- while_to_for_conversion.cpp:9-152 `can_be_applied`.  Simplifications: types are not modelled (all symbols are scalars); the
single write must be in a transition of the body itself (the pass also accepts one in a nested sequence, which is not
modelled); the uses after the update are those in the children behind it. -/
def W2F.matches (W : W2F) (s : Seq) : Option W2FMatch :=
  if s.size < 2 then none
  else match s.splitLast with
    | none => none
    | some (b, l, tl) =>
      if !tl.isEmpty then none
      else match exitTest l with
        | none => none
        | some (c1, c2, k) =>
          if !W.isNeg c1 c2 then none
          else match movingSym c1 s.users with
            | none => none
            | some i => match b.splitUpd i with
              | none => none
              | some (s1, n, t, s2) =>
                match t.find? (fun a => a.1 == i) with
                | none => none
                | some a =>
                  if a.2.atoms.any (fun x => decide (writes s2.users x)) then none
                  else if !b.noExit then none
                  else some ⟨i, a.2, k, s1, n, t, s2⟩

/-- while_to_for_conversion.cpp:191-206: the update's entry is erased and assigned to the new symbol `p`, uses behind it are
renamed, the while becomes a for whose init is the symbol itself, the closing if-else is removed. -/
def W2F.apply (W : W2F) (p : String) (M : W2FMatch) : Node :=
  .loop false M.i (.sym M.i) M.k M.u
    (M.s1 ++ .cons M.n (W.insert (M.t.filter fun a => a.1 != M.i) (p, M.u)) (M.s2.replace M.i (.sym p)))

end Docc.IR
