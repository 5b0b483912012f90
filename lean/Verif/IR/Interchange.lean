import Verif.IR.AgreeS

/-
LoopInterchange (sdfg/src/transformations/loop_interchange.cpp).
-/
namespace Docc.IR
open Docc.Sym

/-- loop_interchange.cpp:21-51 `can_be_applied` for an outer loop (Map if `m`) over `i` with body `r`: the first child of `r` is a loop
whose header does not use `i`, it is the only child, with an empty transition, and one of the loops is a Map. -/
def canInterchange (m : Bool) (i : String) : Seq → Bool
  | .cons (.loop mj _ aj cj uj _) [] .nil =>
    !decide (i ∈ aj.atoms) && !decide (i ∈ cj.atoms) && !decide (i ∈ uj.atoms) && (m || mj)
  | _ => false

/-- loop_interchange.cpp:53-127 `apply`: the inner header outside, the outer header inside, with the old inner body. -/
def interchange (m : Bool) (i : String) (ai : Expr) (ci : Cond) (ui : Expr) : Seq → Node
  | .cons (.loop mj j aj cj uj s) _ _ => .loop mj j aj cj uj (.cons (.loop m i ai ci ui s) [] .nil)
  | r => .loop m i ai ci ui r

end Docc.IR
