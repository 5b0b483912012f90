import Verif.IR.Replace
import Verif.Sym.Simplify

/-
LoopSkewing (sdfg/src/transformations/loop_skewing.cpp).
-/
namespace Docc.IR
open Docc.Sym

/-- loop_skewing.cpp:42-80 `can_be_applied` for skew factor `k` and an outer loop over `i` with body `r` whose first child is meant as
the inner loop: the factor is not zero, the inner loop is a Map, its bounds and update do not use `i`, and it is the only child, with an
empty transition. -/
def canSkew (k : Int) (i : String) (r : Seq) : Bool :=
  k != 0 && match r with
    | .cons (.loop true _ aj cj uj _) [] .nil => !decide (i ∈ aj.atoms) && !decide (i ∈ cj.atoms) && !decide (i ∈ uj.atoms)
    | _ => false

/-- loop_skewing.cpp:87-88: the offset `k * (i - init)`. -/
def skewOff (k : Int) (i : String) (ai : Expr) : Expr := .mul [.int k, ssub (.sym i) ai]

/-- loop_skewing.cpp:82-110 `apply`: initial value plus offset, condition and body with `j - offset` for `j`, the same update. -/
def skew (k : Int) (m : Bool) (i : String) (ai : Expr) (ci : Cond) (ui : Expr) : Seq → Node
  | .cons (.loop mj j aj cj uj s) t r =>
    let off := skewOff k i ai
    .loop m i ai ci ui (.cons (.loop mj j (.add [aj, off]) (cj.subs (.sym j) (ssub (.sym j) off)) uj (s.replace j (ssub (.sym j) off))) t r)
  | r => .loop m i ai ci ui r

end Docc.IR
