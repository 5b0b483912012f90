import Verif.IR.For2Map
import Verif.IR.Replace

/-
LoopDistribute (sdfg/src/transformations/loop_distribute.cpp).
-/
namespace Docc.IR
open Docc.Sym

/-- users.cpp:1023-1041 `Users::locals` of the first child of a loop body: transients all of whose uses are in the child. -/
def childLocal (C : MapCtx) (n : Node) (r : Seq) (x : String) : Bool :=
  C.transient x && decide (x ∈ n.users.map (·.2)) && !decide (x ∈ C.outside) && !decide (x ∈ r.users.map (·.2))

/-- loop_distribute.cpp:17-82 `can_be_applied` for a loop over `i` with update `upd` and the given body: at least two children, an empty
transition after the first, and every loop-carried dependency on a container the first child uses is a write-write dependency on a local
of the child.  Simplification: views and moves (pointer memlets) are not modelled, so the test that the child has none is left out. -/
def canDistribute (O : DepOracle) (C : MapCtx) (pos : List Nat) (i : String) (upd : Expr) : Seq → Bool
  | .cons n [] (.cons n2 t2 r2) =>
    (loopDeps O pos i upd (.cons n [] (.cons n2 t2 r2))).all fun d =>
      !decide (d.1 ∈ n.users.map (·.2)) || (decide (d.2 = .writeWrite) && childLocal C n (.cons n2 t2 r2) d.1)
  | _ => false

/-- loop_distribute.cpp:84-112 `apply`: a new Map with the same header and the first child as body, inserted before the loop; then the
loop variable is renamed to the new container `i'` in the whole Map. -/
def distribute (m : Bool) (i i' : String) (a : Expr) (k : Cond) (u : Expr) : Seq → Seq
  | .cons n _ r => .cons ((Node.loop true i a k u (.cons n [] .nil)).replace i (.sym i')) [] (.cons (.loop m i a k u r) [] .nil)
  | .nil => .cons (.loop m i a k u .nil) [] .nil

end Docc.IR
