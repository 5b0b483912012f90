import Verif.IR.LoopInfo
import Verif.IR.Sem

/-
LoopTiling (sdfg/src/transformations/loop_tiling.cpp).
-/
namespace Docc.IR
open Docc.Sym

/-- loop_tiling.cpp:18-25 `can_be_applied` for a loop with update `u`. -/
def canTile (P : PolyEngine) (A : Assums) (T : Nat) (i : String) (u : Expr) : Bool :=
  !decide (T ≤ 1) && isContiguous P A u i

/-- loop_tiling.cpp:71-83: the redefined inner loop (`io` is the new outer induction variable). -/
def tileInner (m : Bool) (io : String) (T : Nat) (i : String) (k : Cond) (s : Seq) : Node :=
  .loop m i (.sym io) (.and [.lt (.sym i) (.add [.sym io, .int T]), k]) (.add [.sym i, .int 1]) s

/-- loop_tiling.cpp:27-88 `apply`: the tiled loop nest; `io = find_new_name(i + "_tile")`.  The outer loop takes over the loop's
transition, so the transition behind the nest is unchanged. -/
def tile (io : String) (T : Nat) (m : Bool) (i : String) (a : Expr) (k : Cond) (s : Seq) : Node :=
  .loop m io a (k.subs (.sym i) (.sym io)) (.add [.sym io, .int T]) (.cons (tileInner m io T i k s) [] .nil)

end Docc.IR
