import Verif.IR.Sem
import Verif.Sym.Series
import Verif.Sym.CondOps

/-
LoopAnalysis: canonical bound and stride (sdfg/src/analysis/loop_analysis.cpp:257-343).
-/
namespace Docc.IR
open Docc.Sym

/-- loop_analysis.cpp:284-315: the bound contributed by one literal; `none`: not of the form `indvar < e` or `indvar <= e`. -/
def literalBound (i : String) : Cond → Option Expr
  | .lt (.sym x) e => if x = i then some e else none
  | .le (.sym x) e => if x = i then some (.add [e, .int 1]) else none
  | _ => none

/-- loop_analysis.cpp:281-317: the minimum over all literals; the outer `none` is `SymEngine::null` returned from the loop,
the inner `none` the initial null bound. -/
def foldBound (i : String) : List Cond → Option Expr → Option (Option Expr)
  | [], acc => some acc
  | l :: r, acc => match literalBound i l with
    | none => none
    | some e => foldBound i r (match acc with | none => some e | some b => some (.min [b, e]))

/-- loop_analysis.cpp:257-318 `canonical_bound`; `mono` is the result of `is_monotonic`. -/
def canonicalBound (mono : Bool) (i : String) (c : Cond) : Option Expr :=
  if !mono then none
  else match cnf c with
    | none => none
    | some f =>
      if f.any (fun cl => decide (cl.length > 1)) then none
      else match foldBound i f.flatten none with
        | some b => b
        | none => none

/-- loop_analysis.cpp:320-343 `stride`; `none` is `SymEngine::null`. -/
def loopStride (i : String) : Expr → Option Int
  | .add [.sym x, .int n] => if x = i then some n else none
  | .add [.int n, .sym x] => if x = i then some n else none
  | _ => none

end Docc.IR
