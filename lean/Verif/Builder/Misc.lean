import Verif.Util.Dec

/-
Debug ranges (sdfg/src/element.cpp) and fresh names (sdfg/src/builder/function_builder.cpp).
-/
namespace Docc.Builder

/-- element.h:25-34 `DebugInfo`. -/
structure DebugInfo where
  filename : String
  function : String
  startLine : Nat
  startColumn : Nat
  endLine : Nat
  endColumn : Nat
  has : Bool
  deriving Repr, DecidableEq

/-- element.cpp:38-79 `DebugInfo::merge`. -/
def DebugInfo.merge (l r : DebugInfo) : DebugInfo :=
  if !l.has then r
  else if !r.has then l
  else if l.filename ≠ r.filename then l
  else if l.function ≠ r.function ∧ l.function ≠ "" ∧ r.function ≠ "" then l
  else
    let start := if l.startLine < r.startLine then (l.startLine, l.startColumn) else (r.startLine, r.startColumn)
    let stop := if l.endLine > r.endLine then (l.endLine, l.endColumn) else (r.endLine, r.endColumn)
    ⟨l.filename, if l.function = "" then r.function else l.function, start.1, start.2, stop.1, stop.2, true⟩

/-- function_builder.cpp:201-209 `find_new_name`: the loop over the counter; `none`: out of fuel.  `names` are the
containers (function.cpp:65-67 `exists`).  Simplification: the counter is unbounded. -/
def findNewNameFrom (names : List Str) (pre : Str) : Nat → Nat → Option Str
  | 0, _ => none
  | f + 1, i => if pre ++ dec i ∈ names then findNewNameFrom names pre f (i + 1) else some (pre ++ dec i)

/-- `find_new_name` with enough fuel -/
def findNewName (names : List Str) (pre : Str) : Option Str := findNewNameFrom names pre (names.length + 1) 0

end Docc.Builder
