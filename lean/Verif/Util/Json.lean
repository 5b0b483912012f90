import Verif.Util.Dec
/-
`nlohmann::json` values.  An object is a finite map from keys; the model keeps it as an association
list written through `setKey` (later write of the same key wins) and read through `getKey`.  Text
serialisation (`<<`, `>>`) is trusted to be the identity on these values and is not modelled.
-/
namespace Docc

/-- A JSON value (numbers: integers only). -/
inductive Json where
  | null
  | bool (b : Bool)
  | num (n : Int)
  | str (s : Str)
  | arr (l : List Json)
  | obj (l : List (Str × Json))
  deriving Repr, Inhabited

namespace Json

/-- lookup in the association list of an object -/
def find : List (Str × Json) → Str → Option Json
  | [], _ => none
  | (k', v) :: r, k => if k' = k then some v else find r k

/-- `j.contains(k)` / `j.at(k)`. -/
def getKey : Json → Str → Option Json
  | .obj l, k => find l k
  | _, _ => none

/-- `j[k] = v`; on `null` nlohmann first turns the value into an empty object. -/
def setKey : Json → Str → Json → Json
  | .obj l, k, v => .obj ((k, v) :: l)
  | .null, k, v => .obj [(k, v)]
  | j, _, _ => j

/-- `j.push_back(v)`. -/
def pushBack : Json → Json → Json
  | .arr l, v => .arr (l ++ [v])
  | .null, v => .arr [v]
  | j, _ => j

/-- `get<int>()` -/
def asInt : Json → Option Int
  | .num n => some n
  | _ => none
/-- `get<size_t>()` (negative numbers are never stored by the writers modelled here) -/
def asNat : Json → Option Nat
  | .num (.ofNat n) => some n
  | _ => none
/-- `get<bool>()` -/
def asBool : Json → Option Bool
  | .bool b => some b
  | _ => none
/-- `get<std::string>()` -/
def asStr : Json → Option Str
  | .str s => some s
  | _ => none
/-- iterate an array -/
def asArr : Json → Option (List Json)
  | .arr l => some l
  | _ => none

end Json
end Docc
