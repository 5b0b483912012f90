import Verif.Types.Ty
import Verif.Sym.CondOps
import Verif.Builder.Containers
import Verif.Builder.Misc
import Verif.Opt.Schedule

/-
JSON values of the serializer and the text codec of symbolic expressions.

`nlohmann::json` objects are finite maps; the model keeps them as association lists that are only read by key (first entry wins),
so `merge_patch`, which overrides keys, is a prefix.  The text of the whole document (`dump` / `parse` of nlohmann) is trusted
to be lossless and is not modelled.  Reading a missing key or a value of another kind (an exception of `at`/`get`, undefined
behaviour of `operator[]` on a const object) is `none`.
-/
namespace Docc.Ser
open Docc.Sym

/-- a JSON value (all numbers the serializer writes are integers) -/
inductive J where
  | null
  | bool (b : Bool)
  | num (n : Int)
  | str (s : String)
  | arr (l : List J)
  | obj (l : List (String × J))
  deriving Repr, Inhabited

namespace J

/-- `j.contains(k)` / `j[k]` on the entries of an object -/
def find : List (String × J) → String → Option J
  | [], _ => none
  | (k', v) :: r, k => if k' = k then some v else find r k

/-- `j[k]`, `j.at(k)` -/
def get : J → String → Option J
  | .obj l, k => find l k
  | _, _ => none

/-- `j.contains(k)` -/
def has (j : J) (k : String) : Bool := (j.get k).isSome

/-- `get<std::string>()` -/
def asS : J → Option String
  | .str s => some s
  | _ => none
/-- `get<size_t>()` -/
def asN : J → Option Nat
  | .num (.ofNat n) => some n
  | _ => none
/-- `get<int>()`, `get<int64_t>()` -/
def asI : J → Option Int
  | .num n => some n
  | _ => none
/-- `get<bool>()` -/
def asB : J → Option Bool
  | .bool b => some b
  | _ => none
/-- iteration over an array -/
def asA : J → Option (List J)
  | .arr l => some l
  | _ => none
/-- `items()` of an object -/
def asO : J → Option (List (String × J))
  | .obj l => some l
  | _ => none

/-- `j[k].get<std::string>()` and the like -/
def getS (j : J) (k : String) : Option String := (j.get k).bind asS
@[inherit_doc getS] def getN (j : J) (k : String) : Option Nat := (j.get k).bind asN
@[inherit_doc getS] def getI (j : J) (k : String) : Option Int := (j.get k).bind asI
@[inherit_doc getS] def getB (j : J) (k : String) : Option Bool := (j.get k).bind asB
@[inherit_doc getS] def getA (j : J) (k : String) : Option (List J) := (j.get k).bind asA

/-- a loop over an array that reads every entry; an exception in one entry ends it -/
def mapO {α β : Type} (f : β → Option α) : List β → Option (List α)
  | [] => some []
  | x :: r => match f x with
    | none => none
    | some a => match mapO f r with
      | none => none
      | some l => some (a :: l)

/-- `get<std::vector<std::string>>()` -/
def getSs (j : J) (k : String) : Option (List String) := (j.getA k).bind (mapO asS)
/-- `get<std::vector<int64_t>>()` -/
def getIs (j : J) (k : String) : Option (List Int) := (j.getA k).bind (mapO asI)

/-- `merge_patch` of two flat objects: the keys of the patch win (no serializer writes null). -/
def patch : J → J → J
  | .obj a, .obj b => .obj (b ++ a)
  | a, _ => a

mutual
/-- size of a value (fuel of the recursive readers) -/
def size : J → Nat
  | .arr l => 1 + sizeL l
  | .obj l => 1 + sizeF l
  | _ => 1
/-- size of the entries of an array -/
def sizeL : List J → Nat
  | [] => 0
  | j :: r => size j + sizeL r
/-- size of the entries of an object -/
def sizeF : List (String × J) → Nat
  | [] => 0
  | (_, v) :: r => size v + sizeF r
end

theorem mapO_map {α β : Type} (f : β → Option α) (g : α → β) (l : List α) (h : ∀ a ∈ l, f (g a) = some a) :
    mapO f (l.map g) = some l := by
  induction l with
  | nil => rfl
  | cons a r ih =>
    simp only [List.map_cons, mapO]
    rw [h a (by simp), ih (fun b hb => h b (List.mem_cons_of_mem _ hb))]

theorem size_le_sizeL {j : J} {l : List J} (h : j ∈ l) : j.size ≤ sizeL l := by
  induction l with
  | nil => cases h
  | cons a r ih =>
    simp only [sizeL]
    rcases List.mem_cons.1 h with rfl | h
    · omega
    · have := ih h; omega

theorem size_find {l : List (String × J)} {k : String} {v : J} (h : find l k = some v) : v.size ≤ sizeF l := by
  induction l with
  | nil => simp [find] at h
  | cons p r ih =>
    obtain ⟨a, w⟩ := p
    simp only [find] at h
    simp only [sizeF]
    split at h
    · simp only [Option.some.injEq] at h; subst h; omega
    · have := ih h; omega

end J

/-- The text codec of expressions: `JSONSerializer::expression` (json_serializer.cpp:1225-1228, the `JSONSymbolicPrinter` on top of
SymEngine's `StrPrinter`) and `SymEngine::parse` (which throws on bad input; the condition reader adds the cast to `Boolean` of
json_serializer.cpp:808-812, 844-848, 936-940). -/
structure Codec where
  printE : Expr → String
  engE : String → Option Expr
  printC : Cond → String
  engC : String → Option Cond

/-- symbolic.cpp:338-343 `symbolic::parse`: the symbols `true` and `false` become 1 and 0. -/
def Codec.parseE (cd : Codec) (s : String) : Option Expr :=
  (cd.engE s).map fun e => (e.subs (.sym "true") (.int 1)).subs (.sym "false") (.int 0)

/-- `symbolic::parse` of a condition -/
def Codec.parseC (cd : Codec) (s : String) : Option Cond :=
  (cd.engC s).map fun c => (c.subs (.sym "true") (.int 1)).subs (.sym "false") (.int 0)

/-- Specification: SymEngine reads the printed text of this expression back, and it does not contain the symbols `true` or
`false`. -/
def Codec.OkE (cd : Codec) (e : Expr) : Prop :=
  cd.engE (cd.printE e) = some e ∧ "true" ∉ e.atoms ∧ "false" ∉ e.atoms

/-- Specification: the same for a condition. -/
def Codec.OkC (cd : Codec) (c : Cond) : Prop :=
  cd.engC (cd.printC c) = some c ∧ "true" ∉ c.atoms ∧ "false" ∉ c.atoms

/-- write an expression -/
def Codec.eJ (cd : Codec) (e : Expr) : J := .str (cd.printE e)
/-- write a condition -/
def Codec.cJ (cd : Codec) (c : Cond) : J := .str (cd.printC c)
/-- write a list of expressions -/
def Codec.esJ (cd : Codec) (l : List Expr) : J := .arr (l.map cd.eJ)
/-- read an expression -/
def Codec.rdE (cd : Codec) (j : J) : Option Expr := j.asS.bind cd.parseE
/-- read the expression stored under a key -/
def Codec.getE (cd : Codec) (j : J) (k : String) : Option Expr := (j.get k).bind cd.rdE
/-- read the condition stored under a key -/
def Codec.getC (cd : Codec) (j : J) (k : String) : Option Cond := (j.get k).bind fun v => v.asS.bind cd.parseC
/-- read the list of expressions stored under a key -/
def Codec.getEs (cd : Codec) (j : J) (k : String) : Option (List Expr) := (j.getA k).bind (J.mapO cd.rdE)

theorem subs_absent (e : Expr) (x : String) (r : Expr) (h : x ∉ e.atoms) : e.subs (.sym x) r = e := by
  have hl : ∀ l : List Expr, (∀ e ∈ l, x ∉ e.atoms → e.subs (.sym x) r = e) → x ∉ Expr.atomsL l →
      Expr.subsL l (.sym x) r = l := by
    intro l ih hx
    rw [Expr.subsL_eq_map]
    conv => rhs; rw [← List.map_id l]
    refine List.map_congr_left fun a ha => ih a ha fun hm => hx ?_
    exact (Expr.mem_atomsL x l).2 ⟨a, ha, hm⟩
  induction e using Expr.induct <;> simp_all [Expr.subs, Expr.atoms]
  intro e
  exact absurd e.symm h

theorem subsC_absent (c : Cond) (x : String) (r : Expr) (h : x ∉ c.atoms) : c.subs (.sym x) r = c := by
  have hl : ∀ l : List Cond, (∀ e ∈ l, x ∉ e.atoms → e.subs (.sym x) r = e) → x ∉ Cond.atomsL l →
      Cond.subsL l (.sym x) r = l := by
    intro l ih hx
    induction l with
    | nil => rfl
    | cons a s ihs =>
      simp only [Cond.atomsL, List.mem_append, not_or] at hx
      simp only [Cond.subsL]
      rw [ih a (by simp) hx.1, ihs (fun e he => ih e (List.mem_cons_of_mem _ he)) hx.2]
  induction c using Cond.induct <;> simp_all [Cond.subs, Cond.atoms, subs_absent]

theorem Codec.parseE_ok {cd : Codec} {e : Expr} (h : cd.OkE e) : cd.parseE (cd.printE e) = some e := by
  simp [Codec.parseE, h.1, subs_absent e _ _ h.2.1, subs_absent e _ _ h.2.2]

theorem Codec.parseC_ok {cd : Codec} {c : Cond} (h : cd.OkC c) : cd.parseC (cd.printC c) = some c := by
  simp [Codec.parseC, h.1, subsC_absent c _ _ h.2.1, subsC_absent c _ _ h.2.2]

@[simp] theorem Codec.rdE_eJ {cd : Codec} {e : Expr} (h : cd.OkE e) : cd.rdE (cd.eJ e) = some e := by
  simp [Codec.rdE, Codec.eJ, J.asS, Codec.parseE_ok h]

theorem Codec.rdEs {cd : Codec} {l : List Expr} (h : ∀ e ∈ l, cd.OkE e) : J.mapO cd.rdE (l.map cd.eJ) = some l :=
  J.mapO_map _ _ _ fun e he => Codec.rdE_eJ (h e he)

end Docc.Ser
