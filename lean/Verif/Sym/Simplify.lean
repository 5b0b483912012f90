import Verif.Sym.Extreme
import Verif.Sym.Cond

/-
symbolic::simplify, div, mod, divide_ceil (sdfg/src/symbolic/symbolic.cpp).
-/
namespace Docc.Sym

/-- The SymEngine functions used: `norm` stands for the canonicalisation done by the factory functions
(`add`, `mul`, `max` return `norm` of the raw tree) and `simp` for `SymEngine::simplify` (`none`: it throws). -/
structure Engine where
  norm : Expr → Expr
  simp : Expr → Option Expr

/-- the engine that keeps raw trees -/
def Engine.raw : Engine := ⟨id, fun e => some e⟩

/-- `Integer::as_int`: throws (null) when the value does not fit in 64 bits. -/
def asInt (n : Int) : Res Int := if -2 ^ 63 ≤ n ∧ n < 2 ^ 63 then .ok n else .null

/-- host division `a / b` of `long`: undefined for `b = 0` and on overflow -/
def hostDiv (a b : Int) : Res Int :=
  if b = 0 then .ub else if a = -2 ^ 63 ∧ b = -1 then .ub else .ok (a.tdiv b)

/-- host remainder `a % b` of `long`: undefined for `b = 0` and on overflow -/
def hostMod (a b : Int) : Res Int :=
  if b = 0 then .ub else if a = -2 ^ 63 ∧ b = -1 then .ub else .ok (a.tmod b)

/-- symbolic.cpp:87-105 `div`. -/
def sdiv (l r : Expr) : Res Expr :=
  if r = .int 0 then .ok (.fn "idiv" [l, r])
  else if r = .int 1 then .ok l
  else if l = .int 0 then .ok (.int 0)
  else match l, r with
    | .int a, .int b => (asInt a).bind fun a => (asInt b).bind fun b => (hostDiv a b).bind fun c => .ok (.int c)
    | _, _ => .ok (.fn "idiv" [l, r])

/-- `a - b` (SymEngine sub) -/
def ssub (a b : Expr) : Expr := .add [a, .mul [.int (-1), b]]

/-- symbolic.cpp:115-117 `mod`. -/
def smod (l r : Expr) : Res Expr := (sdiv l r).bind fun q => .ok (ssub l (.mul [q, r]))

/-- symbolic.cpp:56-66 `divide_ceil`.  For a dividend without symbols the code returns the SymEngine term
`ceiling(dividend/divisor)`, computed exactly when both are integers; otherwise it stays the unevaluated function
`ceiling_quotient` (opaque here). -/
def divideCeil (n d : Expr) : Res Expr :=
  if n.atoms = [] then
    match n, d with
    | .int a, .int b => if b = 0 then .ok .nan else .ok (.int (-((-a).fdiv b)))
    | _, _ => .ok (.fn "ceiling_quotient" [n, d])
  else sdiv (.add [n, ssub d (.int 1)]) d

/-- is a `Max` -/
def Expr.maxArgs? : Expr → Option (List Expr)
  | .max l => some l
  | _ => none

/-- first `Max` argument of an `Add` and the other arguments (symbolic.cpp:194-210: the first occurrence equal to the
argument is skipped). -/
def splitMax (args : List Expr) : Option (List Expr × List Expr) :=
  match args with
  | [] => none
  | a :: r =>
    match a.maxArgs? with
    | some ms => some (ms, r)
    | none => match splitMax r with
      | some (ms, o) => some (ms, a :: o)
      | none => none

/-- product of the factors with the first one equal to `b` skipped (symbolic.cpp:235-245); `none` if there is none. -/
def removeFactor (b : Expr) : List Expr → Option (List Expr)
  | [] => none
  | a :: r => if a = b then some r else (removeFactor b r).map (a :: ·)

/-- symbolic.cpp:268-286: the simplified argument is visibly non-negative. -/
def visiblyNonneg : Expr → Bool
  | .int n => 0 ≤ n
  | .max l => l.any fun a => match a with | .int n => 0 ≤ n | _ => false
  | _ => false

/-- symbolic.cpp:282-288, the tail: `SymEngine::simplify`, or the argument if that throws. -/
def Engine.tail (E : Engine) (e : Expr) : Res Expr := .ok ((E.simp e).getD e)

/-- symbolic.cpp:171-294 `simplify` on arithmetic expressions.  null: an exception escapes (`as_int` on a wide integer);
ub: host division by zero or overflow.  The recursion on `rest + m` is bounded by fuel (out of fuel: ub, i.e. no claim).
`get_args()[0]` on a function without arguments is undefined. -/
def Engine.simplify (E : Engine) : Nat → Expr → Res Expr
  | 0, _ => .ub
  | fuel + 1, e =>
    match e with
    | .add args =>
      match splitMax args with
      | some (ms, others) =>
        (Res.mapM (fun m => E.simplify fuel (E.norm (.add [E.norm (.add others), m]))) ms).bind fun l =>
          .ok (E.norm (.max l))
      | none => E.tail e
    | .fn f args =>
      if f = "idiv" then
        match args with
        | l :: r :: _ =>
          if r = .int 0 then .ok e
          else match l, r with
            | .mul fs, .int b =>
              match removeFactor (.int b) fs with
              | some rest => .ok (rest.foldl (fun acc a => E.norm (.mul [acc, a])) (.int 1))
              | none => E.tail e
            | .int a, .int b => (asInt a).bind fun a => (asInt b).bind fun b => (hostDiv a b).bind fun c => .ok (.int c)
            | _, _ => E.tail e
        | _ => .ub
      else if f = "imod" then
        match args with
        | .int a :: .int b :: _ => (asInt a).bind fun a => (asInt b).bind fun b => (hostMod a b).bind fun c => .ok (.int c)
        | _ :: _ :: _ => E.tail e
        | _ => .ub
      else if f = "zext_i64" then
        match args with
        | a :: _ => (E.simplify fuel a).bind fun s =>
          if visiblyNonneg s then .ok s
          else if a ≠ s then .ok (.fn "zext_i64" [s])
          else E.tail e
        | _ => .ub
      else E.tail e
    | e => E.tail e

/-- symbolic.cpp:172-187 `simplify` of a strict or non-strict comparison: both sides are simplified.  Other conditions
go to `SymEngine::simplify`, not modelled. -/
def Engine.simplifyCmp (E : Engine) (fuel : Nat) : Cond → Res Cond
  | .lt a b => (E.simplify fuel a).bind fun a' => (E.simplify fuel b).bind fun b' => .ok (.lt a' b')
  | .le a b => (E.simplify fuel a).bind fun a' => (E.simplify fuel b).bind fun b' => .ok (.le a' b')
  | c => .ok c
end Docc.Sym
