import Verif.IR.WhileToFor
import Verif.IR.LoopInfo
import Verif.Sym.Poly

/-
SymbolEvolution (sdfg/src/passes/symbolic/symbol_evolution.cpp): replaces a symbol that a loop updates once per iteration by a
closed form in the loop variable.
-/
namespace Docc.IR
open Docc.Sym

/-- What the pass takes from SymEngine and the standard library: polynomials, `symbolic::eq` (equality of canonical forms), and
where `unordered_map::insert` places an entry. -/
structure EvoEngine where
  P : PolyEngine
  eq : Expr → Expr → Bool
  insert : Trans → String × Expr → Trans

/-- Contracts: polynomials in one generator have the value of the expression and coefficients free of the generator; equal
canonical forms have equal values; insertion adds one entry. -/
structure EvoEngine.Sound (G : EvoEngine) : Prop where
  poly : ∀ (ρ : Val) e gens D n, G.P.poly e gens = some D → e.eval ρ = .fin n → polyVal ρ gens D = some n
  len : ∀ e gens D, G.P.poly e gens = some D → ∀ t ∈ D, t.1.length = gens.length
  free : ∀ e x D, G.P.poly e [x] = some D → ∀ t ∈ D, ∀ y ∈ t.2.atoms, y ∈ e.atoms ∧ y ≠ x
  eq : ∀ a b, G.eq a b = true → ∀ ρ n m, a.eval ρ = .fin n → b.eval ρ = .fin m → n = m
  insert : ∀ t a, (G.insert t a).Perm (a :: t)

/-- symbol_evolution.cpp:30-109 `scalar_evolution` for the loop `for (i = init; ..; i = iu)`, the symbol `x` with update `xu` and
initial value `xi`.  `null` is `SymEngine::null`.  `ub`: `affine_coefficients` dereferences the null polynomial that
`symbolic::polynomial` returns for an update that is not a polynomial in `x` (polynomials.cpp:16-28).  Simplification: the stride
fits in 64 bits (`as_int` does not throw). -/
def scalarEvolution (G : EvoEngine) (i : String) (iu init : Expr) (x : String) (xu xi : Expr) (moving : String → Bool) : Res Expr :=
  if xu.atoms.any (fun y => y != x && moving y) then .null
  else if !xu.uses x && G.eq xu xi then .ok xu
  else if G.eq xu iu && G.eq xi init then .ok (.sym i)
  else match loopStride i iu with
    | none => .null
    | some st =>
      if xu.uses i && !xu.uses x then
        if st ≤ 0 then .null
        else if !G.eq (xu.subs (.sym i) (ssub init (.int st))) xi then .null
        else .ok (xu.subs (.sym i) (ssub (.sym i) (.int st)))
      else match G.P.poly xu [x] with
        | none => .ub
        | some D => match affineCoefficients D [x] with
          | none => .null
          | some A =>
            if !G.eq (A.at' x) (.int 1) then .null
            else (sdiv (ssub (.sym i) init) (.int st)).bind fun it => .ok (.add [.mul [it, A.at' constName], xi])

/-- What the pass knows about the whole function: which containers are integer scalars, the number of write users of a container,
and the right-hand side of the write outside the loop when that write is a transition that dominates the update
(symbol_evolution.cpp:178-195; `Users` and `DominanceAnalysis` of the whole function are not modelled here). -/
structure EvoCtx where
  int : String → Bool
  total : String → Nat
  initRhs : String → Option Expr

/-- A structured loop together with the transition behind it. -/
structure EvoLoop where
  isMap : Bool
  i : String
  init : Expr
  cond : Cond
  upd : Expr
  body : Seq
  after : Trans

/-- the loop node -/
def EvoLoop.node (L : EvoLoop) : Node := .loop L.isMap L.i L.init L.cond L.upd L.body

/-- Split at the first child whose transition assigns `x`; users behind a `Return` child do not exist (users.cpp:190-241). -/
def Seq.splitWrite (x : String) : Seq → Option (Seq × Node × Trans × Seq)
  | .nil => none
  | .cons n t r =>
    if n.isRet then none
    else if t.any (fun a => a.1 == x) then some (.nil, n, t, r)
    else match r.splitWrite x with
      | none => none
      | some (s1, m, tm, s2) => some (.cons n t s1, m, tm, s2)

/-- The parts of an accepted symbol: update, closed form, and the body around the transition that holds the update. -/
structure EvoMatch where
  xu : Expr
  evo : Expr
  s1 : Seq
  n : Node
  t : Trans
  s2 : Seq

/-- symbol_evolution.cpp:111-204: the criteria for one candidate `x`, in the order of the pass. -/
def evoMatch (G : EvoEngine) (C : EvoCtx) (L : EvoLoop) (x : String) : Res EvoMatch :=
  if L.body.size = 0 then .null
  else if !(C.int x && decide (writes L.body.users x)) then .null
  else if L.after.any (fun a => a.1 == x) then .null
  else if numWrites L.body.users x ≠ 1 then .null
  else if ¬ reads L.body.users x then .null
  else match L.body.splitWrite x with
    | none => .null
    | some (s1, n, t, s2) => match t.find? (fun a => a.1 == x) with
      | none => .null
      | some a =>
        if reads s2.users x then .null
        else if C.total x ≠ 2 then .null
        else match C.initRhs x with
          | none => .null
          | some xi =>
            (scalarEvolution G L.i L.upd L.init x a.2 xi fun y => C.int y && decide (writes L.body.users y)).bind fun evo =>
              .ok ⟨a.2, evo, s1, n, t, s2⟩

/-- symbol_evolution.cpp:206-213: a block with the transition `x := closed form` becomes the first child of the body, the update is
erased, and the transition behind the loop assigns the update expression. -/
def evoApply (G : EvoEngine) (L : EvoLoop) (x : String) (M : EvoMatch) : EvoLoop :=
  { L with
    body := .cons (.block []) [(x, M.evo)] (M.s1 ++ .cons M.n (M.t.filter fun a => a.1 != x) M.s2)
    after := G.insert L.after (x, M.xu) }

end Docc.IR
