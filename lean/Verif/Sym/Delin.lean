import Verif.Sym.Poly

/-
Delinearization of subscripts (sdfg/src/symbolic/utils.cpp:591-720).
-/
namespace Docc.Sym

/-- SymEngine (and `polynomial_div`, see `Sym/Poly`) as `delinearize` uses them: polynomials, the symbols of an expression in set
order, the iteration order of the `unordered_map` of coefficients, `is_true(Ge(a, b))`, `simplify(expand(e))`, and the division. -/
structure DEngine where
  P : PolyEngine
  syms : Expr → List String
  order : List (String × Expr) → List (String × Expr)
  ge : Expr → Expr → Bool
  simp : Expr → Expr
  pdiv : Expr → Expr → Res (Expr × Expr)

/-- A peeled dimension: the symbol, its stride, what remains of the subscript after it, and the quotient of the offset. -/
structure Peel where
  sym : String
  stride : Expr
  rem : Expr
  quot : Expr
  deriving Repr, DecidableEq

/-- utils.cpp:670 `final_dim` -/
def Peel.dim (p : Peel) : Expr := .add [.sym p.sym, p.quot]

/-- utils.cpp:626-634: the first symbol (in iteration order) whose coefficient has the most distinct symbols -/
def pickDim (cs : List (String × Expr)) : Option (String × Expr) :=
  cs.foldl (fun m c => match m with
    | none => some c
    | some b => if c.2.atoms.eraseDups.length > b.2.atoms.eraseDups.length then some c else some b) none

/-- utils.cpp:624-677, the peeling loop and the two tests behind it.  `none`: not delinearized.  A null maximum is dereferenced by
`Ge` (undefined behaviour); a null minimum leaves the loop.  `fuel` bounds the number of coefficients. -/
def peelDims (D : DEngine) (A : Assums) : Nat → List (String × Expr) → Expr → Expr → Res (Option (List Peel))
  | fuel, cs, rem, off =>
    match pickDim cs with
    | none => .ok (if D.P.norm off = .int 0 then some [] else none)
    | some (x, s) =>
      match fuel with
      | 0 => .ok none
      | fuel + 1 =>
        match symMinimum [] A (.sym x) with
        | .ub => .ub
        | .null => .ok none
        | .ok lx =>
          if !D.ge lx (.int 0) then .ok none
          else match symMinimum [] A s with
            | .ub => .ub
            | .null => .ok none
            | .ok ls =>
              if !D.ge ls (.int 1) then .ok none
              else
                let rem' := D.simp (ssub rem (.mul [s, .sym x]))
                match symMinimum [] A rem' with
                | .ub => .ub
                | .null => .ok none
                | .ok lr =>
                  if !D.ge lr (.int 0) then .ok none
                  else match symMaximum [] A s, symMaximum [] A rem' with
                    | .ok us, .ok ur =>
                      if !D.ge us ur then .ok none
                      else (D.pdiv off s).bind fun (q, r) =>
                        (peelDims D A fuel (cs.filter fun c => c.1 ≠ x) rem' r).bind fun o =>
                          .ok (o.map (⟨x, s, rem', q⟩ :: ·))
                    | _, _ => .ub

/-- utils.cpp:594-602: a symbol that is not constant, or is a loop variable.  `assums.at` throws when the symbol is missing. -/
def varying (A : Assums) (x : String) : Bool :=
  match A x with
  | some a => !a.constant || a.map.isSome
  | none => false

/-- utils.cpp:593-706, one subscript.  `ok none`: kept as it is; `null`: `assums.at` threw. -/
def delinPeel (D : DEngine) (A : Assums) (e : Expr) : Res (Option (List Peel)) :=
  if (D.syms e).any (fun x => (A x).isNone) then .null
  else
    let symbols := (D.syms e).filter (varying A)
    if symbols.isEmpty then .ok none
    else match D.P.poly e symbols with
      | none => .ok none
      | some p => match affineCoefficients p symbols with
        | none => .ok none
        | some aff =>
          let cs := D.order (symbols.map fun s => (s, aff.at' s))
          peelDims D A cs.length cs (ssub e (aff.at' constName)) (aff.at' constName)

/-- one subscript: its dimensions -/
def delinDim (D : DEngine) (A : Assums) (e : Expr) : Res (List Expr) :=
  (delinPeel D A e).bind fun o => .ok (match o with
    | none => [e]
    | some ps => ps.map Peel.dim)

/-- utils.cpp:591-707 `delinearize` -/
def delinearize (D : DEngine) (A : Assums) : List Expr → Res (List Expr)
  | [] => .ok []
  | e :: r => (delinDim D A e).bind fun a => (delinearize D A r).bind fun b => .ok (a ++ b)

end Docc.Sym
