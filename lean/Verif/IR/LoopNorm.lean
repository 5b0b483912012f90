import Verif.IR.Replace
import Verif.Sym.Series
import Verif.Sym.Simplify
import Verif.IR.Sem

/-
LoopNormalization (sdfg/src/passes/structured_control_flow/loop_normalization.cpp).
-/
namespace Docc.IR
open Docc.Sym

/-- What the pass takes from SymEngine and the simplifier: polynomials, `symbolic::simplify` of a literal, and the term SymEngine
builds for a condition (canonical form of `And`/`Or`/`Lt`/`subs`). -/
structure LNE where
  P : PolyEngine
  simp : Cond → Cond
  norm : Cond → Cond

/-- the parts of a for loop the pass changes -/
structure LoopH where
  init : Expr
  cond : Cond
  upd : Expr
  body : Seq

/-- the for loop -/
def LoopH.node (i : String) (l : LoopH) : Node := .loop false i l.init l.cond l.upd l.body

/-- loop_normalization.cpp:31-37, 155-161: conjunction of the disjunctions of the literals. -/
def joinCnf (f : CNF) : Cond := .and (f.map .or)

/-- `int stride = add_coeff->as_int()` (loop_normalization.cpp:62): the conversion from `long` keeps the low 32 bits. -/
def toInt32 (n : Int) : Int := (n + 2 ^ 31) % 2 ^ 32 - 2 ^ 31

/-- loop_normalization.cpp:88-112: solve `a != b` for the loop variable, which only `b` uses, and compare by the direction of the
stride.  When the polynomial is not affine the empty map of coefficients yields null pointers, which are dereferenced (`ub`). -/
def lnSolve (L : LNE) (st : Int) (i : String) (lit : Cond) (a b : Expr) : Res Cond :=
  match L.P.poly b [i] with
  | none => .ok lit
  | some D => match affineCoefficients D [i] with
    | none => .ub
    | some c => (sdiv (ssub a (c.at' constName)) (L.P.norm (c.at' i))).bind fun e =>
      if st = 1 then .ok (.lt (.sym i) e)
      else if st = -1 then .ok (.lt e (.sym i))
      else .ok (.ne (.sym i) e)

/-- loop_normalization.cpp:72-87: an inequality; solved when exactly one side uses the loop variable. -/
def lnNe (L : LNE) (st : Int) (i : String) (l r : Expr) : Res Cond :=
  if i ∈ r.atoms then
    if i ∈ l.atoms then .ok (.ne l r) else lnSolve L st i (.ne l r) l r
  else
    if i ∈ l.atoms then lnSolve L st i (.ne l r) r l else .ok (.ne l r)

/-- loop_normalization.cpp:113-142: `i < max(init, b)` becomes `i < b`. -/
def lnLt (i : String) (init : Expr) (l r : Expr) : Cond :=
  match r with
  | .max [a, b] =>
    if l = .sym i then
      if a = init then .lt (.sym i) b
      else if b = init then .lt (.sym i) a
      else .lt l r
    else .lt l r
  | _ => .lt l r

/-- loop_normalization.cpp:71-145: one literal. -/
def lnLiteral (L : LNE) (st : Int) (i : String) (init : Expr) : Cond → Res Cond
  | .ne l r => lnNe L st i l r
  | .lt l r => .ok (lnLt i init l r)
  | c => .ok c

/-- all literals of a clause -/
def lnClause (L : LNE) (st : Int) (i : String) (init : Expr) : List Cond → Res (List Cond)
  | [] => .ok []
  | c :: r => (lnLiteral L st i init c).bind fun c' => (lnClause L st i init r).bind fun r' => .ok (c' :: r')

/-- loop_normalization.cpp:68-148: all clauses. -/
def lnCnf (L : LNE) (st : Int) (i : String) (init : Expr) : CNF → Res CNF
  | [] => .ok []
  | c :: r => (lnClause L st i init c).bind fun c' => (lnCnf L st i init r).bind fun r' => .ok (c' :: r')

mutual
/-- Containers used by elements other than memlets (users.cpp:80-409; everything after a direct `Return` is skipped). -/
def Node.otherUses : Node → List String
  | .block l => l.flatMap Stmt.accessed
  | .seq s => s.otherUses
  | .ifElse b => b.otherUses
  | .whileL s => s.otherUses
  | .loop _ i a c u s => i :: (a.atoms ++ c.atoms ++ u.atoms ++ s.otherUses)
  | .brk => []
  | .cont => []
  | .ret d q => if q then [] else [d]
/-- the same for a sequence -/
def Seq.otherUses : Seq → List String
  | .nil => []
  | .cons n t r => match n with
    | .ret d q => if q then [] else [d]
    | n => n.otherUses ++ t.map (·.1) ++ t.flatMap (fun a => a.2.atoms) ++ r.otherUses
/-- the same for cases -/
def Brs.otherUses : Brs → List String
  | .nil => []
  | .cons c s r => c.atoms ++ s.otherUses ++ r.otherUses
end

/-- loop_normalization.cpp:194-226, step 3: start from zero.  `none`: the loop already starts from zero or not from an integer. -/
def lnShift (L : LNE) (i : String) (f : CNF) (l : LoopH) : Option LoopH :=
  match l.init with
  | .int n =>
    if n = 0 then none
    else
      let act : Expr := .add [.sym i, .int n]
      let k : Cond := match f with
        | [[.lt (.sym x) r]] => if x = i ∧ i ∉ r.atoms then L.norm (.lt (.sym i) (ssub r (.int n))) else L.norm (l.cond.subs (.sym i) act)
        | _ => L.norm (l.cond.subs (.sym i) act)
      some ⟨.int 0, k, l.upd, l.body.replace i act⟩
  | _ => none

/-- loop_normalization.cpp:227-258, step 4: reverse a loop with stride −1 and the condition `lhs < i`. -/
def lnReverse (L : LNE) (st : Int) (i : String) (f : CNF) (l : LoopH) : Option LoopH :=
  if st ≠ -1 then none
  else match f with
    | [[.lt lhs (.sym x)]] =>
      if x = i then
        let ni : Expr := .add [lhs, .int 1]
        some ⟨ni, L.norm (.lt (.sym i) (.add [l.init, .int 1])), .add [.sym i, .int 1], l.body.replace i (ssub l.init (ssub (.sym i) ni))⟩
      else none
    | _ => none

/-- loop_normalization.cpp:176-261: the steps behind the normalisation of the condition. -/
def lnMove (L : LNE) (st : Int) (i : String) (l : LoopH) : Option LoopH :=
  if i ∈ l.body.otherUses then none
  else match cnf l.cond with
    | none => none
    | some f => if st > 0 then lnShift L i f l else lnReverse L st i f l

/-- loop_normalization.cpp:18-262 `accept`: the new loop and whether anything was applied.  `as_int` of an integer outside `long`
throws (modelled as `null`). -/
def loopNormalize (L : LNE) (A : Assums) (i : String) (l : LoopH) : Res (LoopH × Bool) :=
  match cnf l.cond with
  | none => .ok (l, false)
  | some f =>
    let c1 := L.norm (joinCnf (f.map (·.map L.simp)))
    let ap := !(c1.beq l.cond)
    let l1 : LoopH := { l with cond := c1 }
    match affineIntCoeffs L.P A l.upd i with
    | none => .ok (l1, ap)
    | some (m, k) =>
      if !fitsLong m then .null
      else if m ≠ 1 then .ok (l1, ap)
      else if !fitsLong k then .null
      else
        let st := toInt32 k
        if st = 0 then .ok (l1, ap)
        else (lnCnf L st i l.init f).bind fun f2 =>
          let c2 := L.norm (joinCnf f2)
          let l2 : LoopH := { l with cond := c2 }
          match lnMove L st i l2 with
          | some l3 => .ok (l3, true)
          | none => .ok (l2, ap || !(c2.beq c1))

end Docc.IR
