import Verif.IR.Users
import Verif.Sym.Assumptions
import Verif.Sym.Series

/-
The assumptions analysis: which bounds and which constancy the analysis reports for the symbols at every element of a
structured SDFG (sdfg/src/analysis/assumptions_analysis.cpp).
-/
namespace Docc.IR
open Docc.Sym

/-! ### upper bound of a loop condition -/

/-- assumptions_analysis.cpp:26-48: the upper bound one literal contributes for `i`. -/
def literalUpper (i : String) : Cond → Option Expr
  | .lt (.sym x) e => if x = i ∧ e.uses i = false then some (ssub e (.int 1)) else none
  | .le (.sym x) e => if x = i ∧ e.uses i = false then some e else none
  | .eq (.sym x) e => if x = i ∧ e.uses i = false then some e else none
  | _ => none

/-- assumptions_analysis.cpp:21-50: the candidates, in the order of the clauses and their literals. -/
def upperCandidates (f : CNF) (i : String) : List Expr := f.flatMap fun cl => cl.filterMap (literalUpper i)

/-- assumptions_analysis.cpp:20-63 `cnf_to_upper_bound`; `none` is `SymEngine::null`. -/
def cnfToUpper (f : CNF) (i : String) : Option Expr :=
  match upperCandidates f i with
  | [] => none
  | c :: r => some (r.foldl (fun a b => .min [a, b]) c)

/-! ### memory accesses -/

/-- The memlets of one computation between a tasklet and an access node: container and subset. -/
def Stmt.accs : Stmt → List (String × List Expr)
  | .tasklet _ ins out sub => ins ++ [(out, sub)]
  | .lib _ _ _ => []

mutual
/-- all memlets of a node -/
def Node.accs : Node → List (String × List Expr)
  | .block l => l.flatMap Stmt.accs
  | .seq s => s.accs
  | .ifElse b => b.accs
  | .whileL s => s.accs
  | .loop _ _ _ _ _ s => s.accs
  | .brk => []
  | .cont => []
  | .ret _ _ => []
/-- all memlets of a sequence -/
def Seq.accs : Seq → List (String × List Expr)
  | .nil => []
  | .cons n _ r => n.accs ++ r.accs
/-- all memlets of the branches -/
def Brs.accs : Brs → List (String × List Expr)
  | .nil => []
  | .cons _ s r => s.accs ++ r.accs
end

/-- What the analysis looks up elsewhere.
`eng`: SymEngine; `accs`: the memlets of the whole SDFG (`users_analysis_->reads(indvar)` is not restricted to the loop,
line 188); `dims c`: the layers of the base type of the memlets of `c`, outermost first: `none` a pointer, `some n` an
array of `n` elements (simplification: one base type for each container); `isSym c`: `c` is a scalar of an integer type
(line 163-166); `isParam`: line 447-453. -/
structure Ctx where
  eng : PolyEngine
  accs : List (String × List Expr)
  dims : String → List (Option Expr)
  isSym : String → Bool
  isParam : String → Bool

/-- the number of elements `layer` offers for the upper bound, if any (assumptions_analysis.cpp:205-219) -/
def Ctx.extent (C : Ctx) (c : String) : Option Expr → Option Expr
  | some n => some n
  | none => if C.isParam c then some (.fn "dynamic_sizeof" [.sym c]) else none

/-- assumptions_analysis.cpp:191-222: the lower and upper bounds for `i` from one memlet: the subset is traversed from the
last dimension while the type is peeled from the outermost layer; stops when the layers run out. -/
def Ctx.boundsOf (C : Ctx) (i c : String) : List Expr → List (Option Expr) → List Expr × List Expr
  | e :: r, l :: ls =>
    let rest := C.boundsOf i c r ls
    if e.uses i = false then rest
    else match symInverse C.eng e i with
      | .ok inv => (inv.subs (.sym i) (.int 0) :: rest.1, match C.extent c l with
        | some n => ssub (inv.subs (.sym i) n) (.int 1) :: rest.2
        | none => rest.2)
      | _ => rest
  | _, _ => ([], [])

/-- the memlet is a `READ` user of `i` (users.cpp: its subset mentions `i`) -/
def mentions (i : String) (a : String × List Expr) : Bool := a.2.any fun e => e.uses i

/-- assumptions_analysis.cpp:186-224: lower bounds and upper bounds from inverse index accesses. -/
def Ctx.indexBounds (C : Ctx) (i : String) : List Expr × List Expr :=
  let l := (C.accs.filter (mentions i)).map fun a => C.boundsOf i a.1 a.2.reverse (C.dims a.1)
  (l.flatMap (·.1), l.flatMap (·.2))

/-! ### assumptions of a loop body -/

/-- `map[x]` (creating a default entry) followed by an update -/
def Sym.upd (A : Assums) (x : String) (f : Assum → Assum) : Assums :=
  fun y => if y = x then some (f ((A x).getD {})) else A y

/-- update several symbols one after another -/
def Sym.updAll (A : Assums) (xs : List String) (f : Assum → Assum) : Assums := xs.foldl (fun B x => Sym.upd B x f) A

/-- symbols that are read but not otherwise used in the body (assumptions_analysis.cpp:153-178) -/
def Ctx.readOnly (C : Ctx) (s : Seq) : List String :=
  ((s.users.filter fun u => u.1 == .read).map (·.2)).filter fun x => C.isSym x && !decide (writes s.users x)

/-- assumptions_analysis.cpp:146-230: constants, the map of the loop variable and the index bounds. -/
def Ctx.bodyBase (C : Ctx) (i : String) (cond : Cond) (upd : Expr) (s : Seq) : Assums :=
  let A := Sym.updAll (fun _ => none) cond.atoms fun a => { a with constant := true }
  let A := Sym.updAll A (C.readOnly s) fun a => { a with constant := true }
  let A := Sym.upd A i fun a => { a with map := some upd, constant := true }
  let A := Sym.upd A i fun a => (C.indexBounds i).1.foldl Assum.addLowerBound a
  Sym.upd A i fun a => (C.indexBounds i).2.foldl Assum.addUpperBound a

/-- assumptions_analysis.cpp:239-252: the bounds from the initial value. -/
def Ctx.bodyInit (C : Ctx) (i : String) (init : Expr) (A : Assums) : Assums :=
  let A := Sym.upd A i fun a => { a.addLowerBound init with tightLower := some init, lower := init }
  match init with
  | .sym y => if (C.indexBounds i).1 = [] then A
    else Sym.upd A y fun a => (C.indexBounds i).1.foldl Assum.addLowerBound a
  | _ => A

/-- assumptions_analysis.cpp:267-293: the bounds from the upper bound of the condition. -/
def Ctx.bodyUpper (C : Ctx) (AT : Assums) (i : String) (init upd ub : Expr) (A : Assums) : Assums :=
  let A := Sym.upd A i fun a => { a.addUpperBound ub with upper := ub }
  let A := if isContiguous C.eng AT upd i then Sym.upd A i fun a => { a with tightUpper := some ub } else A
  let A := match ub with
    | .sym y => if (C.indexBounds i).2 = [] then A
      else Sym.upd A y fun a => (C.indexBounds i).2.foldl Assum.addUpperBound a
    | _ => A
  Sym.updAll A ub.atoms fun a => { a.addLowerBound (.add [init, .int 1]) with lower := .add [init, .int 1] }

/-- assumptions_analysis.cpp:130-298 `traverse_structured_loop`: the assumptions of the loop body before they are merged
with the outer ones; `AT` are the outer assumptions including the trivial ones. -/
def Ctx.body (C : Ctx) (AT : Assums) (i : String) (init : Expr) (cond : Cond) (upd : Expr) (s : Seq) : Assums :=
  let A := C.bodyBase i cond upd s
  if !isMonotonic C.eng AT upd i then A
  else
    let A := C.bodyInit i init A
    match cnf cond with
    | none => A
    | some f => match cnfToUpper f i with
      | none => A
      | some ub => C.bodyUpper AT i init upd ub A

/-- assumptions_analysis.cpp:312-351: combine the entry of the outer scope (`o`) with the one of the inner scope. -/
def mergeAssum (o a : Assum) : Assum :=
  let b := o.lowers.foldl Assum.addLowerBound (o.uppers.foldl Assum.addUpperBound a)
  { b with
    upper := .min [o.upper, a.upper]
    lower := .max [o.lower, a.lower]
    tightUpper := match a.tightUpper with | none => o.tightUpper | some t => some t
    tightLower := match a.tightLower with | none => o.tightLower | some t => some t
    map := match a.map with | none => o.map | some t => some t
    constant := if a.constant then true else o.constant }

/-- assumptions_analysis.cpp:300-394 `propagate`, for one of the two maps. -/
def propagate (inner outer : Assums) : Assums := fun x =>
  match outer x, inner x with
  | none, a => a
  | some o, none => some o
  | some o, some a => some (mergeAssum o a)

/-- assumptions_analysis.cpp:76-99 `run`: the assumptions at the root: those added by the user (`add`), and the same with
the assumptions of the SDFG (bounds of the types), of which only the bound sets are added to an existing entry. -/
def rootAssums (add sdfg : Assums) : Assums × Assums :=
  (add, fun x => match sdfg x, add x with
    | none, a => a
    | some e, none => some e
    | some e, some a => some (e.uppers.foldl Assum.addUpperBound (e.lowers.foldl Assum.addLowerBound a)))

/-! ### traversal -/

mutual
/-- assumptions_analysis.cpp:101-128 `traverse` and 430-437 `get`: the pair of maps (without and with trivial bounds)
reported for the element at a path.  The empty path is the element itself, `0` selects the body of a loop, `k` the k-th
child of a sequence or the k-th branch of an if-else. -/
def Node.assums (C : Ctx) (A : Assums × Assums) : Node → List Nat → Option (Assums × Assums)
  | .seq s, p => s.assums C A p
  | .ifElse b, p => b.assums C A p
  | _, [] => some A
  | .whileL s, 0 :: p => s.assums C A p
  | .loop _ i init cond upd s, 0 :: p =>
    s.assums C (propagate (C.body A.2 i init cond upd s) A.1, propagate (C.body A.2 i init cond upd s) A.2) p
  | _, _ => none
/-- the elements of a sequence -/
def Seq.assums (C : Ctx) (A : Assums × Assums) : Seq → List Nat → Option (Assums × Assums)
  | _, [] => some A
  | .nil, _ :: _ => none
  | .cons n _ _, 0 :: p => n.assums C A p
  | .cons _ _ r, (k + 1) :: p => r.assums C A (k :: p)
/-- the elements of the branches -/
def Brs.assums (C : Ctx) (A : Assums × Assums) : Brs → List Nat → Option (Assums × Assums)
  | _, [] => some A
  | .nil, _ :: _ => none
  | .cons _ s _, 0 :: p => s.assums C A p
  | .cons _ _ r, (k + 1) :: p => r.assums C A (k :: p)
end

/-! ### parameters -/

/-- assumptions_analysis.cpp:405-420: type of an argument as far as `determine_parameters` looks at it -/
inductive ArgKind where
  | scalar
  | pointer
  | other
  deriving Repr, DecidableEq

/-- assumptions_analysis.cpp:402-428 `determine_parameters` for scalar arguments: those without a `WRITE` user.  (Pointers
must not be moved; `MOVE` users belong to pointer memlets, which the model does not have, so every pointer argument
qualifies.) -/
def parameters (args : List (String × ArgKind)) (s : Seq) : List String :=
  (args.filter fun a => match a.2 with
    | .scalar => !decide (writes s.users a.1)
    | .pointer => true
    | .other => false).map (·.1)

end Docc.IR
