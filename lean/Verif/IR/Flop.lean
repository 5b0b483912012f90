import Verif.IR.AssumAn
import Verif.IR.LoopInfo
import Verif.Sym.Simplify

/-
The FLOP analysis: a symbolic expression for the number of floating point operations of every element of a structured SDFG and a
flag telling whether the number is exact (sdfg/src/analysis/flop_analysis.cpp).
-/
namespace Docc.Sym

mutual
/-- symbolic.cpp `has_dynamic_sizeof` -/
def Expr.dynSize : Expr → Bool
  | .fn f l => f == "dynamic_sizeof" || Expr.dynSizeL l
  | .add l => Expr.dynSizeL l
  | .mul l => Expr.dynSizeL l
  | .min l => Expr.dynSizeL l
  | .max l => Expr.dynSizeL l
  | .pow a b => a.dynSize || b.dynSize
  | _ => false
/-- the same for a list -/
def Expr.dynSizeL : List Expr → Bool
  | [] => false
  | e :: r => e.dynSize || Expr.dynSizeL r
end

end Docc.Sym

namespace Docc.IR
open Docc.Sym

/-- data_flow/tasklet.h:303-332 `is_floating_point`. -/
def fpOps : List String :=
  ["fp_neg", "fp_add", "fp_sub", "fp_mul", "fp_div", "fp_rem", "fp_fma", "fp_oeq", "fp_one", "fp_oge", "fp_ogt", "fp_ole", "fp_olt",
    "fp_ord", "fp_ueq", "fp_une", "fp_ugt", "fp_uge", "fp_ult", "fp_ule", "fp_uno"]

/-- flop_analysis.cpp:196-200: the operations counted for a tasklet code. -/
def fpFlops (op : String) : Int := if op = "fp_fma" then 2 else if op ∈ fpOps then 1 else 0

/-- What the analysis looks up elsewhere: `ctx` for the assumptions, `kind` the type of a container, `lib` the `flop()` of the library
nodes (`none` is `SymEngine::null`; the code string stands for the node). -/
structure FlopEnv where
  ctx : Ctx
  kind : String → ArgKind
  lib : String → Option Expr

/-- What one visit contributes: the expression (`none` is null), whether `precise_` stayed true, and whether the assertion of line 332
failed. -/
structure FlopR where
  e : Option Expr
  precise : Bool
  abort : Bool

/-- the null result -/
def FlopR.null (ab : Bool) : FlopR := ⟨none, false, ab⟩

/-- `symbolic::add` of counts.  SymEngine canonicalises; here only integers and zeros are folded, which keeps the value. -/
def cadd : Expr → Expr → Expr
  | .int a, .int b => .int (a + b)
  | a, b => if a = .int 0 then b else if b = .int 0 then a else .add [a, b]

/-- `symbolic::mul` of counts (zero times anything is zero in SymEngine). -/
def cmul (a b : Expr) : Expr := if b = .int 0 then .int 0 else .mul [a, b]

/-- `symbolic::div`; its exception for integers beyond 64 bits is not modelled. -/
def cdiv (l r : Expr) : Expr := match sdiv l r with
  | .ok e => e
  | _ => .fn "idiv" [l, r]

/-- flop_analysis.cpp:105-142 `get_scope_parameters`: the containers used but not written (scalars) or not moved (pointers and arrays; the
model has no `MOVE` users) in a scope with users `u`. -/
def FlopEnv.param (F : FlopEnv) (u : List User) (x : String) : Bool :=
  match F.kind x with
  | .scalar => u.any (fun a => a.2 == x) && !decide (writes u x)
  | .pointer => u.any (fun a => a.2 == x)
  | .other => false

/-- flop_analysis.cpp:34-44 `is_parameter_expression`. -/
def FlopEnv.paramExpr (F : FlopEnv) (u : List User) (e : Expr) : Bool := e.atoms.all (F.param u)

/-- flop_analysis.cpp:46-67 `choose_bounds`. -/
def FlopEnv.choose (F : FlopEnv) (u : List User) (l : List Expr) : List Expr :=
  let r := l.filter fun b => match b with
    | .inf _ => false
    | .int _ => true
    | e => !e.dynSize && F.paramExpr u e
  if r = [] then l else r

/-- flop_analysis.cpp:76-98: half the width of the range of an index. -/
def FlopEnv.mid (F : FlopEnv) (u : List User) (a : Assum) : Expr :=
  let ub := match a.tightUpper with
    | some t => t
    | none => if F.choose u a.uppers = [] then a.upperBound else .min (F.choose u a.uppers)
  let lb := match a.tightLower with
    | some t => t
    | none => if F.choose u a.lowers = [] then a.lowerBound else .max (F.choose u a.lowers)
  cdiv (ssub ub lb) (.int 2)

/-- flop_analysis.cpp:75-77: the symbol is the index of an enclosing loop as far as the assumptions tell. -/
def isIndex (A : Assums) (x : String) : Bool := match A x with
  | some a => a.constant && a.map.isSome
  | none => false

/-- flop_analysis.cpp:69-103 `replace_loop_indices`; the flag tells that something was replaced (`precise_` becomes false). -/
def FlopEnv.replace (F : FlopEnv) (u : List User) (A : Assums) (e : Expr) : Expr × Bool :=
  (e.atoms.foldl (fun r x => match A x with
    | some a => if a.constant && a.map.isSome then r.subs (.sym x) (F.mid u a) else r
    | none => r) e, e.atoms.any (isIndex A))

/-- flop_analysis.cpp:262-288: the initial value, and whether it is exact. -/
def FlopEnv.init (F : FlopEnv) (u : List User) (A : Assums) (a : Assum) (init : Expr) : Expr × Bool :=
  let fall : Expr × Bool :=
    let b := F.choose u a.lowers
    if a.lowerBound = .inf false ∨ b = [] then ((F.replace u A init).1, false)
    else let m := (F.replace u A (.max b)).1
      if F.paramExpr u m then (m, false) else ((F.replace u A init).1, false)
  match a.tightLower with
  | none => fall
  | some t => let r := F.replace u A t
    if F.paramExpr u r.1 then (r.1, !r.2) else fall

/-- flop_analysis.cpp:290-320: the last value, and whether it is exact; `none` is null. -/
def FlopEnv.bound (F : FlopEnv) (u : List User) (A AT : Assums) (a : Assum) (i : String) (cond : Cond) (upd : Expr) : Option Expr × Bool :=
  let fall (old : Option Expr) : Option Expr × Bool :=
    match canonicalBound (isMonotonic F.ctx.eng AT upd i) i cond with
    | some b => (some (F.replace u A (ssub b (.int 1))).1, false)
    | none => (old, false)
  let second (old : Option Expr) : Option Expr × Bool :=
    let b := F.choose u a.uppers
    if a.upperBound = .inf true ∨ b = [] then fall old
    else let m := (F.replace u A (.min b)).1
      if F.paramExpr u m then (some m, false) else fall (some m)
  match a.tightUpper with
  | none => second none
  | some t => let r := F.replace u A t
    if F.paramExpr u r.1 then (some r.1, !r.2) else second (some r.1)

/-- flop_analysis.cpp:322-334: the constant of the update, `.null` if the update is no polynomial, `.ub` for a failed assertion. -/
def FlopEnv.stride (F : FlopEnv) (i : String) (upd : Expr) : Res Expr :=
  match F.ctx.eng.poly upd [i] with
  | none => .null
  | some D => match affineCoefficients D [i] with
    | none => .ub
    | some c => if F.ctx.eng.norm (c.at' i) = .int 1 then .ok (F.ctx.eng.norm (c.at' constName)) else .ub

/-- flop_analysis.cpp:243-337 `visit_structured_loop_with_scope`: `u` are the users of the scope, `A` the assumptions of the body, `AT`
those at the loop including the trivial ones. -/
def FlopEnv.loopIn (F : FlopEnv) (u : List User) (A AT : Assums) (i : String) (init : Expr) (cond : Cond) (upd child : Expr) : FlopR :=
  match A i with
  | none => .null false
  | some a =>
    let n := F.init u A a init
    match F.bound u A AT a i cond upd with
    | (none, _) => .null false
    | (some b, pb) => match F.stride i upd with
      | .null => .null false
      | .ub => .null true
      | .ok s =>
        let t := F.replace u A s
        ⟨some (cmul (cdiv (.add [ssub b n.1, .int 1]) t.1) child), n.2 && pb && !t.2, false⟩

/-- flop_analysis.cpp:194-201: the operations of the tasklets of a block -/
def taskletFlops (l : List Stmt) : Expr := l.foldr (fun x r => match x with
  | .tasklet op _ _ _ => cadd (.int (fpFlops op)) r
  | .lib _ _ _ => r) (.int 0)

/-- flop_analysis.cpp:203-211: the operations of the library nodes, `none` if one is unknown -/
def FlopEnv.libFlops (F : FlopEnv) : List Stmt → Option Expr
  | [] => some (.int 0)
  | .tasklet _ _ _ _ :: r => F.libFlops r
  | .lib op _ _ :: r => match F.lib op, F.libFlops r with
    | some a, some b => some (cadd a b)
    | _, _ => none

/-- flop_analysis.cpp:191-224 `visit_block`. -/
def FlopEnv.block (F : FlopEnv) (A : Assums) (l : List Stmt) : FlopR :=
  match F.libFlops l with
  | none => .null false
  | some b => let r := F.replace (l.flatMap Stmt.users) A b
    ⟨some (cadd (taskletFlops l) r.1), !r.2, false⟩

mutual
/-- flop_analysis.cpp:144-165 `visit`; `A` are the assumptions at the node (without and with trivial bounds), `u` the users of the
sequence that contains it. -/
def Node.flops (F : FlopEnv) (A : Assums × Assums) (u : List User) : Node → FlopR
  | .block l => F.block A.1 l
  | .seq s => s.flops F A s.users
  | .ifElse b => match b with
    | .nil => ⟨some (.int 0), true, false⟩
    | .cons c s r =>
      let q := Brs.flops F A (.cons c s r)
      ⟨q.1.map .max, false, q.2⟩
  | .whileL s => .null (s.flops F A s.users).abort
  | .loop m i init cond upd s =>
    let B := (propagate (F.ctx.body A.2 i init cond upd s) A.1, propagate (F.ctx.body A.2 i init cond upd s) A.2)
    let c := s.flops F B s.users
    match c.e with
    | none => .null c.abort
    | some k =>
      let own := F.loopIn (Node.users (.loop m i init cond upd s)) B.1 A.2 i init cond upd k
      let out := F.loopIn u B.1 A.2 i init cond upd k
      ⟨out.e, c.precise && own.precise && out.precise, c.abort || own.abort || out.abort⟩
  | .brk => ⟨some (.int 0), true, false⟩
  | .cont => ⟨some (.int 0), true, false⟩
  | .ret _ _ => ⟨some (.int 0), true, false⟩
/-- flop_analysis.cpp:167-189 `visit_sequence`; `u` are the users of the whole sequence. -/
def Seq.flops (F : FlopEnv) (A : Assums × Assums) : Seq → List User → FlopR
  | .nil, _ => ⟨some (.int 0), true, false⟩
  | .cons n _ r, u =>
    let a := n.flops F A u
    let b := r.flops F A u
    match a.e, b.e with
    | some x, some y => ⟨some (cadd x y), a.precise && b.precise, a.abort || b.abort⟩
    | _, _ => .null (a.abort || b.abort)
/-- flop_analysis.cpp:349-357: the branches -/
def Brs.flops (F : FlopEnv) (A : Assums × Assums) : Brs → Option (List Expr) × Bool
  | .nil => (some [], false)
  | .cons _ s r =>
    let a := s.flops F A s.users
    let b := Brs.flops F A r
    match a.e, b.1 with
    | some x, some y => (some (x :: y), a.abort || b.2)
    | _, _ => (none, a.abort || b.2)
end

/-- flop_analysis.cpp:377-384 `run`, then `get(root)` and `precise()`; the assertion counts as not failed when the result is used. -/
def Seq.flopRun (F : FlopEnv) (A : Assums × Assums) (s : Seq) : FlopR := s.flops F A s.users

end Docc.IR
