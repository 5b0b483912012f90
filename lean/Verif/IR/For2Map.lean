import Verif.IR.DataDep

/-
For2Map (sdfg/src/passes/structured_control_flow/for2map.cpp).
-/
namespace Docc.IR
open Docc.Sym

/-- What For2Map asks about containers and library nodes: transients, containers used outside the loop body (the headers of the loop
included), pointers, managed allocations, side effects of library nodes. -/
structure MapCtx where
  transient : String → Bool
  outside : List String
  pointer : String → Bool
  managed : String → Bool
  sideEffect : String → Bool

/-- users.cpp:1023-1041 `Users::locals` of the loop body: transients all of whose uses are in the body. -/
def isLocal (C : MapCtx) (s : Seq) (x : String) : Bool := C.transient x && decide (x ∈ s.users.map (·.2)) && !decide (x ∈ C.outside)

mutual
/-- for2map.cpp:25-62: no library node with side effects and no return; break and continue are accepted. -/
def Node.pure (C : MapCtx) : Node → Bool
  | .block l => l.all fun s => match s with | .lib op _ _ => !C.sideEffect op | _ => true
  | .seq s => s.pure C
  | .ifElse b => b.pure C
  | .whileL s => s.pure C
  | .loop _ _ _ _ _ s => s.pure C
  | .brk => true
  | .cont => true
  | .ret _ _ => false
/-- the children -/
def Seq.pure (C : MapCtx) : Seq → Bool
  | .nil => true
  | .cons n _ r => n.pure C && r.pure C
/-- the branches -/
def Brs.pure (C : MapCtx) : Brs → Bool
  | .nil => true
  | .cons _ s r => s.pure C && r.pure C
end

mutual
/-- the assignments of all transitions in a node -/
def Node.assigns : Node → List (String × Expr)
  | .block _ => []
  | .seq s => s.assigns
  | .ifElse b => b.assigns
  | .whileL s => s.assigns
  | .loop _ _ _ _ _ s => s.assigns
  | .brk => []
  | .cont => []
  | .ret _ _ => []
/-- the assignments of all transitions in a sequence -/
def Seq.assigns : Seq → List (String × Expr)
  | .nil => []
  | .cons n t r => n.assigns ++ t ++ r.assigns
/-- the assignments of all transitions in the branches -/
def Brs.assigns : Brs → List (String × Expr)
  | .nil => []
  | .cons _ s r => s.assigns ++ r.assigns
end

/-- for2map.cpp:84-99: the special case of a scalar with one write and no read in the body, where the write is a transition assigning an
integer constant. -/
def constScalar (O : DepOracle) (s : Seq) (x : String) : Bool :=
  O.scalar x && decide ((s.users.filter fun u => decide (u = (Use.write, x))).length = 1) && !decide ((Use.read, x) ∈ s.users) &&
    s.assigns.any fun a => decide (a.1 = x) && (match a.2 with | .int _ => true | _ => false)

/-- for2map.cpp:67-128: the dependency is harmless: write-write, on a local that is not an unmanaged pointer (pointers that alias a local
need a pointer memlet, which is not modelled), or on a constant scalar. -/
def depOk (O : DepOracle) (C : MapCtx) (s : Seq) (d : String × Dep) : Bool :=
  decide (d.2 = .writeWrite) &&
    (if isLocal C s d.1 then !C.pointer d.1 || C.managed d.1 else constScalar O s d.1)

/-- for2map.cpp:14-136 `can_be_applied`. -/
def canMap (O : DepOracle) (C : MapCtx) (pos : List Nat) (i : String) (upd : Expr) (s : Seq) : Bool :=
  O.mono i upd && s.pure C && (loopDeps O pos i upd s).all (depOk O C s) && !isLocal C s i

end Docc.IR
