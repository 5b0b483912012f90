import Verif.IR.Replace
import Verif.IR.UGraphDomProps

/-
Hoisting of blocks out of maps and if-elses (opt/src/passes/offloading/code_motion/block_hoisting.cpp).
-/
namespace Docc.IR
open Docc.Sym

/-- the kinds of library nodes the pass distinguishes; for a data offloading node its direction and life cycle -/
inductive HKind where
  | alloca
  | memcpy
  | memmove
  | memset
  | offload (h2d d2h alloc free : Bool)
  | other
  deriving DecidableEq

/-- What the pass asks: the kinds of library nodes (the code string stands for the node with its sizes and values) and
`IfElse::is_complete`. -/
structure HoistEnv where
  kind : String → HKind
  complete : Brs → Bool

/-- block_hoisting.cpp:66-82 `is_libnode_allowed`. -/
def HoistEnv.allowed (H : HoistEnv) (op : String) : Bool := decide (H.kind op ≠ .other)

/-- block_hoisting.cpp:299-324 `is_invariant_move`: a pointer is loaded from memory.  The default of the last argument is that there are no
loop-carried dependencies (block_hoisting.h:26), so nothing else is tested. -/
def isMove : List Stmt → Bool
  | [.tasklet op [_] _ _] => op == "dereference_src"
  | _ => false

/-- block_hoisting.cpp:326-364 `is_invariant_view`: a pointer to an element; `i` is the variable of the map, if any.  Again nothing else is
tested (block_hoisting.h:32). -/
def isView (i : Option String) : List Stmt → Bool
  | [.tasklet op [r] _ _] => op == "reference" && match i with
    | none => true
    | some x => !(Expr.atomsL r.2).contains x
  | _ => false

/-- block_hoisting.cpp:366-430 `is_invariant_libnode`: a single library node of an allowed kind whose symbols and subsets do not use the
variable of the map (in the model the inputs of a library node include its symbols).  Nothing else is tested (block_hoisting.h:38). -/
def HoistEnv.isInvLib (H : HoistEnv) (i : Option String) : List Stmt → Bool
  | [.lib op r _] => H.allowed op && match i with
    | none => true
    | some x => !r.contains x
  | _ => false

/-- the last child of a sequence and the ones before it -/
def Seq.unsnoc : Seq → Option (Seq × Node × Trans)
  | .nil => none
  | .cons n t r => match r.unsnoc with
    | none => some (.nil, n, t)
    | some (s, m, u) => some (.cons n t s, m, u)

/-- block_hoisting.cpp:528-556 `map_invariant_front` and 583-635: the block taken out of the front, and the rest of the body.  The model does
not have schedule types: library nodes are only taken out of sequential maps (line 619). -/
def HoistEnv.frontMap (H : HoistEnv) (i : String) : Seq → Option (List Stmt × Seq)
  | .cons (.block l) [] r => if isMove l || isView (some i) l || H.isInvLib (some i) l then some (l, r) else none
  | _ => none

/-- block_hoisting.cpp:558-581 `map_invariant_back` and 637-656. -/
def HoistEnv.backMap (H : HoistEnv) (i : String) (s : Seq) : Option (Seq × List Stmt) := match s.unsnoc with
  | some (r, .block l, []) => if H.isInvLib (some i) l then some (r, l) else none
  | _ => none

/-- block_hoisting.cpp:801-875 `equal_offloading_nodes`: transfers that only differ in the device container; gives the container to be
replaced and its replacement (lines 205-240; for an allocation without a transfer in the back nothing is replaced, line 273).  `equal_with` compares the nodes, here the code strings. -/
def HoistEnv.twins (H : HoistEnv) (back : Bool) : List Stmt → List Stmt → Option (String × String)
  | [.lib op r w], [.lib op' r' w'] => match H.kind op with
    | .offload h d a _ =>
      if op = op' then
        if d then match r, r' with
          | x :: p, y :: p' => if w = w' ∧ p = p' then some (y, x) else none
          | _, _ => none
        else if h || a then match w, w' with
          | [x], [y] => if r = r' then some (y, if h || !back then x else y) else none
          | _, _ => none
        else none
      else none
    | _ => none
  | _, _ => none

/-- block_hoisting.cpp:91-190 and 432-526: the blocks are equal, or transfers that differ in the device container, which is then replaced
in the case (lines 218 and 238). -/
def HoistEnv.same (H : HoistEnv) (back : Bool) (l m : List Stmt) (s : Seq) : Option Seq :=
  if l = m then some s else match H.twins back l m with
    | some (y, x) => some (s.replace y (.sym x))
    | none => none

/-- block_hoisting.cpp:658-729: every case begins with the block; gives the cases without it. -/
def HoistEnv.fronts (H : HoistEnv) (l : List Stmt) : Brs → Option Brs
  | .nil => some .nil
  | .cons c (.cons (.block m) [] s) r => match H.same false l m s, H.fronts l r with
    | some s', some r' => some (.cons c s' r')
    | _, _ => none
  | .cons _ _ _ => none

/-- block_hoisting.cpp:658-729 `if_else_invariant_front` and 776-786. -/
def HoistEnv.frontIf (H : HoistEnv) : Brs → Option (List Stmt × Brs)
  | .cons c (.cons (.block l) [] s) r =>
    if isMove l || isView none l || H.isInvLib none l then (H.fronts l (.cons c (.cons (.block l) [] s) r)).map (l, ·) else none
  | _ => none

/-- block_hoisting.cpp:731-774: every case ends with the block; gives the cases without it. -/
def HoistEnv.backs (H : HoistEnv) (l : List Stmt) : Brs → Option Brs
  | .nil => some .nil
  | .cons c s r => match s.unsnoc with
    | some (s1, .block m, []) => match H.same true l m s1, H.backs l r with
      | some s', some r' => some (.cons c s' r')
      | _, _ => none
    | _ => none

/-- block_hoisting.cpp:731-774 `if_else_invariant_back` and 788-799. -/
def HoistEnv.backIf (H : HoistEnv) : Brs → Option (Brs × List Stmt)
  | .nil => none
  | .cons c s r => match s.unsnoc with
    | some (_, .block l, []) => if H.isInvLib none l then (H.backs l (.cons c s r)).map (·, l) else none
    | _ => none

/-- block_hoisting.cpp:39-48 `accept(Map)` and 50-64 `accept(IfElse)`: what replaces a child `n` with transition `t` in front of `r`.  A block
taken out of the back is inserted behind the child, so behind the assignments of its transition. -/
def HoistEnv.accept (H : HoistEnv) (n : Node) (t : Trans) (r : Seq) : Seq := match n with
  | .loop true i a c u s =>
    match H.frontMap i s with
    | some (l, s1) => match H.backMap i s1 with
      | some (s2, m) => .cons (.block l) [] (.cons (.loop true i a c u s2) t (.cons (.block m) [] r))
      | none => .cons (.block l) [] (.cons (.loop true i a c u s1) t r)
    | none => match H.backMap i s with
      | some (s2, m) => .cons (.loop true i a c u s2) t (.cons (.block m) [] r)
      | none => .cons n t r
  | .ifElse b =>
    if H.complete b then
      match H.frontIf b with
      | some (l, b1) => match H.backIf b1 with
        | some (b2, m) => .cons (.block l) [] (.cons (.ifElse b2) t (.cons (.block m) [] r))
        | none => .cons (.block l) [] (.cons (.ifElse b1) t r)
      | none => match H.backIf b with
        | some (b2, m) => .cons (.ifElse b2) t (.cons (.block m) [] r)
        | none => .cons n t r
    else .cons n t r
  | _ => .cons n t r

end Docc.IR
