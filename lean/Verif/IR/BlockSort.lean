import Verif.IR.Exchange

/-
Sorting the blocks of a sequence: allocations and transfers to a device move up, deallocations and transfers back move down
(opt/src/passes/offloading/code_motion/block_sorting.cpp).
-/
namespace Docc.IR
open Docc.Sym

/-- sequence.h: a child with its transition -/
abbrev Kid := Node × Trans

/-- the children of a sequence -/
def Seq.kids : Seq → List Kid
  | .nil => []
  | .cons n t r => (n, t) :: r.kids

/-- the sequence with given children -/
def Seq.ofKids : List Kid → Seq
  | [] => .nil
  | (n, t) :: r => .cons n t (Seq.ofKids r)

/-- the kinds of library nodes the pass distinguishes; for a data offloading node its direction and life cycle -/
inductive SKind where
  | alloca
  | calloc
  | malloc
  | free
  | memset
  | offload (h2d d2h alloc free : Bool)
  | other
  deriving DecidableEq

/-- What the pass asks about library nodes (the code string stands for the node), and what it cannot see: the containers a node accesses
without a memlet, such as the globals an external function uses. -/
structure SortEnv where
  kind : String → SKind
  side : String → Bool
  hidden : String → List String

/-- block_sorting.cpp:254-258 `is_libnode_side_effect_white_listed`. -/
def SortEnv.white (P : SortEnv) (op : String) : Bool := decide (P.kind op ≠ .other)

/-- memlet.h `MemletType`: the copies of pointers.  The model gives them as computations with these operations. -/
def refOps : List String := ["reference", "dereference_src", "dereference_dst"]

/-- block_sorting.cpp:321-336 `is_reference_block`. -/
def isRefBlock : List Stmt → Bool
  | [.tasklet op [_] _ _] => refOps.contains op
  | _ => false

/-- block_sorting.cpp:260-274 `can_be_bubbled_up`; a block with a single library node (lines 338-347 `is_libnode_block`) holds nothing
else. -/
def SortEnv.canUp (P : SortEnv) (l : List Stmt) : Bool :=
  isRefBlock l || match l with
    | [.lib op _ _] => match P.kind op with
      | .offload h _ a _ => h || a
      | .alloca => true
      | .calloc => true
      | .malloc => true
      | .memset => true
      | .free => false
      | .other => false
    | _ => false

/-- block_sorting.cpp:276-286 `can_be_bubbled_down`. -/
def SortEnv.canDown (P : SortEnv) : List Stmt → Bool
  | [.lib op _ _] => match P.kind op with
    | .offload _ d _ f => d || f
    | .free => true
    | _ => false
  | _ => false

/-- block_sorting.cpp:288-319 `get_prio_and_order`; `INT_MIN` is the lowest priority.  The first edges of a node are those of its first
input and output. -/
def SortEnv.prio (P : SortEnv) (l : List Stmt) : Int × String :=
  match l with
  | [.lib op r w] => match P.kind op with
    | .alloca => (300, w.headD "")
    | .calloc => (300, w.headD "")
    | .free => (300, w.headD "")
    | .malloc => (300, w.headD "")
    | .memset => (200, w.headD "")
    | .offload h d a f => (400, if h then r.headD "" else if a || d || f then w.headD "" else "")
    | .other => (-2147483648, "")
  | l => if isRefBlock l then (100, "") else (-2147483648, "")

/-- the containers a computation is seen to use by the users analysis -/
def SortEnv.seen (P : SortEnv) : Stmt → List String
  | .tasklet op ins out sub => (Stmt.tasklet op ins out sub).users.map (·.2)
  | .lib op r w => (r ++ w).filter fun x => !(P.hidden op).contains x

/-- block_sorting.cpp:61-73: a library node of the block may do more than is seen -/
def SortEnv.effects (P : SortEnv) (l : List Stmt) : Bool := l.any fun x => match x with
  | .lib op _ _ => !P.white op && P.side op
  | .tasklet _ _ _ _ => false

/-- block_sorting.cpp:76-88: a container is used by both blocks -/
def SortEnv.shared (P : SortEnv) (c n : List Stmt) : Bool := (n.flatMap P.seen).any fun x => (c.flatMap P.seen).contains x

/-- block_sorting.cpp:95-103: the priority of `n` is higher, or the same with an earlier name -/
def SortEnv.higher (P : SortEnv) (c n : List Stmt) : Bool :=
  let a := P.prio c
  let b := P.prio n
  !decide (a.1 > b.1) && !(decide (a.1 = b.1) && decide (a.2 ≤ b.2))

/-- block_sorting.cpp:41-103 and 117-179, the same for both directions: may the block `n` pass the block `c`? -/
def SortEnv.mayPass (P : SortEnv) (can : List Stmt → Bool) : Kid → Kid → Bool
  | (.block c, []), (.block n, []) => !P.effects c && !P.shared c n && can n && P.higher c n
  | _, _ => false

/-- structured_sdfg_builder.cpp:592-601 `move_child` within one sequence -/
def moveKid (cs : List Kid) (a b : Nat) : List Kid := match cs[a]? with
  | some x => (cs.eraseIdx a).insertIdx b x
  | none => cs

/-- block_sorting.cpp:34-110 `bubble_up`; `none` if nothing is done. -/
def SortEnv.bubbleUp (P : SortEnv) (cs : List Kid) (k : Nat) : Option (List Kid) := match cs[k]?, cs[k + 1]? with
  | some c, some n => if P.mayPass P.canUp c n then some (moveKid cs (k + 1) k) else none
  | _, _ => none

/-- block_sorting.cpp:112-188 `bubble_down` for the index `k + 1`. -/
def SortEnv.bubbleDown (P : SortEnv) (cs : List Kid) (k : Nat) : Option (List Kid) := match cs[k + 1]?, cs[k]? with
  | some c, some n => if P.mayPass P.canDown c n then some (moveKid cs k (k + 1)) else none
  | _, _ => none

/-- block_sorting.cpp:227-232: the child after `k` moves up as far as possible. -/
def SortEnv.upAt (P : SortEnv) (cs : List Kid) : Nat → List Kid × Bool
  | 0 => match P.bubbleUp cs 0 with
    | some cs' => (cs', true)
    | none => (cs, false)
  | k + 1 => match P.bubbleUp cs (k + 1) with
    | some cs' => ((P.upAt cs' k).1, true)
    | none => (cs, false)

/-- a child after which nothing is executed -/
def Node.jumps : Node → Bool
  | .ret _ _ => true
  | .brk => true
  | .cont => true
  | _ => false

/-- block_sorting.cpp:200-233: the loop that moves blocks up, from the index `i`; gives the index at which it ends. -/
def SortEnv.ups (P : SortEnv) : Nat → Nat → List Kid → Nat × List Kid × Bool
  | 0, i, cs => (i, cs, false)
  | f + 1, i, cs => match cs[i]? with
    | none => (i, cs, false)
    | some x =>
      if x.1.jumps then (i, cs, false)
      else if i + 1 = cs.length then (i, cs, false)
      else
        let r := P.upAt cs i
        let q := P.ups f (i + 1) r.1
        (q.1, q.2.1, r.2 || q.2.2)

/-- block_sorting.cpp:238-242: the child `k` moves down as far as possible, `f` steps at most. -/
def SortEnv.downAt (P : SortEnv) : Nat → List Kid → Nat → List Kid × Bool
  | 0, cs, _ => (cs, false)
  | f + 1, cs, k => match P.bubbleDown cs k with
    | some cs' => ((P.downAt f cs' (k + 1)).1, true)
    | none => (cs, false)

/-- block_sorting.cpp:236-244: the loop that moves blocks down; `i` is the last index, the children before `j` are still to be moved. -/
def SortEnv.downs (P : SortEnv) (i : Nat) : Nat → List Kid → List Kid × Bool
  | 0, cs => (cs, false)
  | j + 1, cs =>
    let r := P.downAt (i - j) cs j
    let q := P.downs i j r.1
    (q.1, r.2 || q.2)

/-- block_sorting.cpp:190-247: both loops on the children of a sequence -/
def SortEnv.kids (P : SortEnv) (cs : List Kid) : List Kid × Bool :=
  let u := P.ups cs.length 0 cs
  let d := P.downs u.1 u.1 u.2.1
  (d.1, u.2.2 || d.2)

mutual
/-- block_sorting.cpp:206-218: the sequences inside a child are sorted. -/
def Node.sort (P : SortEnv) : Node → Node × Bool
  | .seq s => (.seq (.ofKids (P.kids (s.inner P).1.kids).1), (s.inner P).2 || (P.kids (s.inner P).1.kids).2)
  | .whileL s => (.whileL (.ofKids (P.kids (s.inner P).1.kids).1), (s.inner P).2 || (P.kids (s.inner P).1.kids).2)
  | .loop m i a c u s => (.loop m i a c u (.ofKids (P.kids (s.inner P).1.kids).1), (s.inner P).2 || (P.kids (s.inner P).1.kids).2)
  | .ifElse b => (.ifElse (b.sort P).1, (b.sort P).2)
  | .block l => (.block l, false)
  | .brk => (.brk, false)
  | .cont => (.cont, false)
  | .ret d q => (.ret d q, false)
/-- block_sorting.cpp:200-218: the children up to a jump are visited.  The code does it while it moves blocks up; as only blocks move and
they have nothing inside, the order does not matter. -/
def Seq.inner (P : SortEnv) : Seq → Seq × Bool
  | .nil => (.nil, false)
  | .cons n t r => if n.jumps then (.cons n t r, false) else (.cons (n.sort P).1 t (r.inner P).1, (n.sort P).2 || (r.inner P).2)
/-- the cases of an if-else -/
def Brs.sort (P : SortEnv) : Brs → Brs × Bool
  | .nil => (.nil, false)
  | .cons c s r => (.cons c (.ofKids (P.kids (s.inner P).1.kids).1) (r.sort P).1,
      ((s.inner P).2 || (P.kids (s.inner P).1.kids).2) || (r.sort P).2)
end

/-- block_sorting.cpp:190-252 `sort` and `run_pass` -/
def Seq.sort (P : SortEnv) (s : Seq) : Seq × Bool := (.ofKids (P.kids (s.inner P).1.kids).1, (s.inner P).2 || (P.kids (s.inner P).1.kids).2)

end Docc.IR
