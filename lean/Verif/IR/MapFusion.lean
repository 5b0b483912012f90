import Verif.IR.Users
import Verif.Sym.Poly

/-
MapFusion: recompute the elements a loop reads instead of loading what the map before it stored
(sdfg/src/transformations/map_fusion.cpp).
-/
namespace Docc.IR
open Docc.Sym

/-- An access node of the computation holds the container (as operand or as result). -/
def Stmt.touches (x : String) : Stmt → Bool
  | .tasklet _ ins out _ => ins.any (·.1 == x) || out == x
  | .lib _ rs ws => rs.contains x || ws.contains x

/-- map_fusion.cpp:106-135: the one memlet that writes the container in the producer block, provided no other access node of the block
holds it and its subset has one dimension.  (Library nodes write whole containers in this model, so a library producer is rejected; the
code accepts one whose memlet has a one-dimensional subset.) -/
def producerOf (x : String) (B : List Stmt) : Option Expr :=
  match B.filter (Stmt.touches x) with
  | [.tasklet _ ins out [p]] => if ins.any (·.1 == x) then none else if out == x then some p else none
  | _ => none

/-- map_fusion.cpp:163-186: the elements one computation reads of the container; `none`: the computation writes it or reads it with
another number of dimensions.  (Library nodes read whole containers in this model: rejected.) -/
def Stmt.consumed (x : String) : Stmt → Option (List Expr)
  | .tasklet _ ins out _ =>
    if out == x then none
    else if ins.all fun r => r.1 != x || r.2.length == 1 then some (ins.flatMap fun r => if r.1 = x then r.2 else []) else none
  | .lib _ rs ws => if rs.contains x || ws.contains x then none else some []

/-- map_fusion.cpp:163-186 over the computations of one block -/
def blockConsumed (x : String) : List Stmt → Option (List Expr)
  | [] => some []
  | s :: l => match s.consumed x, blockConsumed x l with
    | some a, some b => some (a ++ b)
    | _, _ => none

/-- map_fusion.cpp:156-188: the elements of the container the second loop's body reads; every child has to be a block. -/
def Seq.consumed (x : String) : Seq → Option (List Expr)
  | .nil => some []
  | .cons (.block l) _ r => match blockConsumed x l, r.consumed x with
    | some a, some b => some (a ++ b)
    | _, _ => none
  | .cons _ _ _ => none

/-- map_fusion.h `FusionCandidate`, with the name of the temporary `apply` creates for it (map_fusion.cpp:251-256). -/
structure Cand where
  cont : String
  idx : Expr
  map : Expr
  tmp : String
  deriving Repr, DecidableEq

/-- map_fusion.cpp:137-151 and 191-195: the iteration of the map that produced element `e`: `(e - constant) / coefficient`.
`symbolic::eq(first_coeff, 0)` compares what SymEngine's automatic simplification makes of the coefficient. -/
def mapIndex (P : PolyEngine) (i : String) (p e : Expr) : Option Expr :=
  match P.poly p [i] with
  | none => none
  | some D => match affineCoefficients D [i] with
    | none => none
    | some A =>
      if P.norm (A.at' i) = .int 0 then none
      else match sdiv (ssub e (P.norm (A.at' constName))) (P.norm (A.at' i)) with
        | .ok g => some (P.expand g)
        | _ => none

/-- map_fusion.cpp:190-236: one candidate per element, if the iteration only depends on the second loop's variable and on parameters. -/
def candsOf (P : PolyEngine) (param : String → Bool) (i k x : String) (p : Expr) (tmp : Expr → String) : List Expr → Option (List Cand)
  | [] => some []
  | e :: es => match mapIndex P i p e, candsOf P param i k x p tmp es with
    | some g, some cs => if g.atoms.all fun s => s == k || param s then some (⟨x, e, g, tmp e⟩ :: cs) else none
    | _, _ => none

/-- map_fusion.cpp:103-237: all candidates, container by container. -/
def fuseCands (P : PolyEngine) (param : String → Bool) (i k : String) (B : List Stmt) (body : Seq) (tmp : String → Expr → String) :
    List String → Option (List Cand)
  | [] => some []
  | x :: xs => match producerOf x B, body.consumed x, fuseCands P param i k B body tmp xs with
    | some p, some es, some r => match candsOf P param i k x p (tmp x) es.eraseDups with
      | some cs => some (cs ++ r)
      | none => none
    | _, _, _ => none

/-- names the block writes -/
def blockWrites (B : List Stmt) : List String := (B.flatMap Stmt.users).filterMap fun u => if u.1 = .write then some u.2 else none

/-- the loop uses the name but does not write it -/
def Node.inputOnly (n : Node) (s : String) : Bool := n.users.any (· == (.read, s)) && !n.users.any (· == (.write, s))

/-- map_fusion.cpp:203-221: a scalar argument of one of the two loops that this loop does not write.  `arg s`: the arguments analysis
calls `s` an argument of the loops that use it (arguments_analysis.cpp: declared as argument or external, or also used elsewhere). -/
def fuseParam (arr arg : String → Bool) (n1 n2 : Node) (s : String) : Bool := !arr s && arg s && (n1.inputOnly s || n2.inputOnly s)

/-- map_fusion.cpp:20-241 `can_be_applied` for two neighbouring children of a sequence.  `arr x`: the container is no scalar;
`arg`: see `fuseParam`; `xs`: the fusion containers (map_fusion.cpp:77-96: arguments the first loop writes and the second uses) in the order of the hash set;
`tmp`: the fresh names `apply` is going to take.  The first loop has to be a Map over one block with empty transitions. -/
def canFuse (P : PolyEngine) (arr arg : String → Bool) (tmp : String → Expr → String) (xs : List String) (n1 : Node) (t : Trans) (n2 : Node) :
    Option (List Cand) :=
  match n1, t, n2 with
  | .loop true i a1 c1 u1 (.cons (.block B) [] .nil), [], .loop m k a c u body =>
    if xs.isEmpty then none
    else if xs.Nodup ∧ ∀ x ∈ blockWrites B ++ xs,
        (x ∈ xs ↔ x ∈ blockWrites B ∧ arr x ∧ x ∈ (Node.loop m k a c u body).users.map (·.2)) then
      match fuseCands P (fuseParam arr arg (.loop true i a1 c1 u1 (.cons (.block B) [] .nil)) (.loop m k a c u body)) i k B body tmp xs with
      | some [] => none
      | r => r
    else none
  | _, _, _ => none

/-- map_fusion.cpp:264-311: the copy of a computation of the producer block for one candidate: the candidate's container becomes the
temporary (with an empty subset), and the map's variable in the subsets becomes the index mapping.  An access node that reads the map's
variable as data keeps its name. -/
def Stmt.copyFor (P : PolyEngine) (i : String) (c : Cand) : Stmt → Stmt
  | .tasklet op ins out sub =>
    .tasklet op (ins.map fun r => (if r.1 = c.cont then c.tmp else r.1, r.2.map fun d => P.expand (d.subs (.sym i) c.map)))
      (if out = c.cont then c.tmp else out)
      (if out = c.cont then [] else sub.map fun d => P.expand (d.subs (.sym i) c.map))
  | .lib op rs ws => .lib op (rs.map fun r => if r = c.cont then c.tmp else r) (ws.map fun r => if r = c.cont then c.tmp else r)

/-- map_fusion.cpp:318-400: a read that matches a candidate reads the candidate's temporary. -/
def redirectOpd (cs : List Cand) (r : String × List Expr) : String × List Expr :=
  match cs.find? fun c => c.cont == r.1 && r.2 == [c.idx] with
  | some c => (c.tmp, [])
  | none => r

/-- map_fusion.cpp:334-403 when one access node feeds several operands: every match renames the node again, so the last match decides. -/
def sharedOpd (cs : List Cand) (ins : List (String × List Expr)) (r : String × List Expr) : String × List Expr :=
  let last := (ins.filter fun q => q.1 == r.1).foldl (fun acc q => match redirectOpd cs q with | (t, []) => t | _ => acc) r.1
  match redirectOpd cs r with
  | (_, []) => (last, [])
  | _ => r

/-- map_fusion.cpp:314-404 on one computation.  `sh`: operands that read the same container come from one access node. -/
def Stmt.redirect (sh : Bool) (cs : List Cand) : Stmt → Stmt
  | .tasklet op ins out sub => .tasklet op (ins.map fun r => if sh then sharedOpd cs ins r else redirectOpd cs r) out sub
  | .lib op rs ws => .lib op rs ws

/-- map_fusion.cpp:314-404 on the body of the second loop (blocks only) -/
def Seq.redirect (sh : Bool) (cs : List Cand) : Seq → Seq
  | .nil => .nil
  | .cons (.block l) t r => .cons (.block (l.map (Stmt.redirect sh cs))) t (r.redirect sh cs)
  | .cons n t r => .cons n t (r.redirect sh cs)

/-- map_fusion.cpp:251-312: every candidate's copy of the producer block goes to the beginning of the body, so the last one is first. -/
def insertCopies (P : PolyEngine) (i : String) (B : List Stmt) (body : Seq) : List Cand → Seq
  | [] => body
  | c :: cs => insertCopies P i B (.cons (.block (B.map (Stmt.copyFor P i c))) [] body) cs

/-- map_fusion.cpp:243-405 `apply`: the second loop afterwards (the first one stays). -/
def fuseLoop (P : PolyEngine) (sh : Bool) (cs : List Cand) (n1 n2 : Node) : Node :=
  match n1, n2 with
  | .loop _ i _ _ _ (.cons (.block B) _ _), .loop m k a c u body => .loop m k a c u (insertCopies P i B (body.redirect sh cs) cs)
  | _, n => n

end Docc.IR
