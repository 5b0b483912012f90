import Verif.Ser.Lib

/-
Serialization of dataflow graphs and structured control flow (sdfg/src/serializer/json_serializer.cpp).
-/
namespace Docc.Ser
open Docc.Sym Docc.Types Docc.Builder Docc.Opt

/-- element.h: every element has an id and a debug range -/
structure Meta where
  id : Nat
  dbg : DebugInfo
  deriving Repr, DecidableEq

/-- tasklet.h, access_node.h (access and constant nodes), library_node.h.  The tasklet code is kept as its integer. -/
inductive DKind where
  | tasklet (code : Nat) (ins : List String) (out : String)
  | access (data : String)
  | const (data : String) (t : Ty)
  | lib (impl : String) (l : Lib)
  deriving Inhabited

/-- a node of a dataflow graph -/
structure DNode where
  m : Meta
  kind : DKind

/-- memlet.h: a memlet; its ends are references to nodes of the graph (positions in the list of nodes) -/
structure DEdge where
  m : Meta
  src : Nat
  dst : Nat
  srcConn : String
  dstConn : String
  subset : List Expr
  base : Ty

/-- data_flow_graph.h; the lists are in the iteration order of the graph's maps -/
structure Graph where
  nodes : List DNode
  edges : List DEdge

/-- sequence.h `Transition`: the assignments (an `unordered_map`) in iteration order -/
structure Tr where
  m : Meta
  asg : List (String × Expr)

mutual
/-- control flow nodes (structured_control_flow/*.h); a loop is a `For` (`sched = none`) or a `Map` -/
inductive El where
  | block (m : Meta) (g : Graph)
  | loop (m : Meta) (sched : Option Sched) (iv : String) (init : Expr) (cond : Cond) (upd : Expr) (bm : Meta) (body : Els)
  | ifElse (m : Meta) (cs : Cases)
  | whil (m : Meta) (bm : Meta) (body : Els)
  | brk (m : Meta)
  | cont (m : Meta)
  | ret (m : Meta) (data : String) (t : Option Ty)
  | seq (m : Meta) (body : Els)
/-- children of a sequence with their transitions -/
inductive Els where
  | nil
  | cons (e : El) (t : Tr) (r : Els)
/-- cases of an if-else -/
inductive Cases where
  | nil
  | cons (c : Cond) (bm : Meta) (body : Els) (r : Cases)
end

/-! ### writing -/

/-- the fields written for every element -/
def metaF (m : Meta) : List (String × J) := [("element_id", .num m.id), ("debug_info", dbgJ m.dbg)]

/-- json_serializer.cpp:113-153: one node -/
def nodeJ (cd : Codec) (n : DNode) : J :=
  match n.kind with
  | .tasklet c i o => .obj (metaF n.m ++ [("type", .str "tasklet"), ("code", .num c), ("inputs", ssJ i), ("output", .str o)])
  | .lib impl l => (J.obj (metaF n.m ++ [("type", .str "library_node"), ("implementation_type", .str impl)])).patch (l.toJ cd)
  | .const d t => .obj (metaF n.m ++ [("type", .str "constant_node"), ("data", .str d), ("data_type", tyJ cd t)])
  | .access d => .obj (metaF n.m ++ [("type", .str "access_node"), ("data", .str d)])

/-- `edge.src().element_id()` -/
def idAt (l : List DNode) (i : Nat) : Nat := (l[i]?.map fun n => n.m.id).getD 0

/-- json_serializer.cpp:155-178: one memlet -/
def edgeJ (cd : Codec) (ns : List DNode) (e : DEdge) : J :=
  .obj (metaF e.m ++ [("src", .num (idAt ns e.src)), ("dst", .num (idAt ns e.dst)), ("src_conn", .str e.srcConn),
    ("dst_conn", .str e.dstConn), ("subset", cd.esJ e.subset), ("base_type", tyJ cd e.base)])

/-- json_serializer.cpp:108-179 `dataflow_to_json` -/
def graphJ (cd : Codec) (g : Graph) : J :=
  .obj [("type", .str "dataflow"), ("nodes", .arr (g.nodes.map (nodeJ cd))), ("edges", .arr (g.edges.map (edgeJ cd g.nodes)))]

/-- json_serializer.cpp:326-341: a transition.  A symbol is printed as its name. -/
def trJ (cd : Codec) (t : Tr) : J :=
  .obj (("type", .str "transition") :: metaF t.m ++ [("assignments",
    .arr (t.asg.map fun p => .obj [("symbol", .str p.1), ("expression", cd.eJ p.2)]))])

mutual
/-- json_serializer.cpp:181-343: `block_to_json`, `for_to_json`, `map_to_json`, `if_else_to_json`, `while_node_to_json`,
`break_node_to_json`, `continue_node_to_json`, `return_node_to_json`, `sequence_to_json` -/
def elJ (cd : Codec) : El → J
  | .block m g => .obj (("type", .str "block") :: metaF m ++ [("dataflow", graphJ cd g)])
  | .loop m sched iv init cond upd bm body =>
    .obj (("type", .str (if sched.isSome then "map" else "for")) :: metaF m ++
      [("indvar", .str iv), ("init", cd.eJ init), ("condition", cd.cJ cond), ("update", cd.eJ upd),
       ("root", .obj (("type", .str "sequence") :: metaF bm ++ [("children", .arr (kidsJ cd body)), ("transitions", .arr (trsJ cd body))]))]
      ++ (match sched with | some s => [("schedule_type", schedJ s)] | none => []))
  | .ifElse m cs => .obj (("type", .str "if_else") :: metaF m ++ [("branches", .arr (casesJ cd cs))])
  | .whil m bm body =>
    .obj (("type", .str "while") :: metaF m ++
      [("root", .obj (("type", .str "sequence") :: metaF bm ++ [("children", .arr (kidsJ cd body)), ("transitions", .arr (trsJ cd body))]))])
  | .brk m => .obj (("type", .str "break") :: metaF m)
  | .cont m => .obj (("type", .str "continue") :: metaF m)
  | .ret m data t =>
    .obj (("type", .str "return") :: metaF m ++ [("data", .str data)] ++ (match t with | some t => [("data_type", tyJ cd t)] | none => []))
  | .seq m body =>
    .obj (("type", .str "sequence") :: metaF m ++ [("children", .arr (kidsJ cd body)), ("transitions", .arr (trsJ cd body))])
/-- the array `children` -/
def kidsJ (cd : Codec) : Els → List J
  | .nil => []
  | .cons e _ r => elJ cd e :: kidsJ cd r
/-- the array `transitions` -/
def trsJ (cd : Codec) : Els → List J
  | .nil => []
  | .cons _ t r => trJ cd t :: trsJ cd r
/-- the array `branches` -/
def casesJ (cd : Codec) : Cases → List J
  | .nil => []
  | .cons c bm body r =>
    .obj [("condition", cd.cJ c),
      ("root", .obj (("type", .str "sequence") :: metaF bm ++ [("children", .arr (kidsJ cd body)), ("transitions", .arr (trsJ cd body))]))]
      :: casesJ cd r
end

/-! ### reading -/

/-- id and debug range -/
def rdMeta (j : J) : Option Meta := do
  let i ← j.getN "element_id"
  let d ← (j.get "debug_info").bind rdDbg
  pure ⟨i, d⟩

/-- json_serializer.cpp:611-668: one node; the builder's `add_*` functions (structured_sdfg_builder.cpp:1320-1364) check nothing -/
def rdNode (cd : Codec) (f : Nat) (j : J) : Option DNode := do
  let ty ← j.getS "type"
  if ty = "tasklet" then do
    let m ← rdMeta j
    let c ← j.getN "code"
    let i ← j.getSs "inputs"
    let o ← j.getS "output"
    pure ⟨m, .tasklet c i o⟩
  else if ty = "library_node" then do
    let l ← rdLib cd f j
    let d ← rdLibDbg l j
    let impl ← j.getS "implementation_type"
    let i ← j.getN "element_id"
    pure ⟨⟨i, d⟩, .lib impl l⟩
  else if ty = "access_node" then do
    let m ← rdMeta j
    let d ← j.getS "data"
    pure ⟨m, .access d⟩
  else if ty = "constant_node" then do
    let m ← rdMeta j
    let d ← j.getS "data"
    let t ← (j.get "data_type").bind (rdTy cd f)
    pure ⟨m, .const d t⟩
  else none

/-- json_serializer.cpp:606, 633, 646...: `nodes_map` keeps the first node inserted with an id; here the position of that node -/
def findId : List DNode → Nat → Option Nat
  | [], _ => none
  | n :: r, i => if n.m.id = i then some 0 else (findId r i).map (· + 1)

/-- json_serializer.cpp:673-719: one memlet; `add_memlet` (structured_sdfg_builder.cpp:1366-1390) validates in debug builds only -/
def rdEdge (cd : Codec) (f : Nat) (ns : List DNode) (j : J) : Option DEdge := do
  let s ← j.getN "src"
  let d ← j.getN "dst"
  let s ← findId ns s
  let d ← findId ns d
  let t ← (j.get "base_type").bind (rdTy cd f)
  let sub ← cd.getEs j "subset"
  let sc ← j.getS "src_conn"
  let dc ← j.getS "dst_conn"
  let m ← rdMeta j
  pure ⟨m, s, d, sc, dc, sub, t⟩

/-- json_serializer.cpp:601-721 `json_to_dataflow` and the check of json_serializer.cpp:780-787 -/
def rdGraph (cd : Codec) (f : Nat) (j : J) : Option Graph := do
  let ty ← j.getS "type"
  if ty = "dataflow" then do
    let ns ← (j.getA "nodes").bind (J.mapO (rdNode cd f))
    let es ← (j.getA "edges").bind (J.mapO (rdEdge cd f ns))
    pure ⟨ns, es⟩
  else none

/-- symbolic.cpp:18-28 `symbolic::symbol`: reserved names throw -/
def rdSym (j : J) : Option String := j.asS.bind fun x => if reserved x then none else some x

/-- `assignments.insert`: an existing entry stays (json_serializer.cpp:742-749) -/
def rdAsg (cd : Codec) : List (String × Expr) → List J → Option (List (String × Expr))
  | acc, [] => some acc
  | acc, j :: r => do
    let e ← cd.getE j "expression"
    let x ← (j.get "symbol").bind rdSym
    rdAsg cd (if acc.any (fun p => p.1 == x) then acc else acc ++ [(x, e)]) r

/-- json_serializer.cpp:737-749, 776-777: a transition -/
def rdTr (cd : Codec) (j : J) : Option Tr := do
  let a ← (j.getA "assignments").bind (rdAsg cd [])
  let m ← rdMeta j
  pure ⟨m, a⟩

/-- json_serializer.cpp:731-778: the loop over the children -/
def rdKids (rd : J → Option El) (cd : Codec) : List J → List J → Option Els
  | [], _ => some .nil
  | _ :: _, [] => none
  | c :: cs, t :: ts =>
    match rdTr cd t, rd c, rdKids rd cd cs ts with
    | some tr, some e, some r => some (.cons e tr r)
    | _, _, _ => none

/-- json_serializer.cpp:723-783 `json_to_sequence`, with the reader of children as a parameter -/
def rdSeq (rd : J → Option El) (cd : Codec) (j : J) : Option (Meta × Els) := do
  let m ← rdMeta j
  let ty ← j.getS "type"
  if ty = "sequence" then do
    let cs ← j.getA "children"
    let ts ← j.getA "transitions"
    let b ← rdKids rd cd cs ts
    pure (m, b)
  else none

/-- json_serializer.cpp:841-865: the branches -/
def rdCases (rd : J → Option El) (cd : Codec) : List J → Option Cases
  | [] => some .nil
  | j :: r =>
    match cd.getC j "condition", (j.get "root").bind (rdSeq rd cd), rdCases rd cd r with
    | some c, some mb, some cs => some (.cons c mb.1 mb.2 cs)
    | _, _, _ => none

/-- json_serializer.cpp:751-775 and the functions it calls (785-976): one control flow node; the fuel bounds the nesting -/
def rdEl (cd : Codec) : Nat → J → Option El
  | 0, _ => none
  | f + 1, j => do
    let ty ← j.getS "type"
    if ty = "block" then do
      let m ← rdMeta j
      let g ← (j.get "dataflow").bind (rdGraph cd f)
      pure (.block m g)
    else if ty = "for" then do
      let iv ← (j.get "indvar").bind rdSym
      let init ← cd.getE j "init"
      let upd ← cd.getE j "update"
      let cond ← cd.getC j "condition"
      let m ← rdMeta j
      let b ← (j.get "root").bind (rdSeq (rdEl cd f) cd)
      pure (.loop m none iv init cond upd b.1 b.2)
    else if ty = "if_else" then do
      let m ← rdMeta j
      let cs ← (j.getA "branches").bind (rdCases (rdEl cd f) cd)
      pure (.ifElse m cs)
    else if ty = "while" then do
      let m ← rdMeta j
      let b ← (j.get "root").bind (rdSeq (rdEl cd f) cd)
      pure (.whil m b.1 b.2)
    else if ty = "break" then do
      let m ← rdMeta j
      pure (.brk m)
    else if ty = "continue" then do
      let m ← rdMeta j
      pure (.cont m)
    else if ty = "return" then do
      let d ← j.getS "data"
      let t ← (match j.get "data_type" with
        | some t => (rdTy cd f t).map some
        | none => some none)
      let m ← rdMeta j
      pure (.ret m d t)
    else if ty = "map" then do
      let s ← (j.get "schedule_type").bind rdSched
      let iv ← (j.get "indvar").bind rdSym
      let init ← cd.getE j "init"
      let upd ← cd.getE j "update"
      let cond ← cd.getC j "condition"
      let m ← rdMeta j
      let b ← (j.get "root").bind (rdSeq (rdEl cd f) cd)
      pure (.loop m (some s) iv init cond upd b.1 b.2)
    else if ty = "sequence" then do
      let b ← rdSeq (rdEl cd f) cd j
      pure (.seq b.1 b.2)
    else none

/-! ### what survives -/

/-- Specification: constructor-made debug range -/
def MetaOk (m : Meta) : Prop := DbgOk m.dbg

/-- Specification: a dataflow node that survives; a barrier must not carry a debug range. -/
def Codec.OkN (cd : Codec) (n : DNode) : Prop :=
  MetaOk n.m ∧ match n.kind with
    | .tasklet .. => True
    | .access _ => True
    | .const _ t => cd.OkT t
    | .lib _ l => cd.OkL l ∧ (l.code = "barrier_local" → n.m.dbg = noDbg)

/-- Specification: a dataflow graph that survives: its node ids are distinct and every memlet connects nodes of the graph. -/
def Codec.OkG (cd : Codec) (g : Graph) : Prop :=
  (∀ n ∈ g.nodes, cd.OkN n) ∧ (g.nodes.map fun n => n.m.id).Nodup ∧
  ∀ e ∈ g.edges, MetaOk e.m ∧ e.src < g.nodes.length ∧ e.dst < g.nodes.length ∧ (∀ x ∈ e.subset, cd.OkE x) ∧ cd.OkT e.base

/-- Specification: a transition that survives: it assigns every symbol at most once, and none with a reserved name. -/
def Codec.OkTr (cd : Codec) (t : Tr) : Prop :=
  MetaOk t.m ∧ (t.asg.map (·.1)).Nodup ∧ ∀ p ∈ t.asg, cd.OkE p.2 ∧ reserved p.1 = false

mutual
/-- Specification: a control flow node that survives. -/
def El.Ok (cd : Codec) : El → Prop
  | .block m g => MetaOk m ∧ cd.OkG g
  | .loop m sched iv init cond upd bm body =>
    MetaOk m ∧ (∀ s, sched = some s → SchedOk s) ∧ reserved iv = false ∧ cd.OkE init ∧ cd.OkC cond ∧ cd.OkE upd ∧ MetaOk bm ∧ body.Ok cd
  | .ifElse m cs => MetaOk m ∧ cs.Ok cd
  | .whil m bm body => MetaOk m ∧ MetaOk bm ∧ body.Ok cd
  | .brk m => MetaOk m
  | .cont m => MetaOk m
  | .ret m _ t => MetaOk m ∧ ∀ u, t = some u → cd.OkT u
  | .seq m body => MetaOk m ∧ body.Ok cd
/-- Specification: the children of a sequence survive. -/
def Els.Ok (cd : Codec) : Els → Prop
  | .nil => True
  | .cons e t r => e.Ok cd ∧ cd.OkTr t ∧ r.Ok cd
/-- Specification: the cases survive. -/
def Cases.Ok (cd : Codec) : Cases → Prop
  | .nil => True
  | .cons c bm body r => cd.OkC c ∧ MetaOk bm ∧ body.Ok cd ∧ r.Ok cd
end

end Docc.Ser
