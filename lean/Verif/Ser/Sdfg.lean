import Verif.Ser.TreeLemmas

/-
Serialization of a whole structured SDFG (sdfg/src/serializer/json_serializer.cpp:56-106, 435-444, 477-586).
-/
namespace Docc.Ser
open Docc.Sym Docc.Types Docc.Builder Docc.Opt

/-- structured_sdfg.h, function.h:43-75: the members of a function.  Maps are association lists. -/
structure Sdfg where
  name : String
  counter : Nat
  ftype : String
  ret : Ty
  structs : AList String StructDef
  fn : Fn
  metadata : AList String String
  rootM : Meta
  root : Els

mutual
/-- every library node can be written -/
def El.writable : El → Bool
  | .block _ g => g.nodes.all fun n => match n.kind with | .lib _ l => l.writable | _ => true
  | .loop _ _ _ _ _ _ _ b => b.writable
  | .ifElse _ cs => cs.writable
  | .whil _ _ b => b.writable
  | .seq _ b => b.writable
  | .brk _ | .cont _ | .ret _ _ _ => true
/-- every library node can be written -/
def Els.writable : Els → Bool
  | .nil => true
  | .cons e _ r => e.writable && r.writable
/-- every library node can be written -/
def Cases.writable : Cases → Bool
  | .nil => true
  | .cons _ _ b r => b.writable && r.writable
end

/-- json_serializer.cpp:435-444 `structure_definition_to_json`; the map key is the definition's name -/
def structJ (cd : Codec) (p : String × StructDef) : J :=
  .obj [("name", .str p.1), ("members", .arr (p.2.members.map (tyJ cd))), ("is_packed", .bool p.2.packed)]

/-- function.h:41: the enumeration as an integer -/
def linkJ : Linkage → J
  | .external => .num 0
  | .internal => .num 1

/-- json_serializer.cpp:92-97: one external; `linkage_type` is `externals_linkage_types_.at(name)` (function.cpp), which throws
when there is no entry -/
def extJ (f : Fn) (n : String) : Option J := (f.link.get n).map fun l => .obj [("name", .str n), ("linkage_type", linkJ l)]

/-- json_serializer.cpp:56-106 `serialize`; `none` is a thrown exception (a library node without serializer, an external without
linkage) -/
def serialize (cd : Codec) (s : Sdfg) : Option J :=
  match s.root.writable, J.mapO (extJ s.fn) s.fn.exts with
  | true, some exts => some (.obj
    [("name", .str s.name), ("element_counter", .num s.counter), ("type", .str s.ftype), ("return_type", tyJ cd s.ret),
     ("structures", .arr (s.structs.map (structJ cd))),
     ("containers", .obj (s.fn.conts.map fun p => (p.1, tyJ cd p.2))),
     ("arguments", ssJ s.fn.args),
     ("externals", .arr exts),
     ("metadata", .obj (s.metadata.map fun p => (p.1, J.str p.2))),
     ("root", .obj (("type", .str "sequence") :: metaF s.rootM ++
        [("children", .arr (kidsJ cd s.root)), ("transitions", .arr (trsJ cd s.root))]))])
  | _, _ => none

/-- json_serializer.cpp:569-586 with function_builder.cpp:187-199 `add_structure`: a second structure of a name throws -/
def rdStructs (cd : Codec) (f : Nat) : AList String StructDef → List J → Option (AList String StructDef)
  | acc, [] => some acc
  | acc, j :: r => do
    let n ← j.getS "name"
    let p ← j.getB "is_packed"
    let ms ← (j.getA "members").bind (J.mapO (rdTy cd f))
    if (acc.get n).isSome then none else rdStructs cd f (acc.set n ⟨p, ms.map Ty.clone⟩) r

/-- `LinkageType(int)`; other integers are not values of the enumeration -/
def rdLink (j : J) : Option Linkage :=
  match j.asI with
  | some 0 => some .external
  | some 1 => some .internal
  | _ => none

/-- a call that throws ends the reading -/
def Out.get? (o : Out) : Option Fn := if o.ok then some o.fn else none

/-- json_serializer.cpp:516-525: the externals -/
def rdExts (cd : Codec) (fu : Nat) (cs : J) : Fn → List J → Option Fn
  | fn, [] => some fn
  | fn, j :: r => do
    let n ← j.getS "name"
    let t ← (cs.get n).bind (rdTy cd fu)
    let l ← (j.get "linkage_type").bind rdLink
    let fn ← Out.get? (addExternal fn n t l)
    rdExts cd fu cs fn r

/-- json_serializer.cpp:527-532: the arguments -/
def rdArgs (cd : Codec) (fu : Nat) (cs : J) : Fn → List J → Option Fn
  | fn, [] => some fn
  | fn, j :: r => do
    let n ← j.asS
    let t ← (cs.get n).bind (rdTy cd fu)
    let fn ← Out.get? (addContainer fn n t true false)
    rdArgs cd fu cs fn r

/-- json_serializer.cpp:534-544: the transients -/
def rdTrans (cd : Codec) (fu : Nat) : Fn → List (String × J) → Option Fn
  | fn, [] => some fn
  | fn, (n, j) :: r =>
    if fn.args.contains n || fn.exts.contains n then rdTrans cd fu fn r
    else do
      let t ← rdTy cd fu j
      let fn ← Out.get? (addContainer fn n t false false)
      rdTrans cd fu fn r

/-- json_serializer.cpp:551-556: `add_metadata` for every entry -/
def rdMetadata : AList String String → List (String × J) → Option (AList String String)
  | acc, [] => some acc
  | acc, (k, v) :: r => v.asS.bind fun s => rdMetadata (acc.set k s) r

/-- json_serializer.cpp:477-562 `deserialize`; `none` is a thrown exception.  The fuel of the recursive readers is the size of the
document. -/
def deserialize (cd : Codec) (j : J) : Option Sdfg := do
  let fu := j.size
  let ret ← (match j.get "return_type" with
    | some t => rdTy cd fu t
    | none => some (.scalar default .void))
  let ty ← j.getS "type"
  let name ← j.getS "name"
  let counter ← j.getN "element_counter"
  let structs ← (j.getA "structures").bind (rdStructs cd fu [])
  let cs ← j.get "containers"
  let fn ← (j.getA "externals").bind (rdExts cd fu cs (Fn.new (ty == "NV_GLOBAL")))
  let fn ← (j.getA "arguments").bind (rdArgs cd fu cs fn)
  let fn ← cs.asO.bind (rdTrans cd fu fn)
  let root ← (j.get "root").bind (rdSeq (rdEl cd fu) cd)
  let md ← ((j.get "metadata").bind J.asO).bind (rdMetadata [])
  pure ⟨name, counter, ty, ret.clone, structs, fn, md, root.1, root.2⟩

/-! ### specification -/

/-- Specification: what a structure definition needs to survive. -/
def Codec.OkD (cd : Codec) (d : StructDef) : Prop := ∀ t ∈ d.members, cd.OkT t

/-- Specification: the signature of an SDFG can be read back: its keys are unique, its names legal, its arguments and externals are
containers, every external has a linkage, arguments and transients are no tensors, no symbol has a reserved name, and all types
survive. -/
structure SigOk (cd : Codec) (s : Sdfg) : Prop where
  ret : cd.OkT s.ret
  structsNodup : s.structs.keys.Nodup
  structs : ∀ n d, (n, d) ∈ s.structs → cd.OkD d
  contsNodup : s.fn.conts.keys.Nodup
  types : ∀ n t, s.fn.conts.get n = some t → cd.OkT t
  names : ∀ n t, s.fn.conts.get n = some t → checkName n = true
  noTensor : ∀ n t, s.fn.conts.get n = some t → n ∉ s.fn.exts → t.isTensor = false
  noReserved : ∀ n t, s.fn.conts.get n = some t → n ∉ s.fn.exts → t.isSymbol = true → reserved n = false
  argsNodup : s.fn.args.Nodup
  extsNodup : s.fn.exts.Nodup
  args : ∀ n ∈ s.fn.args, (s.fn.conts.get n).isSome ∧ n ∉ s.fn.exts
  exts : ∀ n ∈ s.fn.exts, (s.fn.conts.get n).isSome ∧ (s.fn.link.get n).isSome
  links : ∀ n, (s.fn.link.get n).isSome → n ∈ s.fn.exts
  metaNodup : s.metadata.keys.Nodup
  rootM : MetaOk s.rootM

/-- Specification: an SDFG whose document can be read back: its signature, and every element of its body. -/
structure Loadable (cd : Codec) (s : Sdfg) : Prop extends SigOk cd s where
  root : s.root.Ok cd

/-- Specification: the two functions agree in every member (maps compared by lookup); assumptions are not compared. -/
structure Same (s s' : Sdfg) : Prop where
  name : s'.name = s.name
  counter : s'.counter = s.counter
  ftype : s'.ftype = s.ftype
  ret : s'.ret = s.ret
  structs : ∀ n, s'.structs.get n = s.structs.get n
  conts : ∀ n, s'.fn.conts.get n = s.fn.conts.get n
  args : s'.fn.args = s.fn.args
  exts : s'.fn.exts = s.fn.exts
  link : ∀ n, s'.fn.link.get n = s.fn.link.get n
  metadata : ∀ n, s'.metadata.get n = s.metadata.get n
  rootM : s'.rootM = s.rootM
  root : s'.root = s.root

/-- Specification: the assumptions a freshly built function of this signature has: the type range of every symbol that is not
external, and the ranges of the kernel built-ins. -/
def freshAssum (s : Sdfg) (n : String) : Option Assum :=
  match s.fn.conts.get n with
  | some t => if n ∈ s.fn.exts then none else if t.isSymbol then createAssum t else none
  | none => (Fn.new (s.ftype == "NV_GLOBAL")).assum.get n

end Docc.Ser
