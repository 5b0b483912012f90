import Verif.Ser.Json

/-
Serialization of types, storage, schedules and debug ranges (sdfg/src/serializer/json_serializer.cpp).
-/
namespace Docc.Ser
open Docc.Sym Docc.Types Docc.Builder Docc.Opt

/-- type.h:35-55: the enumerators in order; enums are written as integers -/
def prims : List Prim :=
  [.void, .bool, .int8, .int16, .int32, .int64, .int128, .uint8, .uint16, .uint32, .uint64, .uint128, .half, .bfloat, .float,
   .double, .x86_fp80, .fp128, .ppc_fp128]

/-- an enumerator as an integer -/
def primJ (p : Prim) : J := .num (prims.idxOf p : Nat)
/-- an integer as an enumerator (values outside the enum are not modelled) -/
def rdPrim (j : J) : Option Prim := j.asN.bind fun n => prims[n]?

@[simp] theorem rdPrim_primJ (p : Prim) : rdPrim (primJ p) = some p := by cases p <;> rfl

/-- type.h:70-73 `AllocationType`: Unmanaged = 0, Managed = 1 -/
def allocJ (managed : Bool) : J := .num (if managed then 1 else 0)
/-- read an `AllocationType` -/
def rdAlloc (j : J) : Option Bool :=
  match j.asN with
  | some 0 => some false
  | some 1 => some true
  | _ => none

@[simp] theorem rdAlloc_allocJ (b : Bool) : rdAlloc (allocJ b) = some b := by cases b <;> rfl

/-- json_serializer.cpp:466-478 `storage_type_to_json` -/
def storageJ (cd : Codec) (s : Storage) : J :=
  .obj ([("value", .str s.value), ("allocation", allocJ s.allocManaged), ("deallocation", allocJ s.deallocManaged)]
    ++ (match s.allocSize with | some e => [("allocation_size", cd.eJ e)] | none => [])
    ++ (match s.arg1 with | some e => [("args", .arr [cd.eJ e])] | none => []))

/-- json_serializer.cpp:1198-1222 `json_to_storage_type` -/
def rdStorage (cd : Codec) (j : J) : Option Storage :=
  match j.get "value" with
  | none => some {}
  | some v => do
    let value ← v.asS
    let size ← (match j.get "allocation_size" with
      | some e => (cd.rdE e).map some
      | none => some none)
    let al ← (j.get "allocation").bind rdAlloc
    let de ← (j.get "deallocation").bind rdAlloc
    let arg ← (match j.get "args" with
      | some a => (match a.asA with
        | some (e :: _) => (cd.rdE e).map some
        | some [] => some none
        | none => none)
      | none => some none)
    pure { value := value, allocSize := size, allocManaged := al, deallocManaged := de, arg1 := arg }

/-- Specification: the expressions of a storage type survive the text codec. -/
def Codec.OkS (cd : Codec) (s : Storage) : Prop :=
  (∀ e, s.allocSize = some e → cd.OkE e) ∧ (∀ e, s.arg1 = some e → cd.OkE e)

theorem rdStorage_storageJ {cd : Codec} {s : Storage} (h : cd.OkS s) : rdStorage cd (storageJ cd s) = some s := by
  obtain ⟨v, sz, al, de, arg⟩ := s
  cases sz <;> cases arg <;>
    simp_all [rdStorage, storageJ, J.get, J.find, J.asS, J.asA, Codec.OkS]

/-- the attributes written for every type but references -/
def attrF (cd : Codec) (a : Attr) : List (String × J) :=
  [("storage_type", storageJ cd a.storage), ("initializer", .str a.initializer), ("alignment", .num a.alignment)]

/-- read the attributes -/
def rdAttr (cd : Codec) (j : J) : Option Attr := do
  let st ← (j.get "storage_type").bind (rdStorage cd)
  let ini ← j.getS "initializer"
  let al ← j.getN "alignment"
  pure { storage := st, alignment := al, initializer := ini }

mutual
/-- json_serializer.cpp:345-433 `type_to_json`.  No attribute of a reference is written. -/
def tyJ (cd : Codec) : Ty → J
  | .scalar a p => .obj (("type", .str "scalar") :: ("primitive_type", primJ p) :: attrF cd a)
  | .array a e n => .obj (("type", .str "array") :: ("element_type", tyJ cd e) :: ("num_elements", cd.eJ n) :: attrF cd a)
  | .ptr a t => .obj (("type", .str "pointer") :: ("pointee_type", tyJ cd t) :: attrF cd a)
  | .opaquePtr a => .obj (("type", .str "pointer") :: attrF cd a)
  | .structure a n => .obj (("type", .str "structure") :: ("name", .str n) :: attrF cd a)
  | .function a r ps v =>
    .obj (("type", .str "function") :: ("return_type", tyJ cd r) :: ("params", .arr (tysJ cd ps)) :: ("is_var_arg", .bool v)
      :: attrF cd a)
  | .reference _ t => .obj [("type", .str "reference"), ("reference_type", tyJ cd t)]
  | .tensor a ea t =>
    .obj (("type", .str "tensor")
      :: ("element_type", .obj (("type", .str "scalar") :: ("primitive_type", primJ t.elem) :: attrF cd ea))
      :: ("shape", cd.esJ t.shape) :: ("strides", cd.esJ t.strides) :: ("offset", cd.eJ t.offset) :: attrF cd a)
/-- the parameter loop -/
def tysJ (cd : Codec) : List Ty → List J
  | [] => []
  | t :: r => tyJ cd t :: tysJ cd r
end

/-- json_serializer.cpp:979-1141 `json_to_type`; the fuel bounds the nesting.  `Function::clone` and the base-class
constructors keep every attribute (`Ty.clone`). -/
def rdTy (cd : Codec) : Nat → J → Option Ty
  | 0, _ => none
  | f + 1, j =>
    match j.getS "type" with
    | none => none
    | some ty =>
      if ty = "scalar" then do
        let p ← (j.get "primitive_type").bind rdPrim
        let a ← rdAttr cd j
        pure (.scalar a p)
      else if ty = "array" then do
        let e ← (j.get "element_type").bind (rdTy cd f)
        let n ← cd.getE j "num_elements"
        let a ← rdAttr cd j
        pure (.array a e n)
      else if ty = "pointer" then
        match j.get "pointee_type" with
        | some p => do
          let t ← rdTy cd f p
          let a ← rdAttr cd j
          pure (.ptr a t)
        | none => do
          let a ← rdAttr cd j
          pure (.opaquePtr a)
      else if ty = "structure" then do
        let n ← j.getS "name"
        let a ← rdAttr cd j
        pure (.structure a n)
      else if ty = "function" then do
        let r ← (j.get "return_type").bind (rdTy cd f)
        let ps ← (j.getA "params").bind (J.mapO (rdTy cd f))
        let v ← j.getB "is_var_arg"
        let a ← rdAttr cd j
        pure (Ty.clone (.function a r ps v))
      else if ty = "reference" then do
        let t ← (j.get "reference_type").bind (rdTy cd f)
        pure (.reference {} t)
      else if ty = "tensor" then do
        let e ← (j.get "element_type").bind (rdTy cd f)
        let sh ← cd.getEs j "shape"
        let st ← cd.getEs j "strides"
        let off ← cd.getE j "offset"
        let a ← rdAttr cd j
        match e with
        | .scalar ea p => pure (.tensor a ea { elem := p, shape := sh, strides := st, offset := off })
        | _ => none
      else none

/-- Specification: all expressions in the attributes survive the codec. -/
def Codec.OkA (cd : Codec) (a : Attr) : Prop := cd.OkS a.storage

/-- Specification: every expression in a type survives the codec, and references carry only default attributes. -/
def Codec.OkT (cd : Codec) : Ty → Prop
  | .scalar a _ => cd.OkA a
  | .array a e n => cd.OkA a ∧ cd.OkT e ∧ cd.OkE n
  | .structure a _ => cd.OkA a
  | .opaquePtr a => cd.OkA a
  | .ptr a t => cd.OkA a ∧ cd.OkT t
  | .function a r ps _ => cd.OkA a ∧ cd.OkT r ∧ ∀ t ∈ ps, cd.OkT t
  | .reference a t => a = {} ∧ cd.OkT t
  | .tensor a ea t => cd.OkA a ∧ cd.OkA ea ∧ (∀ e ∈ t.shape, cd.OkE e) ∧ (∀ e ∈ t.strides, cd.OkE e) ∧ cd.OkE t.offset

theorem rdAttr_ok {cd : Codec} {a : Attr} (h : cd.OkA a) (l : List (String × J))
    (hl : ∀ k ∈ ["storage_type", "initializer", "alignment"], J.find l k = none) :
    rdAttr cd (.obj (l ++ attrF cd a)) = some a := by
  have hf : ∀ k, J.find l k = none → J.find (l ++ attrF cd a) k = J.find (attrF cd a) k := by
    intro k
    induction l with
    | nil => intro _; rfl
    | cons p r ih =>
      obtain ⟨a', w⟩ := p
      simp only [J.find, List.cons_append]
      split
      · intro hh; cases hh
      · rename_i hne
        exact ih (fun k hk => by
          have := hl k hk
          simp only [J.find] at this
          split at this
          · cases this
          · exact this)
  have h1 := hf "storage_type" (hl _ (by simp))
  have h2 := hf "initializer" (hl _ (by simp))
  have h3 := hf "alignment" (hl _ (by simp))
  simp only [rdAttr, J.get, J.getS, J.getN, h1, h2, h3]
  simp [attrF, J.find, rdStorage_storageJ h, J.asS, J.asN]

theorem tysJ_eq (cd : Codec) (l : List Ty) : tysJ cd l = l.map (tyJ cd) := by
  induction l with
  | nil => rfl
  | cons a r ih => simp [tysJ, ih]

theorem clone_eq (t : Ty) : t.clone = t := by
  have hl : ∀ l : List Ty, (∀ t ∈ l, t.clone = t) → Ty.cloneL l = l := by
    intro l
    induction l with
    | nil => intro _; rfl
    | cons a r ih => intro h; simp [Ty.cloneL, h a (by simp), ih fun t ht => h t (by simp [ht])]
  induction t using Ty.induct with
  | hs => rfl
  | ha a e n ih => simp [Ty.clone, ih]
  | hst => rfl
  | ho => rfl
  | hp a t ih => simp [Ty.clone, ih]
  | hf a r ps v ih1 ih2 => simp [Ty.clone, ih1, hl ps ih2]
  | hr a t ih => simp [Ty.clone, ih]
  | ht => rfl

/-- Reading a written type back. -/
theorem rdTy_tyJ {cd : Codec} (t : Ty) (h : cd.OkT t) (f : Nat) (hf : (tyJ cd t).size ≤ f) : rdTy cd f (tyJ cd t) = some t := by
  induction t using Ty.induct generalizing f with
  | hs a p =>
    rw [Codec.OkT] at h
    cases f with
    | zero => simp [tyJ, J.size] at hf
    | succ f =>
      have := rdAttr_ok (cd := cd) (a := a) h [("type", .str "scalar"), ("primitive_type", primJ p)] (by simp [J.find])
      simp only [List.cons_append, List.nil_append] at this
      simp [tyJ, rdTy, this, J.getS, J.get, J.find, J.asS]
  | ha a e n ih =>
    rw [Codec.OkT] at h
    cases f with
    | zero => simp [tyJ, J.size] at hf
    | succ f =>
      obtain ⟨h1, h2, h3⟩ := h
      have := rdAttr_ok (cd := cd) (a := a) h1 [("type", .str "array"), ("element_type", tyJ cd e), ("num_elements", cd.eJ n)]
        (by simp [J.find])
      simp only [List.cons_append, List.nil_append] at this
      have hi := ih h2 f (by simp [tyJ, J.size, J.sizeF] at hf; omega)
      simp [tyJ, rdTy, this, hi, J.getS, J.get, J.find, J.asS, Codec.getE, h3]
  | hst a n =>
    rw [Codec.OkT] at h
    cases f with
    | zero => simp [tyJ, J.size] at hf
    | succ f =>
      have := rdAttr_ok (cd := cd) (a := a) h [("type", .str "structure"), ("name", .str n)] (by simp [J.find])
      simp only [List.cons_append, List.nil_append] at this
      simp [tyJ, rdTy, this, J.getS, J.get, J.find, J.asS]
  | ho a =>
    rw [Codec.OkT] at h
    cases f with
    | zero => simp [tyJ, J.size] at hf
    | succ f =>
      have := rdAttr_ok (cd := cd) (a := a) h [("type", .str "pointer")] (by simp [J.find])
      simp only [List.cons_append, List.nil_append] at this
      have hn : J.find (attrF cd a) "pointee_type" = none := by simp [attrF, J.find]
      simp [tyJ, rdTy, this, hn, J.getS, J.get, J.find, J.asS]
  | hp a t ih =>
    rw [Codec.OkT] at h
    cases f with
    | zero => simp [tyJ, J.size] at hf
    | succ f =>
      obtain ⟨h1, h2⟩ := h
      have := rdAttr_ok (cd := cd) (a := a) h1 [("type", .str "pointer"), ("pointee_type", tyJ cd t)] (by simp [J.find])
      simp only [List.cons_append, List.nil_append] at this
      have hi := ih h2 f (by simp [tyJ, J.size, J.sizeF] at hf; omega)
      simp [tyJ, rdTy, this, hi, J.getS, J.get, J.find, J.asS]
  | hf a r ps v ih1 ih2 =>
    rw [Codec.OkT] at h
    cases f with
    | zero => simp [tyJ, J.size] at hf
    | succ f =>
      obtain ⟨h1, h2, h3⟩ := h
      have := rdAttr_ok (cd := cd) (a := a) h1
        [("type", .str "function"), ("return_type", tyJ cd r), ("params", .arr (tysJ cd ps)), ("is_var_arg", .bool v)]
        (by simp [J.find])
      simp only [List.cons_append, List.nil_append] at this
      have hi := ih1 h2 f (by simp [tyJ, J.size, J.sizeF] at hf; omega)
      have hp : J.mapO (rdTy cd f) (tysJ cd ps) = some ps := by
        rw [tysJ_eq]
        refine J.mapO_map _ _ _ fun t ht => ih2 t ht (h3 t ht) f ?_
        have hm : (tyJ cd t).size ≤ J.sizeL (tysJ cd ps) := J.size_le_sizeL (by rw [tysJ_eq]; exact List.mem_map_of_mem ht)
        simp [tyJ, J.size, J.sizeF] at hf
        omega
      simp [tyJ, rdTy, this, hi, hp, clone_eq, J.getS, J.getA, J.getB, J.get, J.find, J.asS, J.asA, J.asB]
  | hr a t ih =>
    rw [Codec.OkT] at h
    cases f with
    | zero => simp [tyJ, J.size] at hf
    | succ f =>
      obtain ⟨rfl, h2⟩ := h
      have hi := ih h2 f (by simp [tyJ, J.size, J.sizeF] at hf; omega)
      simp [tyJ, rdTy, hi, J.getS, J.get, J.find, J.asS]
  | ht a ea t =>
    rw [Codec.OkT] at h
    match f with
    | 0 => simp [tyJ, J.size] at hf
    | 1 => simp [tyJ, J.size, J.sizeF] at hf; omega
    | f + 2 =>
      obtain ⟨h1, h2, h3, h4, h5⟩ := h
      have h6 := rdAttr_ok (cd := cd) (a := a) h1
        [("type", .str "tensor"), ("element_type", .obj (("type", .str "scalar") :: ("primitive_type", primJ t.elem) :: attrF cd ea)),
          ("shape", cd.esJ t.shape), ("strides", cd.esJ t.strides), ("offset", cd.eJ t.offset)] (by simp [J.find])
      have h7 := rdAttr_ok (cd := cd) (a := ea) h2 [("type", .str "scalar"), ("primitive_type", primJ t.elem)] (by simp [J.find])
      simp only [List.cons_append, List.nil_append, Codec.esJ] at h6 h7
      have h8 := Codec.rdEs h3
      have h9 := Codec.rdEs h4
      simp [tyJ, rdTy, h6, h7, h8, h9, J.getS, J.getA, J.get, J.find, J.asS, J.asA, Codec.getE, Codec.getEs, Codec.esJ, h5]

/-- element.cpp:5-8 `DebugInfo()` -/
def noDbg : DebugInfo := ⟨"", "", 0, 0, 0, 0, false⟩

/-- json_serializer.cpp:446-454 `debug_info_to_json` -/
def dbgJ (d : DebugInfo) : J :=
  .obj [("has", .bool d.has), ("filename", .str d.filename), ("function", .str d.function), ("start_line", .num d.startLine),
    ("start_column", .num d.startColumn), ("end_line", .num d.endLine), ("end_column", .num d.endColumn)]

/-- json_serializer.cpp:1143-1169 `json_to_debug_info` -/
def rdDbg (j : J) : Option DebugInfo := do
  let has ← j.getB "has"
  if has then do
    let fi ← j.getS "filename"
    let fu ← j.getS "function"
    let sl ← j.getN "start_line"
    let sc ← j.getN "start_column"
    let el ← j.getN "end_line"
    let ec ← j.getN "end_column"
    pure ⟨fi, fu, sl, sc, el, ec, true⟩
  else pure noDbg

/-- Specification: a debug range made by a constructor: without a range every field has its default (element.cpp:5-24). -/
def DbgOk (d : DebugInfo) : Prop := d.has = false → d = noDbg

theorem rdDbg_dbgJ {d : DebugInfo} (h : DbgOk d) : rdDbg (dbgJ d) = some d := by
  obtain ⟨a, b, c, d, e, f, g⟩ := d
  cases g
  · rw [h rfl]; rfl
  · simp [rdDbg, dbgJ, J.getB, J.getS, J.getN, J.get, J.find, J.asB, J.asS, J.asN]

/-- map.h:18: the enumerators in order -/
def cats : List Cat := [.offloader, .parallelizer, .vectorizer, .none]

/-- json_serializer.cpp:457-464 `schedule_type_to_json` -/
def schedJ (s : Sched) : J :=
  .obj [("value", .str s.value), ("category", .num (cats.idxOf s.cat : Nat)),
    ("properties", .obj (s.props.map fun p => (p.1, .str p.2)))]

/-- json_serializer.cpp:1190-1193: the property loop -/
def rdProps (s : Sched) : List (String × J) → Option Sched
  | [] => some s
  | (k, v) :: r => match v.asS with
    | some x => rdProps (s.setProp k x) r
    | none => none

/-- json_serializer.cpp:1171-1196 `json_to_schedule_type`: a missing category is `None` -/
def rdSched (j : J) : Option Sched := do
  let value ← j.getS "value"
  let cat ← (match j.get "category" with
    | some c => c.asN.bind fun n => cats[n]?
    | none => some .none)
  let ps ← (j.get "properties").bind J.asO
  rdProps ⟨value, cat, []⟩ ps

/-- Specification: the property map has one entry per key. -/
def SchedOk (s : Sched) : Prop := (s.props.map (·.1)).Nodup

theorem rdProps_ok (s : Sched) (l : List (String × String)) (h : ((s.props ++ l).map (·.1)).Nodup) :
    rdProps s (l.map fun p => (p.1, .str p.2)) = some { s with props := s.props ++ l } := by
  induction l generalizing s with
  | nil => simp [rdProps]
  | cons p r ih =>
    obtain ⟨k, v⟩ := p
    have hk : s.props.any (fun p => p.1 == k) = false := by
      rw [List.any_eq_false]
      intro q hq he
      simp only [beq_iff_eq] at he
      simp only [List.map_append, List.map_cons, List.nodup_append] at h
      exact h.2.2 q.1 (List.mem_map_of_mem hq) k (by simp) he
    simp only [List.map_cons, rdProps, J.asS]
    rw [ih _ (by simpa [Sched.setProp, hk] using h)]
    simp [Sched.setProp, hk]

theorem rdSched_schedJ {s : Sched} (h : SchedOk s) : rdSched (schedJ s) = some s := by
  obtain ⟨v, c, ps⟩ := s
  have := rdProps_ok ⟨v, c, []⟩ ps (by simpa [SchedOk] using h)
  simp only [List.nil_append] at this
  have hc : (J.num (cats.idxOf c : Nat)).asN.bind (fun n => cats[n]?) = some c := by cases c <;> rfl
  simp [rdSched, schedJ, J.getS, J.get, J.find, J.asS, J.asO, hc, this]

end Docc.Ser
