import Verif.Util.AList
import Verif.Util.Dec
import Verif.Util.Json
import Verif.Capture.Base64
/-
Model of arg-capture-io/src/arg_capture_io.cpp, arg-capture-io/include/daisy_rtl/arg_capture_io.h
and rtl/src/capture.cpp.

* A path is a list of components.  The capture name may contain directory separators, so it is given as
  leading components `nameDirs` and a last component `nameBase`.
* The file system is a finite map from paths to contents; a write can fail (`disk p = false`), which the C++
  turns into an exception.
* Element ids are the decimal strings of `size_t` numbers (`std::to_string(element_id)`), modelled by the number.
-/
namespace Docc.Capture
open Docc.Base64

abbrev Path := List Str

/-- arg_capture_io.h:23-55 `ArgCapture`. -/
structure ArgCapture where
  argIdx : Int
  after : Bool
  dims : List Nat
  ptype : Int
  extFile : Option Path
  data : Option (List UInt8)
  deriving Repr, DecidableEq

/-- Key of `current_captures_[element]`: `std::pair<int32_t,bool>`. -/
abbrev Key := Int × Bool

/-- Contents of a file: raw bytes (arg_capture_io.cpp:190-243) or an index document (:255-291). -/
inductive File where
  | raw (b : List UInt8)
  | index (j : Json)

/-- rtl/src/capture.cpp:17 `ALL_INVOCATIONS`. -/
def ALL : UInt32 := 0xffffffff

/-- arg_capture_io.h:58-62 and capture.cpp:19-28. -/
structure Ctx where
  nameDirs : List Str
  nameBase : Str
  outputDir : Path
  only : UInt32
  invokes : AList Nat UInt32
  captures : AList Nat (AList Key ArgCapture)
  files : AList Path File

/-- capture.cpp:25-28 constructor on an empty disk. -/
def Ctx.new (dirs : List Str) (base : Str) (out : Path) (only : UInt32) : Ctx :=
  ⟨dirs, base, out, only, [], [], []⟩

/-- arg_capture_io.cpp:86-90 `invocation`. -/
def invocation (c : Ctx) (e : Nat) : Ctx :=
  { c with invokes := c.invokes.set e (match c.invokes.get e with | some v => v + 1 | none => 0) }

/-- arg_capture_io.cpp:92 `clear`. -/
def clear (c : Ctx) : Ctx := { c with captures := [] }

/-- capture.cpp:71-78 `enter`. -/
def enter (c : Ctx) (e : Nat) : Ctx × Bool :=
  let c' := invocation (clear c) e
  (c', c'.only == ALL || c'.invokes.get e == some c'.only)

/-- capture.cpp:157-162; `none`: `invokes_.at` throws because the region was never entered. -/
def argFile (c : Ctx) (arg : Int) (after : Bool) (e : Nat) : Option Path :=
  match c.invokes.get e with
  | none => none
  | some inv =>
    some (c.outputDir ++ c.nameDirs ++
      [c.nameBase ++ "_inv".toList ++ dec inv.toNat ++ "_arg".toList ++ decInt arg ++ "_".toList ++
        (if after then "out".toList else "in".toList) ++ "_".toList ++ dec e ++ ".bin".toList])

/-- `current_captures_[e]` (creates an empty map when absent). -/
def regionOf (c : Ctx) (e : Nat) : AList Key ArgCapture := (c.captures.get e).getD []

/-- arg_capture_io.cpp:132 `std::accumulate(dims, 1, multiplies<size_t>)`: the accumulator is a signed
32-bit `int` (type of the literal `1`), the product is computed in `size_t`. -/
def accInt (dims : List Nat) : Int :=
  dims.foldl (fun (acc : Int) (d : Nat) => (acc * (d : Int)).bmod (2 ^ 32)) 1

/-- arg_capture_io.cpp:179 `std::accumulate(dims, size_t{1}, ...)`: modulo 2^64. -/
def accSize (dims : List Nat) : Nat := dims.foldl (fun acc d => acc * d % 2 ^ 64) 1

/-- arg_capture_io.cpp:99-110 and :131-160.  `mem` is the memory behind `data`; `none`: allocation failure
(negative size) or reading outside `mem` (undefined behaviour). -/
def captureInline (c : Ctx) (arg : Int) (after : Bool) (ptype : Int) (dims : List Nat)
    (mem : List UInt8) (e : Nat) : Option Ctx :=
  let key : Key := (arg, after)
  let reg := ((regionOf c e).erase key).emplace key ⟨arg, after, dims, ptype, none, none⟩
  let sz := accInt dims
  if sz < 0 ∨ mem.length < sz.toNat then none
  else
    match reg.get key with
    | none => none
    | some cap =>
      some { c with captures := c.captures.set e
                      (reg.set key { cap with data := some (mem.take sz.toNat) }) }

/-- arg_capture_io.cpp:112-129, :162-188 and :190-243.  `disk` says whether writing a path succeeds.
`none`: undefined behaviour (reading outside `mem`); `some (c, false)`: the write failed. -/
def captureToFile (disk : Path → Bool) (c : Ctx) (arg : Int) (after : Bool) (ptype : Int)
    (dims : List Nat) (file : Path) (mem : List UInt8) (e : Nat) : Option (Ctx × Bool) :=
  let key : Key := (arg, after)
  let reg := ((regionOf c e).erase key).emplace key ⟨arg, after, dims, ptype, none, none⟩
  let total := accSize dims
  if mem.length < total then none
  else if disk file then
    match reg.get key with
    | none => none
    | some cap =>
      some ({ c with captures := c.captures.set e (reg.set key { cap with extFile := some file }),
                     files := c.files.set file (.raw (mem.take total)) }, true)
  else some ({ c with captures := c.captures.set e reg }, false)

/-- capture.cpp:93-143 `capture_1d/2d/3d` for general `dims`; `none`: exception or undefined behaviour. -/
def captureNd (disk : Path → Bool) (c : Ctx) (arg : Int) (mem : List UInt8) (ptype : Int)
    (dims : List Nat) (after : Bool) (e : Nat) : Option Ctx :=
  match argFile c arg after e with
  | none => none
  | some file =>
    match captureToFile disk c arg after ptype dims file mem e with
    | some (c', true) => some c'
    | _ => none

/-- capture.cpp:80-91 `capture_raw`.  Note that the inline branch does not return. -/
def captureRaw (disk : Path → Bool) (c : Ctx) (arg : Int) (mem : List UInt8) (size : Nat)
    (ptype : Int) (after : Bool) (e : Nat) : Option Ctx :=
  if size ≤ 32 then
    match captureInline c arg after ptype [size] mem e with
    | none => none
    | some c' => captureNd disk c' arg mem ptype [size] after e
  else captureNd disk c arg mem ptype [size] after e

/-- arg_capture_io.cpp:35-56 `ArgCapture::serialize_into` (the entry pushed to the array). -/
def ArgCapture.toJson (a : ArgCapture) : Json :=
  let j := Json.null
  let j := j.setKey "arg_idx".toList (.num a.argIdx)
  let j := j.setKey "after".toList (.bool a.after)
  let j := j.setKey "primitive_type".toList (.num a.ptype)
  let j := j.setKey "dims".toList (.arr (a.dims.map (fun (d : Nat) => Json.num d)))
  match a.data, a.extFile with
  | some d, _ => j.setKey "data".toList (.str (base64Encode d))
  | none, some f => j.setKey "ext_file".toList (.str (f.getLastD []))
  | none, none => j

/-- sequence a list of optional results -/
def allSome {α β} (f : α → Option β) : List α → Option (List β)
  | [] => some []
  | a :: r =>
    match f a, allSome f r with
    | some b, some bs => some (b :: bs)
    | _, _ => none

/-- arg_capture_io.cpp:58-80 `ArgCapture::parse_from`, the parsed capture. -/
def parseEntry (basePath : Path) (j : Json) : Option ArgCapture := do
  let idx ← (← j.getKey "arg_idx".toList).asInt
  let aft ← (← j.getKey "after".toList).asBool
  let pt ← (← j.getKey "primitive_type".toList).asInt
  let ds ← allSome Json.asNat (← (← j.getKey "dims".toList).asArr)
  match j.getKey "data".toList with
  | some d =>
    let bytes ← base64Decode (← d.asStr)
    some ⟨idx, aft, ds, pt, none, some bytes⟩
  | none =>
    match j.getKey "ext_file".toList with
    | some f => some ⟨idx, aft, ds, pt, some (basePath ++ [← f.asStr]), none⟩
    | none => some ⟨idx, aft, ds, pt, none, none⟩

/-- arg_capture_io.cpp:259-260, path of the index of one region. -/
def indexFile (c : Ctx) (e : Nat) (inv : UInt32) : Path :=
  c.outputDir ++ c.nameDirs ++
    [c.nameBase ++ "_inv".toList ++ dec inv.toNat ++ "_".toList ++ dec e ++ ".index.json".toList]

/-- The target string written to the index (arg_capture_io.cpp:273): the name with separators. -/
def fullName (c : Ctx) : Str := (c.nameDirs.flatMap (fun d => d ++ ['/'])) ++ c.nameBase

/-- arg_capture_io.cpp:271-283, the document of one region.  `caps` lists the region's captures in the
(arbitrary) iteration order of the hash map. -/
def indexJson (name : Str) (e : Nat) (inv : UInt32) (caps : List ArgCapture) : Json :=
  let j := Json.null
  let j := j.setKey "format".toList (.num 1)
  let j := j.setKey "target".toList (.str name)
  let j := j.setKey "invocation".toList (.num inv.toNat)
  let j := j.setKey "element_id".toList (.str (dec e))
  j.setKey "captures".toList (.arr (caps.map ArgCapture.toJson))

/-- The environment of a run: which writes succeed, and the (arbitrary) iteration order of the hash map
holding the captures of a region. -/
structure Env where
  disk : Path → Bool
  ord : AList Key ArgCapture → List ArgCapture
  ord_perm : ∀ m, (ord m).Perm (m.map (·.2))

/-- arg_capture_io.cpp:255-291 `write_index`; `none`: `invokes_.at` throws.  Simplification: the regions
are visited in list order (they write different files), opening the index file always succeeds. -/
def writeIndexGo (env : Env) (c : Ctx) : AList Nat (AList Key ArgCapture) → AList Path File → Option (AList Path File)
  | [], fs => some fs
  | (e, caps) :: r, fs =>
    match c.invokes.get e with
    | none => none
    | some inv =>
      writeIndexGo env c r (fs.set (indexFile c e inv)
        (.index (indexJson (fullName c) e inv (env.ord caps))))

/-- capture.cpp:150-155 `exit` (the index is only written when there are captures, and `write_index`
of no captures writes nothing, so one function covers both). -/
def exit (env : Env) (c : Ctx) : Option Ctx :=
  match writeIndexGo env c c.captures c.files with
  | none => none
  | some fs => some { c with files := fs }

/-- Result of `from_index`: target name, region, invocation and captures. -/
structure Loaded where
  target : Str
  element : Str
  invocation : Nat
  captures : AList Key ArgCapture

/-- arg_capture_io.h:110-141 `from_index`; `none`: exception (missing file, wrong format, wrong types). -/
def fromIndex (files : AList Path File) (p : Path) : Option Loaded :=
  match files.get p with
  | some (.index j) => do
    let fmt ← (← j.getKey "format".toList).asNat
    if fmt ≠ 1 then none
    else
      let name ← (← j.getKey "target".toList).asStr
      let inv ← (← j.getKey "invocation".toList).asNat
      let el ← (← j.getKey "element_id".toList).asStr
      let es ← (← j.getKey "captures".toList).asArr
      let caps ← allSome (parseEntry p.dropLast) es
      some ⟨name, el, inv, caps.foldl (fun m a => m.emplace (a.argIdx, a.after) a) []⟩
  | _ => none

/-- API calls on one capture context. -/
inductive Op where
  | enter (e : Nat)
  | raw (arg : Int) (mem : List UInt8) (size : Nat) (ptype : Int) (after : Bool) (e : Nat)
  | nd (arg : Int) (mem : List UInt8) (ptype : Int) (dims : List Nat) (after : Bool) (e : Nat)
  | exit

/-- One API call; `none`: exception or undefined behaviour ends the history. -/
def step (env : Env) (c : Ctx) : Op → Option Ctx
  | .enter e => some (enter c e).1
  | .raw a m s t af e => captureRaw env.disk c a m s t af e
  | .nd a m t d af e => captureNd env.disk c a m t d af e
  | .exit => exit env c

/-- A history of API calls. -/
def run (env : Env) : Ctx → List Op → Option Ctx
  | c, [] => some c
  | c, op :: r => match step env c op with | some c' => run env c' r | none => none

/-- capture.cpp:169-197 `__daisy_capture_init`: value of `invocation_to_capture_` for the environment
variable `__DAISY_CAPTURE_STRATEGY_DEFAULT`; `none` is the null context. -/
def strategy (env : Option Str) : Option UInt32 :=
  if env = some "all".toList then some ALL
  else if env = some "never".toList then none
  else some 0

/-- capture.cpp:199-205 `__daisy_capture_enter`. -/
def captureEnter (c : Option Ctx) (e : Nat) : Option Ctx × Bool :=
  match c with
  | some c => let r := enter c e; (some r.1, r.2)
  | none => (none, false)

end Docc.Capture
