import Verif.Ser.Types
import Verif.Capture.Base64Props

/-
Serialization of library nodes (sdfg/src/data_flow/library_nodes, registered in json_serializer.cpp:1278-1480).
-/
namespace Docc.Ser
open Docc.Sym Docc.Types Docc.Builder Docc.Opt

/-- cmath_node.h:21-96 `CMathFunction`: the enumerators, which are also the stems of cmath_node.h (`cmath_function_to_stem`) -/
def stems : List String :=
  ["sin", "cos", "tan", "asin", "acos", "atan", "atan2", "sinh", "cosh", "tanh", "asinh", "acosh", "atanh", "exp", "exp2", "exp10",
   "expm1", "log", "log10", "log2", "log1p", "pow", "sqrt", "cbrt", "hypot", "erf", "erfc", "tgamma", "lgamma", "fabs", "ceil",
   "floor", "trunc", "round", "lround", "llround", "roundeven", "nearbyint", "rint", "lrint", "llrint", "fmod", "remainder",
   "frexp", "ldexp", "modf", "scalbn", "scalbln", "ilogb", "logb", "nextafter", "nexttoward", "copysign", "fmax", "fmin", "fdim",
   "fma"]

/-- cmath_node.cpp:13-190 `string_to_cmath_function`: the table has, for every function, its stem and the stem with suffix `f` and
`l`; other names throw.  (Functions are represented by their stems.) -/
def cmathOf (n : String) : Option String := stems.find? fun s => n == s || n == s ++ "f" || n == s ++ "l"

/-- cmath_node.h:360-380 `get_cmath_intrinsic_name`; `none` is the exception for non-floating-point types -/
def cmathName (fn : String) : Prim → Option String
  | .float | .half | .bfloat => some (fn ++ "f")
  | .double => some fn
  | .x86_fp80 | .fp128 | .ppc_fp128 => some (fn ++ "l")
  | _ => none

/-- load_const_node.h:42-90: the constant's bytes or a file -/
inductive Src where
  | mem (bytes : List UInt8)
  | file (name : String) (size : Nat)
  deriving Repr, DecidableEq, Inhabited

/-- The library nodes of the core library with the members their serializers handle.  Enumerations (precision, layout,
transposition, tasklet code) are kept as the integers that are written for them. -/
inductive Lib where
  | barrier
  | metadata (outs ins : List String) (md : List (String × String))
  | call (callee : String) (outs ins : List String)
  | invoke (callee : String) (outs ins : List String)
  | loadConst (t : Ty) (s : Src)
  | alloca (size : Expr)
  | malloc (size : Expr)
  | calloc (num size : Expr)
  | memcpy (count : Expr)
  | memmove (count : Expr)
  | memset (value num : Expr)
  | free
  | trap
  | unreachable
  | dot (precision : Nat) (n incx incy : Expr)
  | gemm (precision layout transA transB : Nat) (m n k lda ldb ldc : Expr)
  | cmath (fn : String) (p : Prim)
  | conv (shape kernel strides pads dilations : List Expr) (outChannels group : Expr)
  | matmul (shapeA shapeB stridesA stridesB : List Expr) (offsetA offsetB : Expr)
  | transpose (shape : List Expr) (perm : List Int)
  | broadcast (inShape outShape : List Expr)
  | elementwise (code : String) (shape : List Expr)
  | reduce (code : String) (shape : List Expr) (axes : List Int) (keepdims : Bool)
  | tensorTasklet (output : String) (ins : List String) (code : Nat) (shape : List Expr)
  | tensorCMath (output : String) (ins : List String) (fn : String) (shape : List Expr)
  | cast (shape : List Expr) (p : Prim)
  deriving Inhabited

/-- the codes of the elementwise nodes (json_serializer.cpp:1373-1445) -/
def elementwiseCodes : List String :=
  ["ml::Abs", "ml::Add", "ml::Div", "ml::Elu", "ml::Exp", "ml::Erf", "ml::HardSigmoid", "ml::LeakyReLU", "ml::Mul", "ml::Pow", "ml::ReLU",
   "ml::Sigmoid", "ml::Sqrt", "ml::Sub", "ml::Tanh", "ml::Minimum", "ml::Maximum", "ml::Fill"]

/-- the codes of the reduction nodes (json_serializer.cpp:1457-1479) -/
def reduceCodes : List String := ["ml::Sum", "ml::Max", "ml::Min", "ml::Softmax", "ml::Mean", "ml::Std"]

/-- `LibraryNode::code()` -/
def Lib.code : Lib → String
  | .barrier => "barrier_local"
  | .metadata .. => "Metadata"
  | .call .. => "Call"
  | .invoke .. => "Invoke"
  | .loadConst .. => "LoadConst"
  | .alloca _ => "Alloca"
  | .malloc _ => "Malloc"
  | .calloc .. => "Calloc"
  | .memcpy _ => "Memcpy"
  | .memmove _ => "Memmove"
  | .memset .. => "Memset"
  | .free => "Free"
  | .trap => "Trap"
  | .unreachable => "Unreachable"
  | .dot .. => "DOT"
  | .gemm .. => "GEMM"
  | .cmath .. => "CMath"
  | .conv .. => "ml::Conv"
  | .matmul .. => "ml::MatMul"
  | .transpose .. => "ml::Transpose"
  | .broadcast .. => "ml::Broadcast"
  | .elementwise c _ => c
  | .reduce c .. => c
  | .tensorTasklet .. => "ml::Tasklet"
  | .tensorCMath .. => "ml::CMath"
  | .cast .. => "ml::Cast"

/-- json_serializer.cpp:1278-1480 `register_default_serializers`: the codes with a serializer.  `ml::Cast` is not among them. -/
def registered (c : String) : Bool :=
  ["Alloca", "Calloc", "Free", "Malloc", "Memcpy", "Memmove", "Memset", "Trap", "Unreachable", "Metadata", "barrier_local", "Call",
   "Invoke", "LoadConst", "CMath", "Intrinsic", "DOT", "GEMM", "ml::Broadcast", "ml::Conv", "ml::Transpose", "ml::MatMul", "ml::Tasklet",
   "ml::CMath"].contains c || elementwiseCodes.contains c || reduceCodes.contains c

/-- The exceptions of writing a library node: no serializer (json_serializer.cpp:134-138), or a C math node whose type has no
function name (cmath_node.cpp:296). -/
def Lib.writable : Lib → Bool
  | .cmath f p => (cmathName f p).isSome
  | l => registered l.code

/-- a vector of strings -/
def ssJ (l : List String) : J := .arr (l.map J.str)
/-- a vector of integers -/
def isJ (l : List Int) : J := .arr (l.map J.num)

/-- load_const_node.cpp:57-68 `const_source_to_json` -/
def srcJ : Src → J
  | .mem b => .obj [("source_type", .str "in_memory"), ("data", .str (String.ofList (Base64.base64Encode b)))]
  | .file n s => .obj [("source_type", .str "raw_file"), ("filename", .str n), ("size", .num s)]

/-- load_const_node.cpp:70-85 `json_to_const_source` -/
def rdSrc (j : J) : Option Src := do
  let ty ← j.getS "source_type"
  if ty = "in_memory" then do
    let d ← j.getS "data"
    (Base64.base64Decode d.toList).map .mem
  else if ty = "raw_file" then do
    let n ← j.getS "filename"
    let s ← j.getN "size"
    pure (.file n s)
  else none

/-- The fields each `LibraryNodeSerializer::serialize` adds to the code: metadata_node.cpp:39-50, call_node.cpp:75-85,
invoke_node.cpp:77-87, load_const_node.cpp:45-55, stdlib/*.cpp, dot_node.cpp:187-199, gemm_node.cpp:387-405, cmath_node.cpp:290-301,
conv_node.cpp:552-589, matmul_node.cpp:546-578, transpose_node.cpp:186-205, broadcast_node.h:47-65, elementwise_node.h:164-177 and
303-316, reduce_node.h:196-212, tasklet_node.cpp:297-319, elementwise_ops/cmath_node.cpp:307-329, cast_node.cpp:79-94. -/
def Lib.fields (cd : Codec) : Lib → List (String × J)
  | .barrier => []
  | .metadata o i md => [("outputs", ssJ o), ("inputs", ssJ i), ("side_effect", .bool false),
      ("metadata", .obj (md.map fun p => (p.1, .str p.2)))]
  | .call c o i => [("callee_name", .str c), ("outputs", ssJ o), ("inputs", ssJ i)]
  | .invoke c o i => [("callee_name", .str c), ("outputs", ssJ o), ("inputs", ssJ i)]
  | .loadConst t s => [("load_type", tyJ cd t), ("source", srcJ s)]
  | .alloca e => [("size", cd.eJ e)]
  | .malloc e => [("size", cd.eJ e)]
  | .calloc n s => [("size", cd.eJ s), ("num", cd.eJ n)]
  | .memcpy e => [("count", cd.eJ e)]
  | .memmove e => [("count", cd.eJ e)]
  | .memset v n => [("value", cd.eJ v), ("num", cd.eJ n)]
  | .free => []
  | .trap => []
  | .unreachable => []
  | .dot p n x y => [("precision", .num p), ("n", cd.eJ n), ("incx", cd.eJ x), ("incy", cd.eJ y)]
  | .gemm p l ta tb m n k lda ldb ldc =>
    [("precision", .num p), ("layout", .num l), ("trans_a", .num ta), ("trans_b", .num tb), ("m", cd.eJ m), ("n", cd.eJ n),
     ("k", cd.eJ k), ("lda", cd.eJ lda), ("ldb", cd.eJ ldb), ("ldc", cd.eJ ldc)]
  | .cmath f p => [("name", .str ((cmathName f p).getD "")), ("function_stem", .str f), ("primitive_type", primJ p)]
  | .conv sh ks st pa di oc g =>
    [("shape", cd.esJ sh), ("kernel_shape", cd.esJ ks), ("strides", cd.esJ st), ("pads", cd.esJ pa), ("dilations", cd.esJ di),
     ("output_channels", cd.eJ oc), ("group", cd.eJ g)]
  | .matmul a b sa sb oa ob =>
    [("shape_a", cd.esJ a), ("shape_b", cd.esJ b), ("strides_a", cd.esJ sa), ("strides_b", cd.esJ sb), ("offset_a", cd.eJ oa),
     ("offset_b", cd.eJ ob)]
  | .transpose s p => [("shape", cd.esJ s), ("perm", isJ p)]
  | .broadcast i o => [("input_shape", cd.esJ i), ("output_shape", cd.esJ o)]
  | .elementwise _ s => [("shape", cd.esJ s)]
  | .reduce _ s a k => [("shape", cd.esJ s), ("axes", isJ a), ("keepdims", .bool k)]
  | .tensorTasklet o i c s => [("output", .str o), ("inputs", ssJ i), ("tasklet_code", .num c), ("shape", cd.esJ s)]
  | .tensorCMath o i f s => [("output", .str o), ("inputs", ssJ i), ("cmath_function", .str f), ("shape", cd.esJ s)]
  | .cast s p => [("shape", cd.esJ s), ("target_type", primJ p)]

/-- the object a library serializer returns -/
def Lib.toJ (cd : Codec) (l : Lib) : J := .obj (("code", .str l.code) :: l.fields cd)

/-- invoke_node.cpp:6-28, the constructor: one more output -/
def mkInvoke (callee : String) (outs ins : List String) : Lib := .invoke callee (outs ++ ["_unwind"]) ins

/-- matmul_node.cpp:56-70: default strides -/
def rowMajor : List Expr → List Expr
  | [] => []
  | _ :: r => match rowMajor r, r with
    | s :: t, d :: _ => (.mul [s, d]) :: s :: t
    | _, _ => [.int 1]

/-- matmul_node.cpp:25-75, the constructor -/
def mkMatmul (a b sa sb : List Expr) (oa ob : Expr) : Option Lib :=
  if a.length < 2 || b.length < 2 then none
  else some (.matmul a b (if sa.isEmpty then rowMajor a else sa) (if sb.isEmpty then rowMajor b else sb) oa ob)

/-- read an optional list of expressions -/
def Codec.getEs? (cd : Codec) (j : J) (k : String) : Option (List Expr) := if j.has k then cd.getEs j k else some []
/-- read an optional expression with a default -/
def Codec.getE? (cd : Codec) (j : J) (k : String) (d : Expr) : Option Expr := if j.has k then cd.getE j k else some d

/-- the map of a metadata node: `get<std::unordered_map<std::string, std::string>>()` -/
def rdMap (j : J) : Option (List (String × String)) :=
  j.asO.bind (J.mapO fun p => p.2.asS.map fun v => (p.1, v))

/-- cmath_node.cpp:321-342: the function and type of a C math node; without the new fields they are derived from the name -/
def rdCMath (j : J) : Option (String × Prim) :=
  if j.has "function_stem" && j.has "primitive_type" then do
    let st ← j.getS "function_stem"
    let fn ← cmathOf st
    let p ← (j.get "primitive_type").bind rdPrim
    pure (fn, p)
  else do
    let n ← j.getS "name"
    let fn ← cmathOf n
    pure (fn, if n.toList.getLast? = some 'f' then .float else if n.toList.getLast? = some 'l' then .x86_fp80 else .double)

/-- The `deserialize` of the registered serializers (cited at `Lib.fields`), chosen by code (json_serializer.cpp:636-643).  The debug
range is read by the caller `rdLibDbg`; the fuel is for `json_to_type`.  The softmax constructor rejects `keepdims`
(softmax_node.cpp:30-33). -/
def rdLib (cd : Codec) (fuel : Nat) (j : J) : Option Lib := do
  let c ← j.getS "code"
  if c = "barrier_local" then pure .barrier
  else if c = "Metadata" then do
    let o ← j.getSs "outputs"
    let i ← j.getSs "inputs"
    let md ← (j.get "metadata").bind rdMap
    pure (.metadata o i md)
  else if c = "Call" then do
    let n ← j.getS "callee_name"
    let o ← j.getSs "outputs"
    let i ← j.getSs "inputs"
    pure (.call n o i)
  else if c = "Invoke" then do
    let n ← j.getS "callee_name"
    let o ← j.getSs "outputs"
    let i ← j.getSs "inputs"
    pure (mkInvoke n o i)
  else if c = "LoadConst" then do
    let t ← (j.get "load_type").bind (rdTy cd fuel)
    let s ← (j.get "source").bind rdSrc
    pure (.loadConst t s)
  else if c = "Alloca" then do
    let e ← cd.getE j "size"
    pure (.alloca e)
  else if c = "Malloc" then do
    let e ← cd.getE j "size"
    pure (.malloc e)
  else if c = "Calloc" then do
    let s ← cd.getE j "size"
    let n ← cd.getE j "num"
    pure (.calloc n s)
  else if c = "Memcpy" then do
    let e ← cd.getE j "count"
    pure (.memcpy e)
  else if c = "Memmove" then do
    let e ← cd.getE j "count"
    pure (.memmove e)
  else if c = "Memset" then do
    let v ← cd.getE j "value"
    let n ← cd.getE j "num"
    pure (.memset v n)
  else if c = "Free" then pure .free
  else if c = "Trap" then pure .trap
  else if c = "Unreachable" then pure .unreachable
  else if c = "DOT" then do
    let p ← j.getN "precision"
    let n ← cd.getE j "n"
    let x ← cd.getE j "incx"
    let y ← cd.getE j "incy"
    pure (.dot p n x y)
  else if c = "GEMM" then do
    let p ← j.getN "precision"
    let l ← j.getN "layout"
    let ta ← j.getN "trans_a"
    let tb ← j.getN "trans_b"
    let m ← cd.getE j "m"
    let n ← cd.getE j "n"
    let k ← cd.getE j "k"
    let lda ← cd.getE j "lda"
    let ldb ← cd.getE j "ldb"
    let ldc ← cd.getE j "ldc"
    pure (.gemm p l ta tb m n k lda ldb ldc)
  else if c = "CMath" || c = "Intrinsic" then do
    let r ← rdCMath j
    pure (.cmath r.1 r.2)
  else if c = "ml::Conv" then do
    let sh ← cd.getEs? j "shape"
    let ks ← cd.getEs j "kernel_shape"
    let st ← cd.getEs? j "strides"
    let pa ← cd.getEs? j "pads"
    let di ← cd.getEs? j "dilations"
    let oc ← cd.getE? j "output_channels" (.int 1)
    let g ← cd.getE? j "group" (.int 1)
    pure (.conv sh ks st pa di oc g)
  else if c = "ml::MatMul" then do
    let a ← cd.getEs j "shape_a"
    let b ← cd.getEs j "shape_b"
    let sa ← cd.getEs? j "strides_a"
    let sb ← cd.getEs? j "strides_b"
    let oa ← cd.getE? j "offset_a" (.int 0)
    let ob ← cd.getE? j "offset_b" (.int 0)
    mkMatmul a b sa sb oa ob
  else if c = "ml::Transpose" then do
    let s ← cd.getEs? j "shape"
    let p ← j.getIs "perm"
    pure (.transpose s p)
  else if c = "ml::Broadcast" then do
    let i ← cd.getEs j "input_shape"
    let o ← cd.getEs j "output_shape"
    pure (.broadcast i o)
  else if c = "ml::Tasklet" then do
    let o ← j.getS "output"
    let i ← j.getSs "inputs"
    let tc ← j.getN "tasklet_code"
    let s ← cd.getEs j "shape"
    pure (.tensorTasklet o i tc s)
  else if c = "ml::CMath" then do
    let o ← j.getS "output"
    let i ← j.getSs "inputs"
    let f ← j.getS "cmath_function"
    let f ← cmathOf f
    let s ← cd.getEs j "shape"
    pure (.tensorCMath o i f s)
  else if elementwiseCodes.contains c then do
    let s ← cd.getEs j "shape"
    pure (.elementwise c s)
  else if reduceCodes.contains c then do
    let s ← cd.getEs j "shape"
    let a ← j.getIs "axes"
    let k ← j.getB "keepdims"
    if c = "ml::Softmax" && k then none else pure (.reduce c s a k)
  else none

/-- The debug range given to the restored node: every serializer reads it, except that of the barrier, which passes `DebugInfo()`
(barrier_local_node.cpp:50). -/
def rdLibDbg (l : Lib) (j : J) : Option DebugInfo :=
  match l with
  | .barrier => some noDbg
  | _ => (j.get "debug_info").bind rdDbg

/-- Specification: the library nodes that survive.  Their expressions and types survive the codec; they are not invoke or cast
nodes; the enumerations are genuine (the function of a C math node is one of the enumerators, the code of an elementwise or
reduction node belongs to such a node); a constant is small enough for base64; a matrix product has its constructor's invariant. -/
def Codec.OkL (cd : Codec) : Lib → Prop
  | .barrier | .free | .trap | .unreachable | .call .. => True
  | .metadata .. => True
  | .invoke .. => False
  | .loadConst t s => cd.OkT t ∧ ∀ b, s = .mem b → 4 * ((b.length + 2) / 3) < 2 ^ 31
  | .alloca e | .malloc e | .memcpy e | .memmove e => cd.OkE e
  | .calloc a b | .memset a b => cd.OkE a ∧ cd.OkE b
  | .dot _ n x y => cd.OkE n ∧ cd.OkE x ∧ cd.OkE y
  | .gemm _ _ _ _ m n k a b c => cd.OkE m ∧ cd.OkE n ∧ cd.OkE k ∧ cd.OkE a ∧ cd.OkE b ∧ cd.OkE c
  | .cmath f p => f ∈ stems ∧ p.isFloatingPoint
  | .conv a b c d e x y => (∀ l ∈ [a, b, c, d, e], ∀ x ∈ l, cd.OkE x) ∧ cd.OkE x ∧ cd.OkE y
  | .matmul a b c d x y => (∀ l ∈ [a, b, c, d], ∀ x ∈ l, cd.OkE x) ∧ cd.OkE x ∧ cd.OkE y ∧ 2 ≤ a.length ∧ 2 ≤ b.length ∧ c ≠ [] ∧ d ≠ []
  | .transpose s _ => ∀ e ∈ s, cd.OkE e
  | .broadcast i o => (∀ e ∈ i, cd.OkE e) ∧ ∀ e ∈ o, cd.OkE e
  | .elementwise c s => c ∈ elementwiseCodes ∧ ∀ e ∈ s, cd.OkE e
  | .reduce c s _ k => c ∈ reduceCodes ∧ (∀ e ∈ s, cd.OkE e) ∧ ¬(c = "ml::Softmax" ∧ k = true)
  | .tensorTasklet _ _ _ s => ∀ e ∈ s, cd.OkE e
  | .tensorCMath _ _ f s => f ∈ stems ∧ ∀ e ∈ s, cd.OkE e
  | .cast .. => False

theorem cmathOf_stem : ∀ f ∈ stems, cmathOf f = some f := by decide

@[simp] theorem mapO_str (l : List String) : J.mapO J.asS (l.map J.str) = some l := J.mapO_map _ _ _ fun _ _ => rfl
@[simp] theorem mapO_num (l : List Int) : J.mapO J.asI (l.map J.num) = some l := J.mapO_map _ _ _ fun _ _ => rfl

theorem rdMap_ok (l : List (String × String)) : rdMap (.obj (l.map fun p => (p.1, J.str p.2))) = some l := by
  simp only [rdMap, J.asO, Option.bind_some]
  exact J.mapO_map _ (fun p : String × String => (p.1, J.str p.2)) l fun p _ => rfl

theorem rdSrc_ok (s : Src) (h : ∀ b, s = .mem b → 4 * ((b.length + 2) / 3) < 2 ^ 31) : rdSrc (srcJ s) = some s := by
  cases s with
  | mem b =>
    have := Base64.base64_round_trip b (h b rfl)
    simp [rdSrc, srcJ, J.getS, J.get, J.find, J.asS, String.toList_ofList, this]
  | file n s => simp [rdSrc, srcJ, J.getS, J.getN, J.get, J.find, J.asS, J.asN]

theorem J.find_append (a b : List (String × J)) (k : String) :
    J.find (a ++ b) k = match J.find a k with | some v => some v | none => J.find b k := by
  induction a with
  | nil => rfl
  | cons p r ih =>
    obtain ⟨k', v⟩ := p
    simp only [List.cons_append, J.find]
    split
    · rfl
    · exact ih


set_option maxHeartbeats 1000000 in
/-- A written library node, patched into the object of its dataflow node, is read back. -/
theorem rdLib_toJ {cd : Codec} (l : Lib) (h : cd.OkL l) (base : List (String × J)) (f : Nat) (hf : (l.toJ cd).size ≤ f) :
    rdLib cd f ((J.obj base).patch (l.toJ cd)) = some l := by
  cases l with
  | loadConst t s =>
    have h1 := rdTy_tyJ t h.1 f (by simp [Lib.toJ, Lib.fields, J.size, J.sizeF] at hf; omega)
    have h2 := rdSrc_ok s h.2
    simp [rdLib, Lib.toJ, Lib.fields, Lib.code, J.patch, J.getS, J.get, J.find, J.asS, h1, h2]
  | invoke => exact h.elim
  | cast => exact h.elim
  | cmath fn p =>
    have h1 := cmathOf_stem fn h.1
    simp [rdLib, rdCMath, Lib.toJ, Lib.fields, Lib.code, J.patch, J.getS, J.get, J.has, J.find, J.asS, h1]
  | tensorCMath o i fn s =>
    have h1 := cmathOf_stem fn h.1
    have h2 := Codec.rdEs h.2
    simp [rdLib, Lib.toJ, Lib.fields, Lib.code, J.patch, J.getS, J.getSs, J.getA, J.get, J.find, J.asS, J.asA, ssJ, h1, h2,
      Codec.getEs, Codec.esJ]
  | elementwise c s =>
    have h2 := Codec.rdEs h.2
    have h1 : c ∈ elementwiseCodes := h.1
    have h3 : elementwiseCodes.contains c = true := by simpa using h1
    have hne : ∀ x, elementwiseCodes.contains x = false → c ≠ x := by
      intro x hx e; subst e; rw [h3] at hx; cases hx
    have e1 := hne "barrier_local" (by decide)
    have e2 := hne "Metadata" (by decide)
    have e3 := hne "Call" (by decide)
    have e4 := hne "Invoke" (by decide)
    have e5 := hne "LoadConst" (by decide)
    have e6 := hne "Alloca" (by decide)
    have e7 := hne "Malloc" (by decide)
    have e8 := hne "Calloc" (by decide)
    have e9 := hne "Memcpy" (by decide)
    have e10 := hne "Memmove" (by decide)
    have e11 := hne "Memset" (by decide)
    have e12 := hne "Free" (by decide)
    have e13 := hne "Trap" (by decide)
    have e14 := hne "Unreachable" (by decide)
    have e15 := hne "DOT" (by decide)
    have e16 := hne "GEMM" (by decide)
    have e17 := hne "CMath" (by decide)
    have e18 := hne "Intrinsic" (by decide)
    have e19 := hne "ml::Conv" (by decide)
    have e20 := hne "ml::MatMul" (by decide)
    have e21 := hne "ml::Transpose" (by decide)
    have e22 := hne "ml::Broadcast" (by decide)
    have e23 := hne "ml::Tasklet" (by decide)
    have e24 := hne "ml::CMath" (by decide)
    simp [rdLib, Lib.toJ, Lib.fields, Lib.code, J.patch, J.getS, J.getA, J.get, J.find, J.asS, J.asA, h1, h2,
      Codec.getEs, Codec.esJ, *]
  | reduce c s a k =>
    have h2 := Codec.rdEs h.2.1
    have h1 : c ∈ reduceCodes := h.1
    have h3 : reduceCodes.contains c = true := by simpa using h1
    have h4 : ¬(c = "ml::Softmax" ∧ k = true) := h.2.2
    have hne : ∀ x, reduceCodes.contains x = false → c ≠ x := by
      intro x hx e; subst e; rw [h3] at hx; cases hx
    have e1 := hne "barrier_local" (by decide)
    have e2 := hne "Metadata" (by decide)
    have e3 := hne "Call" (by decide)
    have e4 := hne "Invoke" (by decide)
    have e5 := hne "LoadConst" (by decide)
    have e6 := hne "Alloca" (by decide)
    have e7 := hne "Malloc" (by decide)
    have e8 := hne "Calloc" (by decide)
    have e9 := hne "Memcpy" (by decide)
    have e10 := hne "Memmove" (by decide)
    have e11 := hne "Memset" (by decide)
    have e12 := hne "Free" (by decide)
    have e13 := hne "Trap" (by decide)
    have e14 := hne "Unreachable" (by decide)
    have e15 := hne "DOT" (by decide)
    have e16 := hne "GEMM" (by decide)
    have e17 := hne "CMath" (by decide)
    have e18 := hne "Intrinsic" (by decide)
    have e19 := hne "ml::Conv" (by decide)
    have e20 := hne "ml::MatMul" (by decide)
    have e21 := hne "ml::Transpose" (by decide)
    have e22 := hne "ml::Broadcast" (by decide)
    have e23 := hne "ml::Tasklet" (by decide)
    have e24 := hne "ml::CMath" (by decide)
    have e25 : c ∉ elementwiseCodes := by
      intro hc
      have : ∀ x ∈ elementwiseCodes, x ∉ reduceCodes := by decide
      exact this c hc h1
    have e26 : c = "ml::Softmax" → ¬k = true := fun e hk => h4 ⟨e, hk⟩
    simp [rdLib, Lib.toJ, Lib.fields, Lib.code, J.patch, J.getS, J.getA, J.getIs, J.getB, J.get, J.find, J.asS, J.asA, J.asB,
      Codec.getEs, Codec.esJ, isJ, h1, h2, e1, e2, e3, e4, e5, e6, e7, e8, e9, e10, e11, e12, e13, e14, e15, e16, e17, e18, e19, e20,
      e21, e22, e23, e24, e25]
    simpa using e26
  | metadata o i md =>
    have h1 := rdMap_ok md
    simp [rdLib, Lib.toJ, Lib.fields, Lib.code, J.patch, J.getS, J.getSs, J.getA, J.get, J.find, J.asS, J.asA, ssJ, h1]
  | conv a b c d e x y =>
    obtain ⟨h1, h2, h3⟩ := h
    have g1 := Codec.rdEs (h1 a (by simp))
    have g2 := Codec.rdEs (h1 b (by simp))
    have g3 := Codec.rdEs (h1 c (by simp))
    have g4 := Codec.rdEs (h1 d (by simp))
    have g5 := Codec.rdEs (h1 e (by simp))
    simp [rdLib, Lib.toJ, Lib.fields, Lib.code, J.patch, J.getS, J.getA, J.get, J.has, J.find, J.asS, J.asA, *,
      Codec.getEs, Codec.getE, Codec.getEs?, Codec.getE?, Codec.esJ]
  | matmul a b c d x y =>
    obtain ⟨h1, h2, h3, h4, h5, h6, h7⟩ := h
    have g1 := Codec.rdEs (h1 a (by simp))
    have g2 := Codec.rdEs (h1 b (by simp))
    have g3 := Codec.rdEs (h1 c (by simp))
    have g4 := Codec.rdEs (h1 d (by simp))
    have g5 : ¬(a.length < 2 ∨ b.length < 2) := by omega
    simp [rdLib, Lib.toJ, Lib.fields, Lib.code, J.patch, J.getS, J.getA, J.get, J.has, J.find, J.asS, J.asA, g1, g2, g3, g4, h2, h3,
      Codec.getEs, Codec.getE, Codec.getEs?, Codec.getE?, Codec.esJ, mkMatmul, g5, h6, h7]
  | transpose s p =>
    have g1 := Codec.rdEs h
    simp [rdLib, Lib.toJ, Lib.fields, Lib.code, J.patch, J.getS, J.getIs, J.getA, J.get, J.has, J.find, J.asS, J.asA, g1, isJ,
      Codec.getEs, Codec.getEs?, Codec.esJ]
  | broadcast i o =>
    have g1 := Codec.rdEs h.1
    have g2 := Codec.rdEs h.2
    simp [rdLib, Lib.toJ, Lib.fields, Lib.code, J.patch, J.getS, J.getA, J.get, J.find, J.asS, J.asA, g1, g2, Codec.getEs, Codec.esJ]
  | tensorTasklet o i c s =>
    have g1 := Codec.rdEs h
    simp [rdLib, Lib.toJ, Lib.fields, Lib.code, J.patch, J.getS, J.getN, J.asN, J.getSs, J.getA, J.get, J.find, J.asS, J.asA, ssJ, g1, Codec.getEs, Codec.esJ]
  | barrier | free | trap | unreachable => rfl
  | call c o i => simp [rdLib, Lib.toJ, Lib.fields, Lib.code, J.patch, J.getS, J.getN, J.asN, J.getSs, J.getA, J.get, J.find, J.asS, J.asA, ssJ, Codec.getE]
  | alloca e | malloc e | memcpy e | memmove e =>
    have g : cd.OkE e := h
    simp [rdLib, Lib.toJ, Lib.fields, Lib.code, J.patch, J.getS, J.getN, J.asN, J.getSs, J.getA, J.get, J.find, J.asS, J.asA, ssJ, Codec.getE, g]
  | calloc a b | memset a b =>
    have g1 : cd.OkE a := h.1
    have g2 : cd.OkE b := h.2
    simp [rdLib, Lib.toJ, Lib.fields, Lib.code, J.patch, J.getS, J.getN, J.asN, J.getSs, J.getA, J.get, J.find, J.asS, J.asA, ssJ, Codec.getE, g1, g2]
  | dot p a b c =>
    have g1 : cd.OkE a := h.1
    have g2 : cd.OkE b := h.2.1
    have g3 : cd.OkE c := h.2.2
    simp [rdLib, Lib.toJ, Lib.fields, Lib.code, J.patch, J.getS, J.getN, J.asN, J.getSs, J.getA, J.get, J.find, J.asS, J.asA, ssJ, Codec.getE, g1, g2, g3]
  | gemm p l ta tb m n k a b c =>
    obtain ⟨g1, g2, g3, g4, g5, g6⟩ := h
    simp [rdLib, Lib.toJ, Lib.fields, Lib.code, J.patch, J.getS, J.getN, J.asN, J.getSs, J.getA, J.get, J.find, J.asS, J.asA, ssJ, Codec.getE, g1, g2, g3, g4, g5, g6]

theorem OkL.writable {cd : Codec} {l : Lib} (h : cd.OkL l) : l.writable = true := by
  cases l with
  | cmath f p =>
    have := h.2
    cases p <;> first | rfl | simp [Prim.isFloatingPoint] at this
  | elementwise c s =>
    have h1 : c ∈ elementwiseCodes := h.1
    simp [Lib.writable, registered, Lib.code, h1]
  | reduce c s a k =>
    have h1 : c ∈ reduceCodes := h.1
    simp [Lib.writable, registered, Lib.code, h1]
  | invoke => exact h.elim
  | cast => exact h.elim
  | _ => rfl

end Docc.Ser
