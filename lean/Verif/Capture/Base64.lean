/-
Model of arg-capture-io/src/base64.cpp.
A C++ `unsigned char` is `UInt8`; a `std::string` is `List Char`.
-/
namespace Docc.Base64

/-- arg-capture-io/src/base64.cpp:34-37 `base64_chars`. -/
def base64Chars : List Char :=
  "ABCDEFGHIJKLMNOPQRSTUVWXYZabcdefghijklmnopqrstuvwxyz0123456789+/".toList

/-- base64.cpp:39 `is_base64`; `isalnum` in the "C" locale. -/
def isBase64 (c : Char) : Bool :=
  ('A' ≤ c && c ≤ 'Z') || ('a' ≤ c && c ≤ 'z') || ('0' ≤ c && c ≤ '9') || c == '+' || c == '/'

/-- `base64_chars[k]` (base64.cpp:56,69).  Reading past the end yields the terminating NUL. -/
def charAt (k : UInt8) : Char := base64Chars.getD k.toNat '\x00'

/-- `char_array_4[i] = base64_chars.find(c)` (base64.cpp:88,102): `npos` stored in an
`unsigned char` is 255. -/
def find (c : Char) : UInt8 :=
  match base64Chars.idxOf? c with
  | some k => UInt8.ofNat k
  | none => 255

/-- base64.cpp:51-54 and :64-67, `char_array_4[0..3]` from `char_array_3[0..2]`.  The C++ computes
in `int` and truncates on the store; in `UInt8` the same result since every summand is < 256. -/
def quad (a b c : UInt8) : UInt8 × UInt8 × UInt8 × UInt8 :=
  ((a &&& 0xfc) >>> 2,
   ((a &&& 0x03) <<< 4) + ((b &&& 0xf0) >>> 4),
   ((b &&& 0x0f) <<< 2) + ((c &&& 0xc0) >>> 6),
   c &&& 0x3f)

/-- base64.cpp:41-75.  The C++ loop fills `char_array_3` byte by byte and flushes it when full; the
model recurses on three bytes at a time, and the last two equations are the `if (i)` tail
(:61-72: zero fill, `i+1` characters, then `=` up to four). -/
def encodeGroups : List UInt8 → List Char
  | a :: b :: c :: rest =>
    let q := quad a b c
    charAt q.1 :: charAt q.2.1 :: charAt q.2.2.1 :: charAt q.2.2.2 :: encodeGroups rest
  | [a, b] =>
    let q := quad a b 0
    [charAt q.1, charAt q.2.1, charAt q.2.2.1, '=']
  | [a] =>
    let q := quad a 0 0
    [charAt q.1, charAt q.2.1, '=', '=']
  | [] => []

/-- base64.cpp:41: the length parameter is `unsigned int`, so the callers' `size_t` is reduced
modulo 2^32. -/
def base64Encode (bytes : List UInt8) : List Char :=
  encodeGroups (bytes.take (bytes.length % 2 ^ 32))

/-- base64.cpp:90-92 and :104-106. -/
def triple (p q r s : UInt8) : UInt8 × UInt8 × UInt8 :=
  ((p <<< 2) + ((q &&& 0x30) >>> 4),
   ((q &&& 0xf) <<< 4) + ((r &&& 0x3c) >>> 2),
   ((r &&& 0x3) <<< 6) + s)

/-- base64.cpp:84-109 after the loop guard has cut the input at the first `=`/foreign character:
groups of four, and the tail (`if (i)`) where missing characters are NUL, i.e. `find` gives 255. -/
def decodeGroups : List Char → List UInt8
  | a :: b :: c :: d :: rest =>
    let t := triple (find a) (find b) (find c) (find d)
    t.1 :: t.2.1 :: t.2.2 :: decodeGroups rest
  | [a, b, c] =>
    let t := triple (find a) (find b) (find c) (find '\x00')
    [t.1, t.2.1]
  | [a, b] =>
    let t := triple (find a) (find b) (find '\x00') (find '\x00')
    [t.1]
  | [_] => []
  | [] => []

/-- base64.cpp:76-112.  `none` is undefined behaviour: the `int` counters overflow when the string
has 2^31 or more characters.  The `while` guard (:84) reads until the end, `=` or a foreign character. -/
def base64Decode (s : List Char) : Option (List UInt8) :=
  if s.length < 2 ^ 31 then
    some (decodeGroups (s.takeWhile (fun c => c != '=' && isBase64 c)))
  else none

/-! ### helper lemmas -/

theorem charAt_ok (n : Nat) (h : n < 64) :
    isBase64 (charAt (UInt8.ofNat n)) = true ∧ (charAt (UInt8.ofNat n) != '=') = true ∧
    find (charAt (UInt8.ofNat n)) = UInt8.ofNat n := by
  have : ∀ m : Fin 64, isBase64 (charAt (UInt8.ofNat m.1)) = true ∧
      (charAt (UInt8.ofNat m.1) != '=') = true ∧
      find (charAt (UInt8.ofNat m.1)) = UInt8.ofNat m.1 := by decide +kernel
  exact this ⟨n, h⟩

theorem charAt_good (k : UInt8) (h : k.toNat < 64) :
    isBase64 (charAt k) = true ∧ (charAt k != '=') = true ∧ find (charAt k) = k := by
  have := charAt_ok k.toNat h
  simpa using this

/-- Whole-domain check for one-byte facts. -/
theorem forall_u8 {p : UInt8 → Prop} (h : ∀ n : Fin 256, p (UInt8.ofNat n.1)) (x : UInt8) : p x := by
  have := h ⟨x.toNat, x.toNat_lt⟩
  simpa using this

theorem n_fc (x : UInt8) : ((x &&& 0xfc) >>> 2).toNat = x.toNat / 4 := by
  refine forall_u8 (p := fun x => ((x &&& 0xfc) >>> 2).toNat = x.toNat / 4) ?_ x; decide +kernel
theorem n_03 (x : UInt8) : ((x &&& 0x03) <<< 4).toNat = x.toNat % 4 * 16 := by
  refine forall_u8 (p := fun x => ((x &&& 0x03) <<< 4).toNat = x.toNat % 4 * 16) ?_ x; decide +kernel
theorem n_f0 (x : UInt8) : ((x &&& 0xf0) >>> 4).toNat = x.toNat / 16 := by
  refine forall_u8 (p := fun x => ((x &&& 0xf0) >>> 4).toNat = x.toNat / 16) ?_ x; decide +kernel
theorem n_0f2 (x : UInt8) : ((x &&& 0x0f) <<< 2).toNat = x.toNat % 16 * 4 := by
  refine forall_u8 (p := fun x => ((x &&& 0x0f) <<< 2).toNat = x.toNat % 16 * 4) ?_ x; decide +kernel
theorem n_c0 (x : UInt8) : ((x &&& 0xc0) >>> 6).toNat = x.toNat / 64 := by
  refine forall_u8 (p := fun x => ((x &&& 0xc0) >>> 6).toNat = x.toNat / 64) ?_ x; decide +kernel
theorem n_3f (x : UInt8) : (x &&& 0x3f).toNat = x.toNat % 64 := by
  refine forall_u8 (p := fun x => (x &&& 0x3f).toNat = x.toNat % 64) ?_ x; decide +kernel
theorem n_shl2 (x : UInt8) : (x <<< 2).toNat = x.toNat * 4 % 256 := by
  refine forall_u8 (p := fun x => (x <<< 2).toNat = x.toNat * 4 % 256) ?_ x; decide +kernel
theorem n_30 (x : UInt8) : ((x &&& 0x30) >>> 4).toNat = x.toNat / 16 % 4 := by
  refine forall_u8 (p := fun x => ((x &&& 0x30) >>> 4).toNat = x.toNat / 16 % 4) ?_ x; decide +kernel
theorem n_0f4 (x : UInt8) : ((x &&& 0xf) <<< 4).toNat = x.toNat % 16 * 16 := by
  refine forall_u8 (p := fun x => ((x &&& 0xf) <<< 4).toNat = x.toNat % 16 * 16) ?_ x; decide +kernel
theorem n_3c (x : UInt8) : ((x &&& 0x3c) >>> 2).toNat = x.toNat / 4 % 16 := by
  refine forall_u8 (p := fun x => ((x &&& 0x3c) >>> 2).toNat = x.toNat / 4 % 16) ?_ x; decide +kernel
theorem n_3s6 (x : UInt8) : ((x &&& 0x3) <<< 6).toNat = x.toNat % 4 * 64 := by
  refine forall_u8 (p := fun x => ((x &&& 0x3) <<< 6).toNat = x.toNat % 4 * 64) ?_ x; decide +kernel

theorem n_0f (x : UInt8) : (x &&& 0x0f).toNat = x.toNat % 16 := by
  refine forall_u8 (p := fun x => (x &&& 0x0f).toNat = x.toNat % 16) ?_ x; decide +kernel

theorem quad_lt (a b c : UInt8) :
    (quad a b c).1.toNat < 64 ∧ (quad a b c).2.1.toNat < 64 ∧ (quad a b c).2.2.1.toNat < 64 ∧
    (quad a b c).2.2.2.toNat < 64 := by
  have ha := a.toNat_lt; have hb := b.toNat_lt; have hc := c.toNat_lt
  simp only [quad, UInt8.toNat_add, n_fc, n_03, n_f0, n_0f2, n_c0, n_3f]
  omega

theorem triple_quad (a b c : UInt8) :
    triple (quad a b c).1 (quad a b c).2.1 (quad a b c).2.2.1 (quad a b c).2.2.2 = (a, b, c) := by
  have ha := a.toNat_lt; have hb := b.toNat_lt; have hc := c.toNat_lt
  simp only [triple, quad, Prod.mk.injEq]
  refine ⟨?_, ?_, ?_⟩ <;> apply UInt8.toNat_inj.mp <;>
    simp only [UInt8.toNat_add, n_fc, n_03, n_f0, n_0f, n_c0, n_3f, n_shl2, n_30, n_0f4, n_3c, n_3s6] <;>
    omega

theorem triple_quad1 (a b c s : UInt8) :
    (triple (quad a b c).1 (quad a b c).2.1 (quad a b c).2.2.1 s).2.1 = b ∧
    (triple (quad a b c).1 (quad a b c).2.1 (quad a b c).2.2.1 s).1 = a := by
  have h := triple_quad a b c
  simp only [triple, Prod.mk.injEq] at h ⊢
  exact ⟨h.2.1, h.1⟩

theorem triple_quad0 (a b c r s : UInt8) :
    (triple (quad a b c).1 (quad a b c).2.1 r s).1 = a := by
  have h := triple_quad a b c
  simp only [triple, Prod.mk.injEq] at h ⊢
  exact h.1

end Docc.Base64
