import Verif.Capture.Base64
/-! Property theorems C30 and C31. -/
namespace Docc.Base64

theorem decode_groups_encode (bs : List UInt8) :
    decodeGroups ((encodeGroups bs).takeWhile (fun c => c != '=' && isBase64 c)) = bs := by
  fun_induction encodeGroups bs with
  | case1 a b c rest q ih =>
    obtain ⟨h1, h2, h3, h4⟩ := quad_lt a b c
    have g1 := charAt_good _ h1; have g2 := charAt_good _ h2
    have g3 := charAt_good _ h3; have g4 := charAt_good _ h4
    simp only [q, List.takeWhile, g1, g2, g3, g4, Bool.and_self, decodeGroups, triple_quad, ih]
  | case2 a b q =>
    obtain ⟨h1, h2, h3, h4⟩ := quad_lt a b 0
    have g1 := charAt_good _ h1; have g2 := charAt_good _ h2
    have g3 := charAt_good _ h3
    simp only [q, List.takeWhile, g1, g2, g3, Bool.and_self, decodeGroups, triple_quad1,
      bne_self_eq_false, Bool.false_and]
  | case3 a q =>
    obtain ⟨h1, h2, h3, h4⟩ := quad_lt a 0 0
    have g1 := charAt_good _ h1; have g2 := charAt_good _ h2
    simp only [q, List.takeWhile, g1, g2, Bool.and_self, decodeGroups, triple_quad0,
      bne_self_eq_false, Bool.false_and]
  | case4 => simp [decodeGroups]

theorem encodeGroups_length (bs : List UInt8) :
    (encodeGroups bs).length = 4 * ((bs.length + 2) / 3) := by
  fun_induction encodeGroups bs with
  | case1 a b c rest q ih => simp only [List.length_cons, ih]; omega
  | case2 a b q => simp
  | case3 a q => simp
  | case4 => rfl

/-- C30.  Decoding the encoding of any byte string gives the byte string back, as long as the
encoded string is shorter than 2^31 characters (the range of the C++ `int` counters). -/
theorem base64_round_trip (bs : List UInt8) (h : 4 * ((bs.length + 2) / 3) < 2 ^ 31) :
    base64Decode (base64Encode bs) = some bs := by
  have hlen : bs.length % 2 ^ 32 = bs.length := Nat.mod_eq_of_lt (by omega)
  unfold base64Encode base64Decode
  rw [hlen, List.take_length, encodeGroups_length, if_pos h, decode_groups_encode]

example : base64Decode (base64Encode [0x4d, 0x61, 0xff, 0x00]) = some [0x4d, 0x61, 0xff, 0x00] :=
  base64_round_trip _ (by decide)

/-- Consequence of C30: different inputs have different encodings. -/
theorem base64_encode_injective (as bs : List UInt8)
    (ha : 4 * ((as.length + 2) / 3) < 2 ^ 31) (hb : 4 * ((bs.length + 2) / 3) < 2 ^ 31)
    (h : base64Encode as = base64Encode bs) : as = bs := by
  have h1 := base64_round_trip as ha
  rw [h, base64_round_trip bs hb] at h1
  exact (Option.some.inj h1).symm

/-- Number of padding characters prescribed by RFC 4648 for `n` input bytes. -/
def padCount (n : Nat) : Nat := (3 - n % 3) % 3

/-- C31.  The output consists of standard-alphabet characters followed by exactly
`(3 - n mod 3) mod 3` `=` characters, `4*ceil(n/3)` characters in total. -/
theorem base64_well_formed (bs : List UInt8) (h : bs.length < 2 ^ 32) :
    ∃ body, base64Encode bs = body ++ List.replicate (padCount bs.length) '=' ∧
      (∀ c ∈ body, c ∈ base64Chars) ∧
      (base64Encode bs).length = 4 * ((bs.length + 2) / 3) := by
  have hmem : ∀ k : UInt8, k.toNat < 64 → charAt k ∈ base64Chars := by
    intro k hk
    have hl : base64Chars.length = 64 := by decide
    unfold charAt
    rw [List.getD_eq_getElem?_getD, List.getElem?_eq_getElem (by omega)]
    exact List.getElem_mem _
  have hlen : bs.length % 2 ^ 32 = bs.length := Nat.mod_eq_of_lt h
  unfold base64Encode
  rw [hlen, List.take_length]
  suffices ∃ body, encodeGroups bs = body ++ List.replicate (padCount bs.length) '=' ∧
      (∀ c ∈ body, c ∈ base64Chars) by
    obtain ⟨body, h1, h2⟩ := this
    exact ⟨body, h1, h2, encodeGroups_length bs⟩
  clear h hlen
  fun_induction encodeGroups bs with
  | case1 a b c rest q ih =>
    obtain ⟨body, hb, hm⟩ := ih
    obtain ⟨h1, h2, h3, h4⟩ := quad_lt a b c
    refine ⟨charAt q.1 :: charAt q.2.1 :: charAt q.2.2.1 :: charAt q.2.2.2 :: body, ?_, ?_⟩
    · have : padCount (a :: b :: c :: rest).length = padCount rest.length := by
        simp [padCount]; omega
      rw [this, hb]; rfl
    · intro x hx
      simp only [List.mem_cons] at hx
      rcases hx with rfl | rfl | rfl | rfl | hx
      · exact hmem _ h1
      · exact hmem _ h2
      · exact hmem _ h3
      · exact hmem _ h4
      · exact hm _ hx
  | case2 a b q =>
    obtain ⟨h1, h2, h3, h4⟩ := quad_lt a b 0
    refine ⟨[charAt q.1, charAt q.2.1, charAt q.2.2.1], rfl, ?_⟩
    intro x hx
    simp only [List.mem_cons, List.not_mem_nil, or_false] at hx
    rcases hx with rfl | rfl | rfl
    · exact hmem _ h1
    · exact hmem _ h2
    · exact hmem _ h3
  | case3 a q =>
    obtain ⟨h1, h2, h3, h4⟩ := quad_lt a 0 0
    refine ⟨[charAt q.1, charAt q.2.1], rfl, ?_⟩
    intro x hx
    simp only [List.mem_cons, List.not_mem_nil, or_false] at hx
    rcases hx with rfl | rfl
    · exact hmem _ h1
    · exact hmem _ h2
  | case4 => exact ⟨[], rfl, by simp⟩

/-- The alphabet has 64 different characters and `=` is not one of them. -/
theorem alphabet_standard : base64Chars.Nodup ∧ base64Chars.length = 64 ∧ '=' ∉ base64Chars := by
  decide

example : base64Encode [0x4d, 0x61, 0x6e, 0x4d] = "TWFuTQ==".toList := by decide
example : ([0x4d, 0x61] : List UInt8).length < 2 ^ 32 := by decide

end Docc.Base64
