import Verif.Http.Base64
/-!
# C68: base64
-/

namespace Verif.Http

/-! ## Specification (RFC 4648) -/

/-- The digits: `A`–`Z`, `a`–`z`, `0`–`9`, `+`, `/`. -/
def alphabet (i : Nat) : UInt8 :=
  if i < 26 then UInt8.ofNat (65 + i)
  else if i < 52 then UInt8.ofNat (97 + (i - 26))
  else if i < 62 then UInt8.ofNat (48 + (i - 52))
  else if i = 62 then 43
  else 47

/-- Three bytes are a number below 2²⁴ that is written with four digits of base 64. With one or two bytes, the missing bytes
are 0 and the digits that are 0 for this reason are written as `=`. -/
def base64 : Bytes → Bytes
  | a :: b :: c :: rest =>
    let n := a.toNat * 65536 + b.toNat * 256 + c.toNat
    alphabet (n / 262144) :: alphabet (n / 4096 % 64) :: alphabet (n / 64 % 64) :: alphabet (n % 64) :: base64 rest
  | [a, b] =>
    let n := a.toNat * 65536 + b.toNat * 256
    [alphabet (n / 262144), alphabet (n / 4096 % 64), alphabet (n / 64 % 64), 61]
  | [a] =>
    let n := a.toNat * 65536
    [alphabet (n / 262144), alphabet (n / 4096 % 64), 61, 61]
  | [] => []

/-! ## Proofs -/

theorem b64Char_alphabet {i : Nat} (h : i < 64) : b64Char i = alphabet i :=
  (by decide +kernel : ∀ i : Fin 64, b64Char i = alphabet i) ⟨i, h⟩

theorem index_alphabet {i : Nat} (h : i < 64) : index (alphabet i) = some (i : Int) :=
  (by decide +kernel : ∀ i : Fin 64, index (alphabet i) = some ((i : Nat) : Int)) ⟨i, h⟩

theorem index_ascii {c : UInt8} (h : c.toNat < 128) : ∃ i, index c = some i ∧ -1 ≤ i ∧ i < 64 := by
  have := (by decide +kernel : ∀ c : Fin 128, ∃ i ∈ (index (UInt8.ofNat c)).toList, -1 ≤ i ∧ i < 64) ⟨c.toNat, h⟩
  simp only [UInt8.ofNat_toNat, Option.mem_toList] at this
  obtain ⟨i, h1, h2⟩ := this
  exact ⟨i, h1, h2⟩

theorem and63 (n : Nat) : n &&& 0x3f = n % 64 := Nat.and_two_pow_sub_one_eq_mod n 6
theorem and255 (n : Nat) : n &&& 0xff = n % 256 := Nat.and_two_pow_sub_one_eq_mod n 8

theorem word_eq (a b c : UInt8) : word a b c = a.toNat * 65536 + b.toNat * 256 + c.toNat := by
  simp [word, Nat.shiftLeft_eq]

theorem base64Encode_eq (s : Bytes) : base64Encode s = base64 s := by
  fun_induction base64Encode s with
  | case1 a b c rest n ih =>
    have ha := a.toNat_lt; have hb := b.toNat_lt; have hc := c.toNat_lt
    simp only [base64, ih]
    have hn : n = a.toNat * 65536 + b.toNat * 256 + c.toNat := word_eq a b c
    rw [and63, and63, and63, Nat.shiftRight_eq_div_pow, Nat.shiftRight_eq_div_pow, Nat.shiftRight_eq_div_pow, b64Char_alphabet (by omega),
      b64Char_alphabet (by omega), b64Char_alphabet (by omega), b64Char_alphabet (by omega), hn]
  | case2 a b n =>
    have ha := a.toNat_lt; have hb := b.toNat_lt
    have hn : n = a.toNat * 65536 + b.toNat * 256 + 0 := word_eq a b 0
    simp only [base64]
    rw [and63, and63, Nat.shiftRight_eq_div_pow, Nat.shiftRight_eq_div_pow, Nat.shiftRight_eq_div_pow, b64Char_alphabet (by omega),
      b64Char_alphabet (by omega), b64Char_alphabet (by omega), hn, Nat.add_zero]
  | case3 a n =>
    have ha := a.toNat_lt
    have hn : n = a.toNat * 65536 + 0 * 256 + 0 := word_eq a 0 0
    simp only [base64]
    rw [and63, Nat.shiftRight_eq_div_pow, Nat.shiftRight_eq_div_pow, b64Char_alphabet (by omega), b64Char_alphabet (by omega), hn]
    simp
  | case4 => rfl

theorem ofNat_of {n : Nat} {a : UInt8} (h : n = a.toNat) : UInt8.ofNat n = a := by rw [h]; simp

theorem index_pad : index 61 = some (-1) := by decide +kernel

theorem decodeLoop_base64 (s out : Bytes) : decodeLoop (base64 s) out = .ok (out ++ s) := by
  fun_induction base64 s generalizing out with
  | case1 a b c rest n ih =>
    have ha := a.toNat_lt; have hb := b.toNat_lt; have hc := c.toNat_lt
    have hn : n = a.toNat * 65536 + b.toNat * 256 + c.toNat := rfl
    have h1 : n / 262144 < 64 := by omega
    rw [decodeLoop, index_alphabet h1]
    simp only [index_alphabet (Nat.mod_lt _ (by decide : 0 < 64))]
    rw [if_neg (by omega), if_neg (by omega), if_neg (by omega), if_neg (by omega), ih]
    simp only [Int.toNat_natCast, Nat.shiftLeft_eq, Nat.shiftRight_eq_div_pow, and255]
    rw [ofNat_of (a := a) (by omega), ofNat_of (a := b) (by omega), ofNat_of (a := c) (by omega)]
    simp
  | case2 a b n =>
    have ha := a.toNat_lt; have hb := b.toNat_lt
    have hn : n = a.toNat * 65536 + b.toNat * 256 := rfl
    have h1 : n / 262144 < 64 := by omega
    rw [decodeLoop, index_alphabet h1]
    simp only [index_alphabet (Nat.mod_lt _ (by decide : 0 < 64)), index_pad]
    rw [if_neg (by omega), if_neg (by omega), if_neg (by omega)]
    simp only [if_true, and_self, Int.toNat_natCast, Nat.shiftLeft_eq, Nat.shiftRight_eq_div_pow, and255]
    rw [ofNat_of (a := a) (by omega), ofNat_of (a := b) (by omega)]
  | case3 a n =>
    have ha := a.toNat_lt
    have hn : n = a.toNat * 65536 := rfl
    have h1 : n / 262144 < 64 := by omega
    rw [decodeLoop, index_alphabet h1]
    simp only [index_alphabet (Nat.mod_lt _ (by decide : 0 < 64)), index_pad]
    rw [if_neg (by omega), if_neg (by omega)]
    simp only [if_true, and_self, Int.toNat_natCast, Nat.shiftLeft_eq, Nat.shiftRight_eq_div_pow]
    rw [ofNat_of (a := a) (by omega)]
  | case4 => simp [decodeLoop]

theorem base64_length (s : Bytes) : (base64 s).length = (s.length + 2) / 3 * 4 := by
  fun_induction base64 s with
  | case1 a b c rest n ih => simp only [List.length_cons, ih]; omega
  | case2 => simp
  | case3 => simp
  | case4 => rfl

/-! ## The property -/

/-- Encoding is that of RFC 4648. -/
theorem C68_rfc (s : Bytes) : base64Encode s = base64 s := base64Encode_eq s

/-- Decoding is the inverse. -/
theorem C68_round_trip (s : Bytes) : base64Decode (base64Encode s) = .ok s := by
  rw [base64Encode_eq, base64Decode, if_neg (by rw [base64_length]; omega), decodeLoop_base64]
  rfl

/-- The string is resized before encoding to what is needed, so nothing is written behind its end. -/
theorem C68_fits (s : Bytes) : (base64Encode s).length = (s.length + 2) / 3 * 4 := by
  rw [base64Encode_eq, base64_length]

theorem decodeLoop_ascii {s : Bytes} (h : ∀ c ∈ s, index c ≠ none) (h4 : s.length % 4 = 0) (out : Bytes) :
    (∃ t, decodeLoop s out = .ok (out ++ t) ∧ t.length ≤ s.length / 4 * 3) ∨ decodeLoop s out = .refused := by
  fun_induction decodeLoop s out with
  | case1 out => exact .inl ⟨[], by simp, by simp⟩
  | case12 c1 c2 c3 c4 rest out i1 h1 g1 i2 h2 g2 i3 h3 n g3 i4 h5 n2 g4 n3 ih =>
    simp only [List.length_cons] at h4
    rcases ih (fun c hc => h c (by simp [hc])) (by omega) with ⟨t, h6, h7⟩ | h6
    · refine .inl ⟨_, by rw [h6, List.append_assoc], ?_⟩
      simp only [List.length_append, List.length_cons, List.length_nil]
      omega
    · exact .inr h6
  | case13 s out g1 g2 =>
    match s with
    | [] => exact absurd rfl g1
    | [_] => simp at h4
    | [_, _] => simp at h4
    | [_, _, _] => simp at h4
    | a :: b :: c :: d :: r => exact absurd rfl (g2 a b c d r)
  | _ => first
    | exact .inr rfl
    | (refine .inl ⟨_, rfl, ?_⟩; simp only [List.length_cons, List.length_nil]; omega)
    | (exfalso; rename_i hx; exact h _ (by simp) hx)

/-- Whatever the text is: if it is ASCII, no access is outside of the table, and the result fits into the string made for
it. -/
theorem C68_safe {s : Bytes} (h : ∀ c ∈ s, c.toNat < 128) :
    (∃ t, base64Decode s = .ok t ∧ t.length ≤ s.length / 4 * 3) ∨ base64Decode s = .refused := by
  rw [base64Decode]
  split
  · exact .inr rfl
  · rename_i h4
    refine decodeLoop_ascii (fun c hc => ?_) (by omega) []
    obtain ⟨i, hi, -⟩ := index_ascii (h c hc)
    rw [hi]
    nofun

theorem index_digit (c : UInt8) (i : Int) (h : index c = some i) (hi : i ≠ -1) : ∃ j, j < 64 ∧ c = alphabet j := by
  have key : ∀ c : Fin 256, index (UInt8.ofNat c) = none ∨ index (UInt8.ofNat c) = some (-1) ∨ ∃ j : Fin 64, UInt8.ofNat c = alphabet j := by
    decide +kernel
  have := key ⟨c.toNat, c.toNat_lt⟩
  simp only [UInt8.ofNat_toNat] at this
  rcases this with h' | h' | ⟨j, hj⟩
  · rw [h] at h'; cases h'
  · rw [h] at h'; injection h' with h'; exact absurd h' hi
  · exact ⟨j, j.2, hj⟩

theorem decodeLoop_form {s out t : Bytes} (h : decodeLoop s out = .ok t) :
    ∃ u p, s = u ++ List.replicate p 61 ∧ p ≤ 2 ∧ (∀ c ∈ u, ∃ j, j < 64 ∧ c = alphabet j) ∧ s.length % 4 = 0 ∧
      t.length + p = out.length + s.length / 4 * 3 := by
  fun_induction decodeLoop s out with
  | case1 out => injection h with h; subst h; exact ⟨[], 0, rfl, by omega, by simp, rfl, by simp⟩
  | case12 c1 c2 c3 c4 rest out i1 h1 g1 i2 h2 g2 i3 h3 n g3 i4 h5 n2 g4 n3 ih =>
    obtain ⟨u, p, e1, e2, e3, e4, e5⟩ := ih h
    refine ⟨c1 :: c2 :: c3 :: c4 :: u, p, by rw [e1]; rfl, e2, ?_, ?_, ?_⟩
    · intro c hc
      simp only [List.mem_cons] at hc
      rcases hc with rfl | rfl | rfl | rfl | hc
      · exact index_digit _ _ h1 g1
      · exact index_digit _ _ h2 g2
      · exact index_digit _ _ h3 g3
      · exact index_digit _ _ h5 g4
      · exact e3 c hc
    · simp only [List.length_cons]; omega
    · simp only [List.length_append, List.length_cons, List.length_nil] at e5 ⊢
      omega
  | case7 c1 c2 c3 c4 rest out i1 h1 g1 i2 h2 g2 n g4 h3 =>
    obtain ⟨rfl, rfl, rfl⟩ := g4
    injection h with h; subst h
    refine ⟨[c1, c2], 2, rfl, by omega, ?_, by simp, by simp⟩
    intro c hc
    simp only [List.mem_cons, List.not_mem_nil, or_false] at hc
    rcases hc with rfl | rfl
    · exact index_digit _ _ h1 g1
    · exact index_digit _ _ h2 g2
  | case10 c1 c2 c3 c4 rest out i1 h1 g1 i2 h2 g2 i3 h3 n g3 n2 g5 h5 =>
    obtain ⟨rfl, rfl⟩ := g5
    injection h with h; subst h
    refine ⟨[c1, c2, c3], 1, rfl, by omega, ?_, by simp, by simp⟩
    intro c hc
    simp only [List.mem_cons, List.not_mem_nil, or_false] at hc
    rcases hc with rfl | rfl | rfl
    · exact index_digit _ _ h1 g1
    · exact index_digit _ _ h2 g2
    · exact index_digit _ _ h3 g3
  | _ => cases h

/-- Only digits with at most two `=` at the end are decoded, and to as many bytes as they stand for. -/
theorem C68_accepted {s t : Bytes} (h : base64Decode s = .ok t) :
    ∃ u p, s = u ++ List.replicate p 61 ∧ p ≤ 2 ∧ (∀ c ∈ u, ∃ j, j < 64 ∧ c = alphabet j) ∧ s.length % 4 = 0 ∧ t.length + p = s.length / 4 * 3 := by
  rw [base64Decode] at h
  split at h
  · cases h
  · obtain ⟨u, p, h1, h2, h3, h4, h5⟩ := decodeLoop_form h
    exact ⟨u, p, h1, h2, h3, h4, by simpa using h5⟩

/-- A text with another byte is not refused: the table is read outside of its bounds. The promise would be that for all
texts there is a result. -/
theorem C73_base64_partial : ¬∀ s : Bytes, base64Decode s ≠ .ub := by
  intro h
  exact h [128, 65, 65, 65] (by decide +kernel)

example : base64Encode [72, 105, 33, 255] = [83, 71, 107, 104, 47, 119, 61, 61] := by decide +kernel
example : base64Decode [83, 71, 107, 104, 47, 119, 61, 61] = .ok [72, 105, 33, 255] := by decide +kernel
example : base64Decode [83, 61, 107, 104] = .refused := by decide +kernel
/-- The unused bits of the last digit are not looked at. -/
example : base64Decode [81, 82, 61, 61] = .ok [65] ∧ base64Encode [65] = [81, 81, 61, 61] := by decide +kernel

end Verif.Http
