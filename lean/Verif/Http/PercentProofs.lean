import Verif.Http.Percent
/-!
# C69, C70: percent-encoding and numbers
-/

namespace Verif.Http

theorem forall_byte {p : UInt8 → Prop} (h : ∀ c : Fin 256, p (UInt8.ofNat c)) (c : UInt8) : p c := by
  have := h ⟨c.toNat, c.toNat_lt⟩
  simpa using this

/-- The two digits of a byte. -/
def hi (c : UInt8) : UInt8 := upperXDigit (c.toNat >>> 4)
def lo (c : UInt8) : UInt8 := upperXDigit (c.toNat &&& 0x0f)

theorem hex_pair (c : UInt8) : isXDigit (hi c) = true ∧ isXDigit (lo c) = true ∧ UInt8.ofNat ((hexToUint (hi c) <<< 4) + hexToUint (lo c)) = c ∧
    hexstrToChar (hi c) (lo c) = c :=
  forall_byte (p := fun c => isXDigit (hi c) = true ∧ isXDigit (lo c) = true ∧ UInt8.ofNat ((hexToUint (hi c) <<< 4) + hexToUint (lo c)) = c ∧
    hexstrToChar (hi c) (lo c) = c) (by decide +kernel) c

theorem unreserved_plain (c : UInt8) (h : unreserved c = true) : c ≠ 37 ∧ c ≠ 43 ∧ c ≠ 38 ∧ c ≠ 61 ∧ c ≠ 63 ∧ c ≠ 35 :=
  forall_byte (p := fun c => unreserved c = true → c ≠ 37 ∧ c ≠ 43 ∧ c ≠ 38 ∧ c ≠ 61 ∧ c ≠ 63 ∧ c ≠ 35) (by decide +kernel) c h

theorem path_plain (c : UInt8) (h : (unreserved c || subDelim c || decide (c = 47)) = true) : c ≠ 37 :=
  forall_byte (p := fun c => (unreserved c || subDelim c || decide (c = 47)) = true → c ≠ 37) (by decide +kernel) c h

theorem hi_unreserved (c : UInt8) : unreserved (hi c) = true ∧ unreserved (lo c) = true :=
  forall_byte (p := fun c => unreserved (hi c) = true ∧ unreserved (lo c) = true) (by decide +kernel) c

theorem percentEncode_cons (c : UInt8) (s : Bytes) :
    percentEncode (c :: s) = if unreserved c then c :: percentEncode s else 37 :: hi c :: lo c :: percentEncode s := rfl

theorem percentEncodePath_cons (c : UInt8) (s : Bytes) : percentEncodePath (c :: s) =
    if unreserved c || subDelim c || decide (c = 47) then c :: percentEncodePath s else 37 :: hi c :: lo c :: percentEncodePath s := rfl

theorem percentDecode_plain {c : UInt8} (h : c ≠ 37) (s : Bytes) : percentDecode (c :: s) = c :: percentDecode s := by
  rcases s with _ | ⟨a, _ | ⟨b, s⟩⟩ <;> simp [percentDecode, h]

theorem percentDecode_hex (c : UInt8) (s : Bytes) : percentDecode (37 :: hi c :: lo c :: s) = c :: percentDecode s := by
  obtain ⟨h1, h2, h3, h4⟩ := hex_pair c
  rw [percentDecode, if_neg (by simp)]
  simp only [h1, h2, Bool.and_self, if_true, h3]

theorem urlDecode_plain {c : UInt8} (h : c ≠ 37) (h' : c ≠ 43) (s : Bytes) : urlDecode (c :: s) = (urlDecode s).map (c :: ·) := by
  rcases s with _ | ⟨a, _ | ⟨b, s⟩⟩ <;> simp [urlDecode, h, h']

theorem urlDecode_hex (c : UInt8) (s : Bytes) : urlDecode (37 :: hi c :: lo c :: s) = (urlDecode s).map (c :: ·) := by
  obtain ⟨h1, h2, h3, h4⟩ := hex_pair c
  rw [urlDecode, if_pos rfl]
  simp only [h4]

/-! ## C69: percent-encoding -/

/-- What is encoded is decoded again, whatever follows. -/
theorem percentDecode_append (s t : Bytes) : percentDecode (percentEncode s ++ t) = s ++ percentDecode t := by
  induction s with
  | nil => rfl
  | cons c s ih =>
    rw [percentEncode_cons]
    split
    · rename_i h
      rw [List.cons_append, percentDecode_plain (unreserved_plain c h).1, ih]
      rfl
    · simp only [List.cons_append]
      rw [percentDecode_hex, ih]

theorem C69_decode (s : Bytes) : percentDecode (percentEncode s) = s := by
  have := percentDecode_append s []
  rwa [List.append_nil, percentDecode, List.append_nil] at this

/-- Paths: their separators and delimiters stay as they are. -/
theorem C69_path (s : Bytes) : percentDecode (percentEncodePath s) = s := by
  induction s with
  | nil => rfl
  | cons c s ih =>
    rw [percentEncodePath_cons]
    split
    · rename_i h
      rw [percentDecode_plain (path_plain c h), ih]
    · rw [percentDecode_hex, ih]

/-- The decoder for query strings. -/
theorem C69_query (s : Bytes) : urlDecode (percentEncode s) = some s := by
  induction s with
  | nil => rfl
  | cons c s ih =>
    rw [percentEncode_cons]
    split
    · rename_i h
      rw [urlDecode_plain (unreserved_plain c h).1 (unreserved_plain c h).2.1, ih]
      rfl
    · rw [urlDecode_hex, ih]
      rfl

/-- Only letters, digits, `-._~` and `%` remain, so the result can be put anywhere into a URL. -/
theorem C69_safe (s : Bytes) : ∀ c ∈ percentEncode s, unreserved c = true ∨ c = 37 := by
  induction s with
  | nil => intro c hc; cases hc
  | cons c s ih =>
    rw [percentEncode_cons]
    split
    · rename_i h
      intro x hx
      rcases List.mem_cons.1 hx with rfl | hx
      · exact .inl h
      · exact ih x hx
    · intro x hx
      simp only [List.mem_cons] at hx
      rcases hx with rfl | rfl | rfl | hx
      · exact .inr rfl
      · exact .inl (hi_unreserved c).1
      · exact .inl (hi_unreserved c).2
      · exact ih x hx

/-- Without escapes nothing is changed. -/
theorem C69_plain {s : Bytes} (h : 37 ∉ s) : percentDecode s = s := by
  induction s with
  | nil => rfl
  | cons c s ih =>
    simp only [List.mem_cons, not_or] at h
    rw [percentDecode_plain (fun hc => h.1 hc.symm), ih h.2]

/-- The characters that RFC 3986 calls unreserved. -/
def rfcUnreserved (c : UInt8) : Prop := (65 ≤ c ∧ c ≤ 90) ∨ (97 ≤ c ∧ c ≤ 122) ∨ (48 ≤ c ∧ c ≤ 57) ∨ c = 45 ∨ c = 46 ∨ c = 95 ∨ c = 126

instance (c : UInt8) : Decidable (rfcUnreserved c) := by unfold rfcUnreserved; infer_instance

theorem unreserved_iff (c : UInt8) : unreserved c = true ↔ rfcUnreserved c :=
  forall_byte (p := fun c => unreserved c = true ↔ rfcUnreserved c) (by decide +kernel) c

/-- Exactly the texts of unreserved characters are not changed. -/
theorem C69_unchanged (s : Bytes) : percentEncode s = s ↔ ∀ c ∈ s, rfcUnreserved c := by
  constructor
  · intro h c hc
    rcases C69_safe s c (by rw [h]; exact hc) with h' | rfl
    · exact (unreserved_iff c).1 h'
    · exfalso
      have key : ∀ s : Bytes, s.length ≤ (percentEncode s).length ∧ (37 ∈ s → s.length < (percentEncode s).length) := by
        intro s
        induction s with
        | nil => exact ⟨Nat.le_refl _, by simp⟩
        | cons c s ih =>
          rw [percentEncode_cons]
          split
          · rename_i hu
            simp only [List.length_cons]
            refine ⟨by omega, fun hm => ?_⟩
            rcases List.mem_cons.1 hm with h' | h'
            · exact absurd h'.symm (unreserved_plain c hu).1
            · have := ih.2 h'; omega
          · simp only [List.length_cons]
            exact ⟨by omega, fun _ => by omega⟩
      have := (key s).2 hc
      rw [h] at this
      omega
  · intro h
    induction s with
    | nil => rfl
    | cons c s ih =>
      rw [percentEncode_cons, if_pos ((unreserved_iff c).2 (h c (by simp))), ih (fun x hx => h x (by simp [hx]))]

example : percentEncode [97, 32, 37, 255] = [97, 37, 50, 48, 37, 50, 53, 37, 70, 70] := by decide +kernel
example : percentDecode [97, 37, 50, 48, 37, 37, 50] = [97, 32, 37, 37, 50] := by decide +kernel

/-- Decimal number, of the specification. -/
def number : Bytes → Option Nat
  | s => if s ≠ [] ∧ s.all isDigit then some (s.foldl (fun v c => v * 10 + (c.toNat - 48)) 0) else none

theorem parseUintLoop_eq (s : Bytes) (n : Nat) (hn : n ≤ 2 ^ 63 - 1) : parseUintLoop s n =
    if s.all isDigit ∧ s.foldl (fun v c => v * 10 + (c.toNat - 48)) n ≤ 2 ^ 63 - 1 then some (s.foldl (fun v c => v * 10 + (c.toNat - 48)) n)
    else none := by
  have hmono : ∀ (s : Bytes) (n : Nat), n ≤ s.foldl (fun v c => v * 10 + (c.toNat - 48)) n := by
    intro s
    induction s with
    | nil => intro n; exact Nat.le_refl n
    | cons c s ih => intro n; exact Nat.le_trans (show n ≤ n * 10 + (c.toNat - 48) by omega) (ih _)
  induction s generalizing n with
  | nil => simp [parseUintLoop, hn]
  | cons c s ih =>
    rw [parseUintLoop]
    simp only [List.all_cons, List.foldl_cons, Bool.and_eq_true]
    by_cases hd : 48 ≤ c ∧ c ≤ 57
    · have hd' : isDigit c = true := by simp [isDigit, hd]
      rw [if_pos hd]
      simp only [hd', true_and]
      by_cases h2 : n * 10 + (c.toNat - 48) ≤ 2 ^ 63 - 1
      · have h57 : c.toNat ≤ 57 := UInt8.le_iff_toNat_le.1 hd.2
        rw [if_neg (by omega), if_neg (by omega), ih _ h2]
      · have := hmono s (n * 10 + (c.toNat - 48))
        rw [if_neg (c := s.all isDigit = true ∧ _) (by rintro ⟨-, h⟩; omega)]
        have h57 : c.toNat ≤ 57 := UInt8.le_iff_toNat_le.1 hd.2
        split
        · rfl
        · rw [if_pos (by omega)]
    · have hd' : isDigit c = false := by
        simp only [isDigit, Bool.and_eq_false_iff, decide_eq_false_iff_not]
        grind
      rw [if_neg hd, if_neg (by simp [hd'])]

/-- `ParseUint` accepts exactly the decimal numbers below 2⁶³. -/
theorem C69_uint (s : Bytes) : parseUint s = (number s).filter (· ≤ 2 ^ 63 - 1) := by
  rw [parseUint, number]
  split
  · rename_i h; subst h; rfl
  · rename_i h
    rw [parseUintLoop_eq s 0 (by omega)]
    by_cases ha : s.all isDigit = true
    · simp only [ha, true_and, h, ne_eq, not_false_eq_true, and_self, if_true, Option.filter]
      simp
    · simp [ha, h]

theorem isDigit_iff (c : UInt8) : isDigit c = true ↔ 48 ≤ c ∧ c ≤ 57 := by simp [isDigit]

theorem digits_all (s t : Bytes) (hs : s.all isDigit = true) (ht : ∀ c ∈ t.head?, isDigit c = false) (v n : Nat) :
    digits (s ++ t) v n = (s.foldl (fun v c => v * 10 + (c.toNat - 48)) v, n + s.length) := by
  induction s generalizing v n with
  | nil =>
    rcases t with _ | ⟨c, t⟩
    · rfl
    · simp [digits, ht c rfl]
  | cons c s ih =>
    simp only [List.all_cons, Bool.and_eq_true] at hs
    rw [List.cons_append, digits, if_pos hs.1, ih hs.2]
    simp only [List.foldl_cons, List.length_cons, Prod.mk.injEq, true_and]
    omega

/-- `ParseContentLength` returns the number of every decimal number below 2⁶³, whatever comes behind it. -/
theorem C69_length (s t : Bytes) (ht : ∀ c ∈ t.head?, isDigit c = false) {n : Nat} (h : number s = some n) (hn : n < 2 ^ 63) :
    parseContentLength (s ++ t) s.length = some n := by
  rw [number] at h
  split at h
  · rename_i hs
    obtain ⟨hs1, hs2⟩ := hs
    rcases s with _ | ⟨c, s⟩
    · exact absurd rfl hs1
    · have hc : isDigit c = true := by simp only [List.all_cons, Bool.and_eq_true] at hs2; exact hs2.1
      have hplain : isSpace c = false ∧ c ≠ 45 ∧ c ≠ 43 :=
        forall_byte (p := fun c => isDigit c = true → isSpace c = false ∧ c ≠ 45 ∧ c ≠ 43) (by decide +kernel) c hc
      have h1 : ((c :: s ++ t).takeWhile isSpace).length = 0 := by simp [List.takeWhile, hplain.1]
      rw [parseContentLength, strtoll]
      simp only [h1, List.drop_zero]
      have hm : signOf (c :: s ++ t) = (false, 0) := by
        rw [List.cons_append, signOf.eq_def]
        split
        · rename_i heq; injection heq with h0 _; exact absurd h0 hplain.2.1
        · rename_i heq; injection heq with h0 _; exact absurd h0 hplain.2.2
        · rfl
      rw [hm]
      simp only [List.drop_zero]
      rw [digits_all _ t hs2 ht]
      injection h with h
      simp only [h]
      simp
      omega
  · cases h

/-! ## C73: what decoders accept -/

/-- `UrlDecode` accepts escapes that are none: `%zz` is read as `S`. -/
theorem C73_escape_partial : urlDecode [37, 122, 122] = some [83] ∧ percentDecode [37, 122, 122] = [37, 122, 122] := by decide +kernel

/-- `PercentEncodePath` leaves a plus, which `UrlDecode` takes for a blank. -/
theorem C73_plus_partial : urlDecode (percentEncodePath [43]) = some [32] := by decide +kernel

/-- A content length may have blanks and a sign, and is cut off at 2⁶³ − 1. -/
theorem C73_length_partial :
    parseContentLength [32, 43, 53, 13] 3 = some 5 ∧ parseContentLength [45, 48, 13] 2 = some 0 ∧
    parseContentLength (List.replicate 30 57 ++ [13]) 30 = some (2 ^ 63 - 1) := by decide +kernel

end Verif.Http
