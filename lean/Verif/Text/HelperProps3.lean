import Verif.Text.HelperProps2

/-! C143: `Trim`, comparison without case, numbers. C144: what is wrong. -/

namespace Verif.Text.Helper

/-! ## Lists -/

theorem takeWhile_all {p : UInt8 → Bool} : ∀ {s : Bytes}, (∀ c, c ∈ s → p c = true) → s.takeWhile p = s
  | [], _ => rfl
  | b :: r, h => by rw [List.takeWhile_cons, if_pos (h b (by simp)), takeWhile_all (fun c hc => h c (by simp [hc]))]

theorem dropWhile_all {p : UInt8 → Bool} : ∀ {s : Bytes}, (∀ c, c ∈ s → p c = true) → s.dropWhile p = []
  | [], _ => rfl
  | b :: r, h => by rw [List.dropWhile_cons, if_pos (h b (by simp)), dropWhile_all (fun c hc => h c (by simp [hc]))]

theorem mem_takeWhile {p : UInt8 → Bool} {c : UInt8} : ∀ {s : Bytes}, c ∈ s.takeWhile p → p c = true
  | [], h => by simp at h
  | b :: r, h => by
    rw [List.takeWhile_cons] at h
    split at h
    · next hb =>
      rcases List.mem_cons.mp h with rfl | h
      · exact hb
      · exact mem_takeWhile h
    · simp at h

/-! ## `Trim` -/

theorem firstNot_spec (c : UInt8) (s : Bytes) :
    (∀ k, firstNot c s = some k → s.drop k = s.dropWhile (· == c) ∧ k < s.length) ∧ (firstNot c s = none → s.dropWhile (· == c) = []) := by
  induction s with
  | nil => simp [firstNot]
  | cons b r ih =>
    by_cases hb : b = c
    · subst hb
      simp only [firstNot, if_true]
      refine ⟨fun k hk => ?_, fun hn => ?_⟩
      · cases e : firstNot b r with
        | none => simp [e] at hk
        | some j =>
          simp [e] at hk
          subst hk
          obtain ⟨h1, h2⟩ := ih.1 j e
          simpa using ⟨h1, h2⟩
      · have := ih.2 (by simpa using hn)
        simpa using this
    · simp only [firstNot, hb, if_false]
      refine ⟨fun k hk => ?_, by simp⟩
      cases hk
      simp [hb]

theorem firstNot_append {c : UInt8} {x y : Bytes} {k : Nat} (h : firstNot c x = some k) : firstNot c (x ++ y) = some k := by
  induction x generalizing k with
  | nil => simp [firstNot] at h
  | cons b r ih =>
    simp only [firstNot, List.cons_append] at h ⊢
    by_cases hb : b = c
    · rw [if_pos hb] at h ⊢
      cases e : firstNot c r with
      | none => simp [e] at h
      | some j => rw [ih e]; rwa [e] at h
    · rwa [if_neg hb] at h ⊢

/-- Not only blanks: there is one that is none. -/
theorem firstNot_mem {c b : UInt8} {s : Bytes} (hm : b ∈ s) (hb : b ≠ c) : ∃ k, firstNot c s = some k := by
  induction s with
  | nil => simp at hm
  | cons a r ih =>
    by_cases ha : a = c
    · subst ha
      have : b ∈ r := by simpa [hb] using hm
      obtain ⟨k, hk⟩ := ih this
      exact ⟨k + 1, by simp [firstNot, hk]⟩
    · exact ⟨0, by simp [firstNot, ha]⟩

/-- `Trim` takes away the blanks at both ends, of a string that is not empty. -/
theorem C143_trim (s : Bytes) (hs : s ≠ []) (hl : s.length < 2 ^ 63) : trim s = some (stripped s) := by
  obtain ⟨f, r, rfl⟩ : ∃ f r, s = f :: r := by
    cases s with
    | nil => exact absurd rfl hs
    | cons f r => exact ⟨f, r, rfl⟩
  simp only [trim]
  generalize hS : f :: r = S at *
  -- the first that is not a blank
  have h1 : (if f = 32 then firstNot 32 S else some 0) = firstNot 32 S := by
    subst hS
    by_cases hf : f = 32
    · simp [hf]
    · simp [hf, firstNot]
  rw [h1]
  cases hk : firstNot 32 S with
  | none => simp [stripped, (firstNot_spec 32 S).2 hk]
  | some k =>
    obtain ⟨h2, h3⟩ := (firstNot_spec 32 S).1 k hk
    simp only [stripped]
    rw [← h2]
    -- the last
    have hne : S.drop k ≠ [] := fun c => by have := congrArg List.length c; simp at this; omega
    obtain ⟨a, t, ha⟩ : ∃ a t, S.drop k = a :: t := by
      cases e : S.drop k with
      | nil => exact absurd e hne
      | cons a t => exact ⟨a, t, rfl⟩
    have hab : a ≠ 32 := by
      rintro rfl
      have := List.head?_dropWhile_not (· == (32 : UInt8)) S
      rw [← h2, ha] at this
      simp at this
    obtain ⟨j, hj⟩ := firstNot_mem (c := 32) (s := (S.drop k).reverse) (b := a) (by rw [ha]; simp) hab
    obtain ⟨h4, h5⟩ := (firstNot_spec 32 _).1 j hj
    have h6 : firstNot 32 S.reverse = some j := by
      have := firstNot_append (y := (S.take k).reverse) hj
      rwa [← List.reverse_append, List.take_append_drop] at this
    rw [← h4]
    simp only [List.length_reverse, List.length_drop] at h5
    have h7 : ((S.drop k).reverse.drop j).reverse = (S.drop k).take (S.length - k - j) := by
      rw [List.drop_reverse, List.reverse_reverse, List.length_drop]
    rw [h7]
    congr 1
    by_cases hlast : S.getLast? = some 32
    · rw [if_pos hlast, lastNot, h6]
      simp only [Option.map_some, Option.getD_some]
      rw [show (S.length - 1 - j + 2 ^ 64 - k + 1) % 2 ^ 64 = S.length - k - j from by omega]
    · rw [if_neg hlast]
      have hj0 : j = 0 := by
        rw [← List.head?_reverse] at hlast
        cases e : S.reverse with
        | nil => simp [e, firstNot] at h6
        | cons b q =>
          rw [e] at hlast h6
          have : b ≠ 32 := by simpa using hlast
          simp [firstNot, this] at h6
          omega
      subst hj0
      rw [show (S.length + 2 ^ 64 - k + 1) % 2 ^ 64 = S.length - k + 1 from by omega]
      rw [List.take_of_length_le (by simp), List.take_of_length_le (by simp)]

example : trim [32, 97, 32, 98, 32, 32] = some [97, 32, 98] := by decide +kernel

/-! ## Case -/

theorem toLower_ascii {c : UInt8} (h : c < 128) : toLower c = some (low c) := by simp [toLower, h, low]

/-- `ToLower` and `ToUpper` of ASCII characters change nothing but the case. -/
theorem C143_case (c : UInt8) (h : c < 128) : toLower c = some (low c) ∧ ∃ d, toUpper c = some d ∧ low d = low c ∧ ¬ (97 ≤ d ∧ d ≤ 122) ∧ (¬ (97 ≤ c ∧ c ≤ 122) → d = c) := by
  refine ⟨toLower_ascii h, if 97 ≤ c ∧ c ≤ 122 then c - 32 else c, by simp [toUpper, h], ?_⟩
  simp only [low]
  split <;> simp only [UInt8.le_iff_toNat_le, UInt8.lt_iff_toNat_lt, ← UInt8.toNat_inj] at *
  · have e : (c - 32).toNat = c.toNat - 32 := by
      rw [UInt8.toNat_sub_of_le]; · rfl
      rw [UInt8.le_iff_toNat_le]; simp at *; omega
    have h1 : 65 ≤ (c - 32).toNat ∧ (c - 32).toNat ≤ 90 := by simp at *; omega
    have h2 : ¬ (65 ≤ c.toNat ∧ c.toNat ≤ 90) := by simp at *; omega
    simp at *
    grind
  · simp at *
    grind

example : toLower 65 = some 97 ∧ toUpper 122 = some 90 ∧ toUpper 64 = some 64 := by decide

/-- `IEquals` of ASCII strings ignores exactly the case of letters. -/
theorem C143_iequals (a b : Bytes) (ha : ∀ c, c ∈ a → c < 128) (hb : ∀ c, c ∈ b → c < 128) : iequals a b = some (decide (a.map low = b.map low)) := by
  rw [iequals]
  split
  · next h => 
    have : a.map low ≠ b.map low := fun c => h (by simpa using congrArg List.length c)
    simp [this]
  · next h =>
    have h : a.length = b.length := Classical.not_not.mp h
    induction a generalizing b with
    | nil =>
      cases b with
      | nil => rfl
      | cons => simp at h
    | cons x r ih =>
      cases b with
      | nil => simp at h
      | cons y t =>
        simp only [iequalsLoop, toLower_ascii (ha x (by simp)), toLower_ascii (hb y (by simp))]
        by_cases e : low x = low y
        · rw [if_pos e, ih t (fun c hc => ha c (by simp [hc])) (fun c hc => hb c (by simp [hc])) (by simpa using h) (by simpa using h)]
          simp [e]
        · simp [e]

example : iequals [71, 122] [103, 90] = some true := by decide

/-! ## Numbers -/

theorem digits_scan {ds : Bytes} (hne : ds ≠ []) (hd : ∀ c, c ∈ ds → isDigit c = true) : ds.takeWhile (· != 0) = ds ∧ scan ds = some (false, ds, []) := by
  have h0 : ∀ c, c ∈ ds → (c != 0) = true := fun c hc => by
    have := hd c hc
    simp [isDigit] at this
    simp; rintro rfl; exact absurd this.1 (by decide)
  have h1 : ds.dropWhile isSpace = ds := by
    cases ds with
    | nil => rfl
    | cons c r =>
      have := hd c (by simp)
      have hs : isSpace c = false := by
        simp only [isDigit, isSpace, Bool.and_eq_true, decide_eq_true_eq, UInt8.le_iff_toNat_le, Bool.or_eq_false_iff, beq_eq_false_iff_ne, Bool.and_eq_false_iff, decide_eq_false_iff_not, ne_eq, ← UInt8.toNat_inj] at *
        simp at *
        omega
      simp [hs]
  have h2 : ds.head? ≠ some 45 ∧ ds.head? ≠ some 43 := by
    cases ds with
    | nil => simp
    | cons c r =>
      have := hd c (by simp)
      constructor <;> (simp; rintro rfl; exact absurd this (by decide))
  have h3 : ds.takeWhile isDigit = ds := takeWhile_all hd
  have h4 : ds.dropWhile isDigit = [] := dropWhile_all hd
  refine ⟨takeWhile_all h0, ?_⟩
  simp [scan, h1, h2, h3, h4, hne]

/-- `TryParse` of digits: the number if it is in the range of the type, nothing otherwise. (For the greatest of all numbers, `errno` has to be clear.) -/
theorem C143_unsigned (max : Nat) (hm : max < 2 ^ 64) (err : Bool) (ds : Bytes) (hne : ds ≠ []) (hd : ∀ c, c ∈ ds → isDigit c = true) (he : err = false ∨ max < 2 ^ 64 - 1) :
    (parseU max err ds).1 = if num ds ≤ max then some (num ds) else none := by
  obtain ⟨h1, h2⟩ := digits_scan hne hd
  simp only [parseU, h1, h2, hne, if_false, Bool.false_eq_true, ne_eq, not_true_eq_false]
  by_cases hb : 2 ^ 64 ≤ num ds
  · simp only [hb, if_true, decide_true, Bool.or_true, and_self]
    rw [if_neg (by omega)]
  · simp only [hb, if_false, decide_false, Bool.or_false]
    by_cases hv : num ds = 2 ^ 64 - 1 ∧ err = true
    · rw [if_pos hv, if_neg (by rcases he with he | he <;> grind)]
    · rw [if_neg hv]
      by_cases hx : max < num ds
      · rw [if_pos hx, if_neg (by omega)]
      · rw [if_neg hx, if_pos (by omega)]

/-- The digits are `0` to `9`, and what may come before is blank, tab, and the line breaks. -/
theorem C143_chars (c : UInt8) : (isDigit c = true ↔ 48 ≤ c.toNat ∧ c.toNat ≤ 57) ∧ (isSpace c = true ↔ c.toNat = 32 ∨ 9 ≤ c.toNat ∧ c.toNat ≤ 13) := by
  simp [isDigit, isSpace, UInt8.le_iff_toNat_le, ← UInt8.toNat_inj]

/-- What is accepted without a minus sign, and ends where the string ends, is the number that its digits are. -/
theorem C143_sound (max : Nat) (err : Bool) (str : Bytes) (v : Nat) (h : (parseU max err str).1 = some v) (hn : 45 ∉ str) (h0 : 0 ∉ str) :
    v ≤ max ∧ ∃ pre ds, str = pre ++ ds ∧ ds ≠ [] ∧ (∀ c, c ∈ ds → isDigit c = true) ∧ (∀ c, c ∈ pre → isSpace c = true ∨ c = 43) ∧ v = num ds := by
  have h1 : str.takeWhile (· != 0) = str := takeWhile_all (fun c hc => by simp; rintro rfl; exact h0 hc)
  simp only [parseU, h1] at h
  split at h
  · cases h
  next hne =>
  cases hs : scan str with
  | none => simp [hs] at h
  | some q =>
    obtain ⟨neg, ds, rest⟩ := q
    simp only [hs] at h
    -- what was scanned
    have hsc : neg = false ∧ ds ≠ [] ∧ (∀ c, c ∈ ds → isDigit c = true) ∧ ∃ pre, (∀ c, c ∈ pre → isSpace c = true ∨ c = 43) ∧ str = pre ++ (ds ++ rest) := by
      simp only [scan] at hs
      have hh : (str.dropWhile isSpace).head? ≠ some 45 := fun c => hn ((List.dropWhile_suffix _).subset (List.mem_of_mem_head? (by rw [c]; rfl)))
      simp only [hh, false_or] at hs
      have split0 : str = str.takeWhile isSpace ++ str.dropWhile isSpace := (List.takeWhile_append_dropWhile).symm
      have sp : ∀ c, c ∈ str.takeWhile isSpace → isSpace c = true := fun c hc => mem_takeWhile hc
      by_cases hp : (str.dropWhile isSpace).head? = some 43
      · simp only [hp, if_true] at hs
        split at hs
        · cases hs
        next hne' =>
        cases hs
        obtain ⟨t, ht⟩ : ∃ t, str.dropWhile isSpace = 43 :: t := by
          cases e : str.dropWhile isSpace with
          | nil => simp [e] at hp
          | cons a t => simp [e] at hp; exact ⟨t, by rw [hp]⟩
        refine ⟨by simp, hne', fun c hc => mem_takeWhile hc, str.takeWhile isSpace ++ [43], ?_, ?_⟩
        · intro c hc
          rcases List.mem_append.mp hc with hc | hc
          · exact .inl (sp c hc)
          · exact .inr (by simpa using hc)
        · rw [List.takeWhile_append_dropWhile, ht]
          conv => lhs; rw [split0, ht]
          simp
      · simp only [hp, if_false] at hs
        split at hs
        · cases hs
        next hne' =>
        cases hs
        refine ⟨by simpa using hh, hne', fun c hc => mem_takeWhile hc, str.takeWhile isSpace, fun c hc => .inl (sp c hc), ?_⟩
        rw [List.takeWhile_append_dropWhile]
        exact split0
    obtain ⟨rfl, hd1, hd2, pre, hp1, hp2⟩ := hsc
    by_cases hr : rest = []
    · subst hr
      simp only [ne_eq, not_true_eq_false, if_false, Bool.false_eq_true] at h
      by_cases hb : 2 ^ 64 ≤ num ds
      · simp [hb] at h
      · simp only [hb, if_false, decide_false, Bool.or_false] at h
        split at h
        · cases h
        split at h
        · cases h
        · next hx => cases h; exact ⟨by omega, pre, ds, by simpa using hp2, hd1, hd2, hp1, rfl⟩
    · simp [hr] at h

/-- The same of signed types. -/
theorem C143_signed (lo hi : Int) (hlo : -2 ^ 63 ≤ lo) (hhi : hi < 2 ^ 63) (hz : lo ≤ 0 ∧ 0 ≤ hi) (ds : Bytes) (hne : ds ≠ []) (hd : ∀ c, c ∈ ds → isDigit c = true) :
    (parseS lo hi false ds).1 = (if (num ds : Int) ≤ hi then some (num ds : Int) else none) ∧ (parseS lo hi false (45 :: ds)).1 = (if lo ≤ -(num ds : Int) then some (-(num ds : Int)) else none) := by
  obtain ⟨h1, h2⟩ := digits_scan hne hd
  have h3 : (45 :: ds).takeWhile (· != 0) = 45 :: ds := by simp [h1]
  have h4 : scan (45 :: ds) = some (true, ds, []) := by
    have t1 : ds.takeWhile isDigit = ds := takeWhile_all hd
    have t2 : ds.dropWhile isDigit = [] := dropWhile_all hd
    have t3 : isSpace 45 = false := by decide
    simp [scan, t1, t2, t3, hne]
  constructor
  · simp only [parseS, h1, h2, hne, if_false, Bool.false_eq_true, ne_eq, not_true_eq_false, Bool.false_or]
    by_cases hb : (2 : Int) ^ 63 ≤ num ds
    · rw [if_neg (show ¬ ((num ds : Int) < -2 ^ 63) by omega), if_pos hb, if_pos ⟨.inr rfl, by simp; omega⟩, if_neg (by omega)]
    · rw [if_neg (show ¬ ((num ds : Int) < -2 ^ 63) by omega), if_neg hb]
      rw [if_neg (by intro c; have := c.2; simp at this; omega)]
      by_cases hx : (num ds : Int) ≤ hi
      · rw [if_neg (by omega), if_pos hx]
      · rw [if_pos (by omega), if_neg hx]
  · simp only [parseS, h3, h4, List.cons_ne_nil, if_false, if_true, ne_eq, not_true_eq_false, Bool.false_or]
    by_cases hb : -(num ds : Int) < -2 ^ 63
    · rw [if_pos hb, if_pos ⟨.inl rfl, by simp; omega⟩, if_neg (by omega)]
    · rw [if_neg hb, if_neg (show ¬ ((2 : Int) ^ 63 ≤ -(num ds : Int)) by omega)]
      rw [if_neg (by intro c; have := c.2; simp at this; omega)]
      by_cases hx : lo ≤ -(num ds : Int)
      · rw [if_neg (by omega), if_pos hx]
      · rw [if_pos (by omega), if_neg hx]

example : (parseU 255 false [50, 53, 53]).1 = some 255 ∧ (parseU 255 false [50, 53, 54]).1 = none := by decide +kernel

/-! ## What is wrong -/

/-- `Trim` of the empty string is undefined, and other white space than blanks stays. -/
theorem C144_trim_partial : trim [] = none ∧ ∀ s : Bytes, s.length + 2 < 2 ^ 63 → trim (9 :: s ++ [9]) = some (9 :: s ++ [9]) := by
  refine ⟨rfl, fun s h => ?_⟩
  rw [C143_trim _ (by simp) (by simpa using h)]
  simp [stripped]

/-- `ToLower`, `ToUpper` and `IEquals` are undefined for bytes outside of ASCII. -/
theorem C144_case_partial (c d : UInt8) (a b : Bytes) (h : 128 ≤ c) (hl : a.length = b.length) : toLower c = none ∧ toUpper c = none ∧ iequals (c :: a) (d :: b) = none := by
  have hc : ¬ c < 128 := by simpa using h
  refine ⟨by simp [toLower, hc], by simp [toUpper, hc], ?_⟩
  simp [iequals, hl, iequalsLoop, toLower, hc]

/-- Negative numbers are accepted as unsigned ones: `-n` as `2^64 - n`, if that is in the range. -/
theorem C144_negative_partial (max : Nat) (ds : Bytes) (hne : ds ≠ []) (hd : ∀ c, c ∈ ds → isDigit c = true) (h0 : 0 < num ds) (hv : num ds < 2 ^ 64) (hm : 2 ^ 64 - num ds ≤ max) :
    (parseU max false (45 :: ds)).1 = some (2 ^ 64 - num ds) := by
  obtain ⟨h1, -⟩ := digits_scan hne hd
  have h3 : (45 :: ds).takeWhile (· != 0) = 45 :: ds := by simp [h1]
  have h4 : scan (45 :: ds) = some (true, ds, []) := by
    have t1 : ds.takeWhile isDigit = ds := takeWhile_all hd
    have t2 : ds.dropWhile isDigit = [] := dropWhile_all hd
    have t3 : isSpace 45 = false := by decide
    simp [scan, t1, t2, t3, hne]
  simp only [parseU, h3, h4, List.cons_ne_nil, if_false, if_true, ne_eq, not_true_eq_false, Bool.false_or]
  have e : (2 ^ 64 - num ds) % 2 ^ 64 = 2 ^ 64 - num ds := by omega
  have hb : ¬ 2 ^ 64 ≤ num ds := by omega
  simp only [hb, if_false, decide_false, e, Bool.false_eq_true, and_false]
  rw [if_neg (by omega)]

example : (parseU 255 false [45, 49, 56, 52, 52, 54, 55, 52, 52, 48, 55, 51, 55, 48, 57, 53, 53, 49, 54, 49, 53]).1 = some 1 := by decide +kernel

/-- What follows a zero byte is ignored. -/
theorem C144_zero_partial (max : Nat) (err : Bool) (s t : Bytes) (hs : 0 ∉ s) : parseU max err (s ++ 0 :: t) = parseU max err s := by
  have h1 : s.takeWhile (· != 0) = s := takeWhile_all (fun c hc => by simp; rintro rfl; exact hs hc)
  have h2 : (s ++ 0 :: t).takeWhile (· != 0) = s := by
    rw [List.takeWhile_append, h1]; simp
  simp only [parseU, h1, h2]

/-- The result depends on errors of earlier calls: the greatest number is refused after any that was out of range. -/
theorem C144_errno_partial (ds : Bytes) (hne : ds ≠ []) (hd : ∀ c, c ∈ ds → isDigit c = true) (hv : num ds = 2 ^ 64 - 1) :
    (parseU (2 ^ 64 - 1) false ds).1 = some (num ds) ∧ (parseU (2 ^ 64 - 1) true ds).1 = none := by
  obtain ⟨h1, h2⟩ := digits_scan hne hd
  constructor
  · rw [C143_unsigned _ (by omega) _ ds hne hd (.inl rfl), if_pos (by omega)]
  · simp only [parseU, h1, h2, hne, if_false, Bool.false_eq_true, ne_eq, not_true_eq_false, hv]
    simp

/-- `Split` does not treat the empty string as one empty part, and a check fails for an empty delimiter. -/
theorem C144_split_partial (d s : Bytes) (keep : Bool) : split [] d keep = some [] ∧ (s ≠ [] → split s [] keep = none) :=
  ⟨by simp [split], fun h => by simp [split, h]⟩

/-- `Join` of parts of 4 GiB together is the empty string, and of more than 2 GiB may throw. -/
theorem C144_join_partial (p : Bytes) : (p.length = 2 ^ 32 → join [p] [] = some []) ∧ (p.length = 2 ^ 31 → join [p] [] = none) := by
  refine ⟨fun h => ?_, fun h => ?_⟩ <;> simp [join, wrap, h]

end Verif.Text.Helper
