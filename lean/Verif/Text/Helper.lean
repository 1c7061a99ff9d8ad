/-!
# Helpers for strings

/repo/trpc/util/string/string_helper.{h,cc}

Strings are lists of bytes. `none` as outcome of a function stands for undefined behaviour or a failed check, if it is not part of the result of the function.
The functions of the standard library (`find`, `substr`, `strtoll`, `strtoull` in the "C" locale) are as the standards say. `char` is signed and `int` has 32 bits.
Left out: parsing of floating point numbers, of `bool`, and in other bases than 10; `Format`; memory that runs out.
-/

namespace Verif.Text.Helper

abbrev Bytes := List UInt8

/-- `std::string_view::find`: where `p` first occurs. -/
def find (p : Bytes) : Bytes → Option Nat
  | [] => if p = [] then some 0 else none
  | c :: r => if p.isPrefixOf (c :: r) then some 0 else (find p r).map (· + 1)

/-- `StartsWith`, `EndsWith` (.cc:97-103) -/
def startsWith (s p : Bytes) : Bool := decide (s.length ≥ p.length) && s.take p.length == p

def endsWith (s p : Bytes) : Bool := decide (s.length ≥ p.length) && s.drop (s.length - p.length) == p

theorem find_le {p s : Bytes} {k : Nat} (h : find p s = some k) : k + p.length ≤ s.length := by
  induction s generalizing k with
  | nil =>
    by_cases e : p = []
    · subst e; simp [find] at h; subst h; simp
    · simp [find, e] at h
  | cons c r ih =>
    rw [find] at h
    split at h
    · next hp =>
      cases h
      have := (List.isPrefixOf_iff_prefix.mp hp).length_le
      omega
    · cases e : find p r with
      | none => simp [e] at h
      | some j =>
        simp [e] at h
        have := ih e
        simp; omega

/-- The loop of `Split` (.cc:146-161). -/
def splitLoop (d : Bytes) (hd : d ≠ []) (keep : Bool) (cur : Bytes) : List Bytes :=
  match h : find d cur with
  | none => [cur]
  | some pos =>
    (if pos ≠ 0 ∨ keep = true then [cur.take pos] else []) ++
      if cur.drop (pos + d.length) = [] then (if keep then [[]] else []) else splitLoop d hd keep (cur.drop (pos + d.length))
termination_by cur.length
decreasing_by
  have h1 := find_le h
  have h2 := List.length_pos_iff.mpr hd
  simp only [List.length_drop]
  omega

/-- `Split` (.cc:139-163); the check fails for an empty delimiter. -/
def split (s d : Bytes) (keep : Bool) : Option (List Bytes) :=
  if s = [] then some []
  else if hd : d = [] then none
  else some (splitLoop d hd keep s)

/-- A number of 32 bits as an `int`. -/
def wrap (n : Int) : Int := (n + 2 ^ 31) % 2 ^ 32 - 2 ^ 31

/-- `JoinImpl` (.cc:74-93): sizes are added up in an `int`; `reserve` of a negative number throws. -/
def join (parts : List Bytes) (d : Bytes) : Option Bytes :=
  let size := parts.foldl (fun n e => wrap (n + e.length + d.length)) 0
  if size = 0 then some []
  else if wrap (size - d.length) < 0 then none
  else some (parts.tail.foldl (fun r e => r ++ d ++ e) (parts.headD []))

/-- The loop of `Replace` (.cc:108-111). -/
def replaceLoop (from_ to : Bytes) : Nat → Bytes → Option Nat → Bytes
  | _, str, none => str
  | 0, str, some _ => str
  | n + 1, str, some p =>
    let str' := str.take p ++ to ++ str.drop (p + from_.length)
    replaceLoop from_ to n str' ((find from_ (str'.drop (p + to.length))).map (· + (p + to.length)))

/-- `Replace` (.cc:105-119) -/
def replace (str from_ to : Bytes) (count : Nat) : Option Bytes :=
  if from_ = [] then none else some (replaceLoop from_ to count str (find from_ str))

/-- `find_first_not_of`, `find_last_not_of` -/
def firstNot (c : UInt8) : Bytes → Option Nat
  | [] => none
  | b :: r => if b = c then (firstNot c r).map (· + 1) else some 0

def lastNot (c : UInt8) (s : Bytes) : Option Nat := (firstNot c s.reverse).map (fun k => s.length - 1 - k)

/-- `Trim` (.cc:121-133); `front` of an empty string is undefined. `e - s + 1` is computed modulo 2^64, `npos` is 2^64 - 1. -/
def trim (str : Bytes) : Option Bytes :=
  match str with
  | [] => none
  | f :: _ =>
    match (if f = 32 then firstNot 32 str else some 0) with
    | none => some []
    | some s =>
      let e := if str.getLast? = some 32 then (lastNot 32 str).getD (2 ^ 64 - 1) else str.length
      some ((str.drop s).take ((e + 2 ^ 64 - s + 1) % 2 ^ 64))

/-- `ToLower`, `ToUpper` of a `char` (.cc:177-178): the index of the table is a negative number for bytes from 128 on. -/
def toLower (c : UInt8) : Option UInt8 := if c < 128 then some (if 65 ≤ c ∧ c ≤ 90 then c + 32 else c) else none

def toUpper (c : UInt8) : Option UInt8 := if c < 128 then some (if 97 ≤ c ∧ c ≤ 122 then c - 32 else c) else none

/-- The loop of `IEquals` (.cc:214-219). -/
def iequalsLoop : Bytes → Bytes → Option Bool
  | a :: r, b :: t =>
    match toLower a, toLower b with
    | some x, some y => if x = y then iequalsLoop r t else some false
    | _, _ => none
  | _, _ => some true

/-- `IEquals` (.cc:210-220) -/
def iequals (a b : Bytes) : Option Bool := if a.length ≠ b.length then some false else iequalsLoop a b

/-! ## `TryParse` of integers -/

def isSpace (c : UInt8) : Bool := c == 32 || (9 ≤ c && c ≤ 13)

def isDigit (c : UInt8) : Bool := 48 ≤ c && c ≤ 57

/-- The number that decimal digits stand for. -/
def num (l : Bytes) : Nat := l.foldl (fun n c => n * 10 + (c.toNat - 48)) 0

/-- What `strtoll` and `strtoull` read: the sign, the digits, and what is left; nothing without digits. -/
def scan (s : Bytes) : Option (Bool × Bytes × Bytes) :=
  let t := s.dropWhile isSpace
  let neg := t.head? == some 45
  let t := if t.head? = some 45 ∨ t.head? = some 43 then t.tail else t
  if t.takeWhile isDigit = [] then none else some (neg, t.takeWhile isDigit, t.dropWhile isDigit)

/-- `TryParseImpl` and `TryNarrowCast` (.cc:48-72, 253-254) of an unsigned type with the greatest value `max`. `err`: `errno` is `ERANGE` before the call. The result and the same of `errno` after the call. -/
def parseU (max : Nat) (err : Bool) (str : Bytes) : Option Nat × Bool :=
  let s := str.takeWhile (· != 0)
  if s = [] then (none, err)
  else match scan s with
    | none => (none, err)
    | some (neg, ds, rest) =>
      let v := if 2 ^ 64 ≤ num ds then 2 ^ 64 - 1 else if neg then (2 ^ 64 - num ds) % 2 ^ 64 else num ds
      let err' := err || decide (2 ^ 64 ≤ num ds)
      if rest ≠ [] then (none, err')
      else if v = 2 ^ 64 - 1 ∧ err' = true then (none, err')
      else if max < v then (none, err')
      else (some v, err')

/-- The same of a signed type (.cc:250-251) with the range from `lo` to `hi`. -/
def parseS (lo hi : Int) (err : Bool) (str : Bytes) : Option Int × Bool :=
  let s := str.takeWhile (· != 0)
  if s = [] then (none, err)
  else match scan s with
    | none => (none, err)
    | some (neg, ds, rest) =>
      let x : Int := if neg then -(num ds : Int) else num ds
      let v := if x < -2 ^ 63 then -2 ^ 63 else if 2 ^ 63 ≤ x then 2 ^ 63 - 1 else x
      let err' := err || decide (x < -2 ^ 63 ∨ 2 ^ 63 ≤ x)
      if rest ≠ [] then (none, err')
      else if (v = -2 ^ 63 ∨ v = 2 ^ 63 - 1) ∧ err' = true then (none, err')
      else if hi < v ∨ v < lo then (none, err')
      else (some v, err')

/-! ## Specification -/

/-- `s` cut at the occurrences of `d`, from the left. -/
inductive Cut (d : Bytes) : Bytes → List Bytes → Prop
  | whole {s : Bytes} (h : ¬ d <:+: s) : Cut d s [s]
  | part {p r : Bytes} {ps : List Bytes} (h : ∀ k, k < p.length → ¬ d <+: (p ++ (d ++ r)).drop k) (hr : Cut d r ps) : Cut d (p ++ (d ++ r)) (p :: ps)

/-- The pieces with `a` between the first `n` pairs and `b` between the others. -/
def mix (a b : Bytes) : Nat → List Bytes → Bytes
  | _, [] => []
  | _, [p] => p
  | 0, p :: ps => p ++ (b ++ mix a b 0 ps)
  | n + 1, p :: ps => p ++ (a ++ mix a b n ps)

/-- Without blanks at both ends. -/
def stripped (s : Bytes) : Bytes := ((s.dropWhile (· == 32)).reverse.dropWhile (· == 32)).reverse

/-- The small letter for a capital one. -/
def low (c : UInt8) : UInt8 := if 65 ≤ c ∧ c ≤ 90 then c + 32 else c

end Verif.Text.Helper
