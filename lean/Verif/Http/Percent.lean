import Verif.Http.Base64
/-!
# Percent-encoding (util/http/util.cc, util.h)
-/

namespace Verif.Http

def isAlpha (c : UInt8) : Bool := (65 ≤ c && c ≤ 90) || (97 ≤ c && c ≤ 122)
def isDigit (c : UInt8) : Bool := 48 ≤ c && c ≤ 57
/-- `isxdigit`. -/
def isXDigit (c : UInt8) : Bool := isDigit c || (65 ≤ c && c ≤ 70) || (97 ≤ c && c ≤ 102)

/-- `InRfc3986UnreservedChars` (util.cc:84-90), in the C locale. -/
def unreserved (c : UInt8) : Bool := isAlpha c || isDigit c || [45, 46, 95, 126].contains c

/-- `InRfc3986SubDelimiters` (lines 92-96). -/
def subDelim (c : UInt8) : Bool := [33, 36, 38, 39, 40, 41, 42, 43, 44, 59, 61].contains c

/-- `kUpperXDigits[i]`. -/
def upperXDigit (i : Nat) : UInt8 := [48, 49, 50, 51, 52, 53, 54, 55, 56, 57, 65, 66, 67, 68, 69, 70].getD i 0

/-- `PercentEncode` (lines 175-190). -/
def percentEncode : Bytes → Bytes
  | [] => []
  | c :: s =>
    if unreserved c then c :: percentEncode s
    else 37 :: upperXDigit (c.toNat >>> 4) :: upperXDigit (c.toNat &&& 0x0f) :: percentEncode s

/-- `PercentEncodePath` (lines 196-209); `(c >> 4) & 0x0f` is the same for signed and unsigned characters. -/
def percentEncodePath : Bytes → Bytes
  | [] => []
  | c :: s =>
    if unreserved c || subDelim c || c = 47 then c :: percentEncodePath s
    else 37 :: upperXDigit (c.toNat >>> 4) :: upperXDigit (c.toNat &&& 0x0f) :: percentEncodePath s

/-- `HexToUint` (lines 111-123). -/
def hexToUint (c : UInt8) : Nat :=
  if 48 ≤ c ∧ c ≤ 57 then c.toNat - 48
  else if 65 ≤ c ∧ c ≤ 90 then c.toNat - 65 + 10
  else if 97 ≤ c ∧ c ≤ 122 then c.toNat - 97 + 10
  else 256

/-- `PercentDecode` (util.h:76-97). -/
def percentDecode : Bytes → Bytes
  | [] => []
  | c :: s =>
    if c ≠ 37 then c :: percentDecode s
    else
      match s with
      | a :: b :: r =>
        if isXDigit a && isXDigit b then UInt8.ofNat ((hexToUint a <<< 4) + hexToUint b) :: percentDecode r
        else c :: percentDecode (a :: b :: r)
      | s => c :: percentDecode s

/-- `HexToByte` (util.cc:63-70): the value of the `char`, which is signed. `c - '0'` may be negative, but is not below
−128−48, and is cut to a `char` again. -/
def hexToByte (c : UInt8) : Int :=
  let i : Int := if c.toNat < 128 then c.toNat else c.toNat - 256
  if 97 ≤ i ∧ i ≤ 122 then i - 97 + 10
  else if 65 ≤ i ∧ i ≤ 90 then i - 65 + 10
  else (i - 48 + 128) % 256 - 128

/-- `HexstrToChar` (lines 59-61). -/
def hexstrToChar (a b : UInt8) : UInt8 := UInt8.ofNat ((hexToByte a * 16 + hexToByte b) % 256).toNat

/-- `UrlDecode` (lines 37-57): `none` if `false` is returned. -/
def urlDecode : Bytes → Option Bytes
  | [] => some []
  | c :: s =>
    if c = 37 then
      match s with
      | a :: b :: r => (urlDecode r).map (hexstrToChar a b :: ·)
      | _ => none
    else if c = 43 then (urlDecode s).map (32 :: ·)
    else (urlDecode s).map (c :: ·)

/-- `ParseUint` with `ParseUintDigits` (util.cc:126-169): `none` for −1. -/
def parseUintLoop : Bytes → Nat → Option Nat
  | [], n => some n
  | c :: s, n =>
    if 48 ≤ c ∧ c ≤ 57 then
      if (2 ^ 63 - 1) / 10 < n then none
      else if (2 ^ 63 - 1) - (c.toNat - 48) < n * 10 then none
      else parseUintLoop s (n * 10 + (c.toNat - 48))
    else none

def parseUint (s : Bytes) : Option Nat := if s = [] then none else parseUintLoop s 0

/-- `isspace` in the C locale. -/
def isSpace (c : UInt8) : Bool := c = 32 || (9 ≤ c && c ≤ 13)

/-- The value of the digits at the beginning of `s`, and how many there are. -/
def digits : Bytes → Nat → Nat → Nat × Nat
  | c :: s, v, n => if isDigit c then digits s (v * 10 + (c.toNat - 48)) (n + 1) else (v, n)
  | [], v, n => (v, n)

/-- An optional sign: whether it is a minus, and its length. -/
def signOf : Bytes → Bool × Nat
  | 45 :: _ => (true, 1)
  | 43 :: _ => (false, 1)
  | _ => (false, 0)

/-- `std::strtoll(str, &end_ptr, 10)`: the value (saturated) and `end_ptr - str`. -/
def strtoll (s : Bytes) : Int × Nat :=
  let blanks := (s.takeWhile isSpace).length
  let t := s.drop blanks
  let (minus, sign) := signOf t
  let (v, n) := digits (t.drop sign) 0 0
  if n = 0 then (0, 0)
  else (if minus then max (-(v : Int)) (-2 ^ 63) else min (v : Int) (2 ^ 63 - 1), blanks + sign + n)

/-- `ParseContentLength` (util.cc:214-220; http_client_proto_checker_impl.cc:44-50 is the same): `s` is the value and what
follows it in memory, which has a byte that is not a digit. -/
def parseContentLength (s : Bytes) (len : Nat) : Option Nat :=
  let (v, n) := strtoll s
  if len ≠ 0 ∧ 0 ≤ v ∧ n = len then some v.toNat else none

end Verif.Http
