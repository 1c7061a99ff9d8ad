/-!
# Base64 (util/http/base64.h)

Characters are bytes; where the code uses them as `char`, which is signed, this is said.
-/

namespace Verif.Http

abbrev Bytes := List UInt8

/-- `kB64Chars` (lines 22-27). -/
def kB64Chars : List UInt8 :=
  [65, 66, 67, 68, 69, 70, 71, 72, 73, 74, 75, 76, 77, 78, 79, 80,
   81, 82, 83, 84, 85, 86, 87, 88, 89, 90, 97, 98, 99, 100, 101, 102,
   103, 104, 105, 106, 107, 108, 109, 110, 111, 112, 113, 114, 115, 116, 117, 118,
   119, 120, 121, 122, 48, 49, 50, 51, 52, 53, 54, 55, 56, 57, 43, 47]

/-- `kIndexes` (lines 68-80). -/
def kIndexes : List Int :=
  [-1, -1, -1, -1, -1, -1, -1, -1, -1, -1, -1, -1, -1, -1, -1, -1, -1, -1, -1, -1, -1, -1,
   -1, -1, -1, -1, -1, -1, -1, -1, -1, -1, -1, -1, -1, -1, -1, -1, -1, -1, -1, -1, -1, 62,
   -1, -1, -1, 63, 52, 53, 54, 55, 56, 57, 58, 59, 60, 61, -1, -1, -1, -1, -1, -1, -1, 0,
   1, 2, 3, 4, 5, 6, 7, 8, 9, 10, 11, 12, 13, 14, 15, 16, 17, 18, 19, 20, 21, 22,
   23, 24, 25, -1, -1, -1, -1, -1, -1, 26, 27, 28, 29, 30, 31, 32, 33, 34, 35, 36, 37, 38,
   39, 40, 41, 42, 43, 44, 45, 46, 47, 48, 49, 50, 51, -1, -1, -1, -1, -1, -1, -1, -1, -1,
   -1, -1, -1, -1, -1, -1, -1, -1, -1, -1, -1, -1, -1, -1, -1, -1, -1, -1, -1, -1, -1, -1,
   -1, -1, -1, -1, -1, -1, -1, -1, -1, -1, -1, -1, -1, -1, -1, -1, -1, -1, -1, -1, -1, -1,
   -1, -1, -1, -1, -1, -1, -1, -1, -1, -1, -1, -1, -1, -1, -1, -1, -1, -1, -1, -1, -1, -1,
   -1, -1, -1, -1, -1, -1, -1, -1, -1, -1, -1, -1, -1, -1, -1, -1, -1, -1, -1, -1, -1, -1,
   -1, -1, -1, -1, -1, -1, -1, -1, -1, -1, -1, -1, -1, -1, -1, -1, -1, -1, -1, -1, -1, -1,
   -1, -1, -1, -1, -1, -1, -1, -1, -1, -1, -1, -1, -1, -1]

/-- `kB64Chars[i]`. -/
def b64Char (i : Nat) : UInt8 := kB64Chars.getD i 0

/-- `n = a << 16 + b << 8 + c`. -/
def word (a b c : UInt8) : Nat := (a.toNat <<< 16) + (b.toNat <<< 8) + c.toNat

/-- `Base64Encode` (lines 20-63): the loop over groups of three bytes and what is left. -/
def base64Encode : Bytes → Bytes
  | a :: b :: c :: rest =>
    let n := word a b c
    b64Char (n >>> 18) :: b64Char (n >>> 12 &&& 0x3f) :: b64Char (n >>> 6 &&& 0x3f) :: b64Char (n &&& 0x3f) :: base64Encode rest
  | [a, b] =>
    let n := word a b 0
    [b64Char (n >>> 18), b64Char (n >>> 12 &&& 0x3f), b64Char (n >>> 6 &&& 0x3f), 61]
  | [a] =>
    let n := word a 0 0
    [b64Char (n >>> 18), b64Char (n >>> 12 &&& 0x3f), 61, 61]
  | [] => []

/-- `kIndexes[static_cast<size_t>(*first)]`: `char` is signed, so from 128 on the index is close to 2⁶⁴ and the access is
outside of the table (`none`). -/
def index (c : UInt8) : Option Int := if c.toNat < 128 then kIndexes[c.toNat]? else none

/-- What decoding returns: the text; `""` (the code returns `d_first`, and the string is erased from there on); an access
outside of the table. -/
inductive Dec where
  | ok (s : Bytes)
  | refused
  | ub
  deriving Repr, DecidableEq

/-- The loop of `Base64Decode` (lines 84-113), a round per group of four; `out` is what was written. -/
def decodeLoop : Bytes → Bytes → Dec
  | [], out => .ok out
  | c1 :: c2 :: c3 :: c4 :: rest, out =>
    match index c1 with
    | none => .ub
    | some i1 =>
      if i1 = -1 then .refused
      else
        match index c2 with
        | none => .ub
        | some i2 =>
          if i2 = -1 then .refused
          else
            match index c3 with
            | none => .ub
            | some i3 =>
              let n := (i1.toNat <<< 18) + (i2.toNat <<< 12)
              if i3 = -1 then
                if c3 = 61 ∧ c4 = 61 ∧ rest = [] then .ok (out ++ [UInt8.ofNat (n >>> 16)]) else .refused
              else
                match index c4 with
                | none => .ub
                | some i4 =>
                  let n := n + (i3.toNat <<< 6)
                  if i4 = -1 then
                    if c4 = 61 ∧ rest = [] then .ok (out ++ [UInt8.ofNat (n >>> 16), UInt8.ofNat (n >>> 8 &&& 0xff)]) else .refused
                  else
                    let n := n + i4.toNat
                    decodeLoop rest (out ++ [UInt8.ofNat (n >>> 16), UInt8.ofNat (n >>> 8 &&& 0xff), UInt8.ofNat (n &&& 0xff)])
  | _, _ => .ub

/-- `Base64Decode` of a string (lines 138-147). -/
def base64Decode (s : Bytes) : Dec := if s.length % 4 ≠ 0 then .refused else decodeLoop s []

end Verif.Http
