/-!
# The redis serialization protocol (RESP), as far as clients see it

This file does not mention how the reader works.
-/

namespace Verif.Redis

abbrev Bytes := List UInt8

/-- A reply. `numbered` is one that came with a serial number other than 0 (an extension: the reply is preceded by
`@` and a number). -/
inductive Val where
  | status (s : Bytes)
  | error (s : Bytes)
  | int (i : Int)
  | str (s : Bytes)
  | nil
  | array (xs : List Val)
  | numbered (n : Nat) (v : Val)
  deriving Repr

def crlf : Bytes := [13, 10]

/-- Decimal digits. -/
def digit (n : Nat) : UInt8 := UInt8.ofNat (48 + n)

def dec (n : Nat) : Bytes := if n < 10 then [digit n] else dec (n / 10) ++ [digit (n % 10)]

def decInt (i : Int) : Bytes := if i < 0 then 45 :: dec i.natAbs else dec i.natAbs

mutual
/-- What a server sends for a reply. -/
def Val.enc : Val → Bytes
  | .status s => 43 :: s ++ crlf
  | .error s => 45 :: s ++ crlf
  | .int i => 58 :: decInt i ++ crlf
  | .str s => 36 :: dec s.length ++ crlf ++ s ++ crlf
  | .nil => [36, 45, 49, 13, 10]
  | .array xs => 42 :: dec xs.length ++ crlf ++ encAll xs
  | .numbered n v => 64 :: dec n ++ crlf ++ v.enc

def encAll : List Val → Bytes
  | [] => []
  | v :: vs => v.enc ++ encAll vs
end

/-- The string contains no end of a line. -/
def NoCrlf (s : Bytes) : Prop := ∀ a b, s ≠ a ++ 13 :: 10 :: b

mutual
/-- Replies without serial numbers and nested at most `d` deep, with numbers a client can represent. -/
def Val.Ok : Nat → Val → Prop
  | _, .status s => NoCrlf s
  | _, .error s => NoCrlf s
  | _, .int i => -2 ^ 63 < i ∧ i < 2 ^ 63
  | _, .str s => s.length < 2 ^ 63
  | _, .nil => True
  | 0, .array _ => False
  | d + 1, .array xs => xs.length < 2 ^ 31 ∧ AllOk d xs
  | _, .numbered _ _ => False

def AllOk : Nat → List Val → Prop
  | _, [] => True
  | d, v :: vs => v.Ok d ∧ AllOk d vs
end

/-- A reply as it comes over the connection: perhaps with a serial number. -/
def Val.TopOk (d : Nat) : Val → Prop
  | .numbered n v => 0 < n ∧ n < 2 ^ 32 ∧ v.Ok d
  | v => v.Ok d

end Verif.Redis
