import Verif.Http.Base64
/-!
# The maps of headers and query parameters

/repo/trpc/util/http/field_map.h. `std::multimap<std::string, std::string, Compare>` is the list of its pairs in the order of
iteration: an equivalent range is where the comparison puts it, a new pair goes behind its equals. This is what
the standard promises if the comparison is a strict weak order on the keys that are used; which keys these are is part of
the theorems. (`find` of a multimap may return any of several equals; of libstdc++ it is the first, which is also what the comment of
`Get` says.) Not modelled: iterators, `Range`, `reserve`.
-/

namespace Verif.Http

/-- `tolower` in the C locale. -/
def toLower (c : UInt8) : UInt8 := if 65 ≤ c ∧ c ≤ 90 then c + 32 else c

/-- `std::string_view::operator<`: bytes are compared as unsigned numbers. -/
def lexLess : Bytes → Bytes → Bool
  | _, [] => false
  | [], _ :: _ => true
  | a :: l, b :: r => if a < b then true else if b < a then false else lexLess l r

/-- `strncasecmp(l, r, n)`: −1, 0 or 1; the end of a list stands for the NUL that ends a `std::string`. -/
def strncasecmp : Bytes → Bytes → Nat → Int
  | _, _, 0 => 0
  | l, r, n + 1 =>
    let a := toLower (l.headD 0)
    let b := toLower (r.headD 0)
    if a < b then -1 else if b < a then 1 else if a = 0 then 0 else strncasecmp (l.drop 1) (r.drop 1) n

/-- `CaseInsensitiveLess` (lines 36-45); `none`: `front()` of an empty view, which is undefined. -/
def ciLessO (l r : Bytes) : Option Bool :=
  if l.length ≠ r.length then
    match l with
    | [] => none
    | c :: _ =>
      if c = 58 then some (strncasecmp l r l.length < 0)
      else match r with
        | [] => none
        | d :: _ => if d = 58 then some (strncasecmp l r l.length < 0) else some (l.length < r.length)
  else some (strncasecmp l r l.length < 0)

def ciLess (l r : Bytes) : Bool := ciLessO l r == some true

/-- `CaseInsensitiveEqualTo` (lines 49-53). -/
def ciEqual (l r : Bytes) : Bool := l.length = r.length && strncasecmp l r l.length = 0

abbrev Pairs := List (Bytes × Bytes)

namespace Pairs
variable (less : Bytes → Bytes → Bool)

/-- `lower_bound`: the pairs from there on. -/
def lowerBound (m : Pairs) (k : Bytes) : Pairs := m.dropWhile (fun p => less p.1 k)

/-- `equal_range`. -/
def equalRange (m : Pairs) (k : Bytes) : Pairs := (lowerBound less m k).takeWhile (fun p => !less k p.1)

/-- `Add` (lines 66-69): `emplace`. -/
def add (m : Pairs) (k v : Bytes) : Pairs := m.takeWhile (fun p => !less k p.1) ++ (k, v) :: m.dropWhile (fun p => !less k p.1)

/-- `Delete` of a key (line 99): `erase`. -/
def delete (m : Pairs) (k : Bytes) : Pairs :=
  m.takeWhile (fun p => less p.1 k) ++ (lowerBound less m k).dropWhile (fun p => !less k p.1)

/-- `Delete` of a value (lines 103-118). -/
def deleteValue (m : Pairs) (k v : Bytes) : Pairs :=
  m.takeWhile (fun p => less p.1 k) ++ (equalRange less m k).filter (fun p => p.2 != v) ++
    (lowerBound less m k).dropWhile (fun p => !less k p.1)

/-- `Set` (lines 73-77). -/
def set (m : Pairs) (k v : Bytes) : Pairs := add less (delete less m k) k v

/-- `SetIfNotPresent` (lines 80-85). -/
def setIfNotPresent (m : Pairs) (k v : Bytes) : Pairs :=
  match lowerBound less m k with
  | [] => m.takeWhile (fun p => less p.1 k) ++ [(k, v)]
  | p :: r => if ciEqual p.1 k then m else m.takeWhile (fun p => less p.1 k) ++ (k, v) :: p :: r

/-- `find`. -/
def find (m : Pairs) (k : Bytes) : Option (Bytes × Bytes) :=
  match lowerBound less m k with
  | [] => none
  | p :: _ => if less k p.1 then none else some p

/-- `Get` (lines 89-96). -/
def get (m : Pairs) (k : Bytes) : Bytes := match find less m k with | none => [] | some p => p.2

/-- `Has` (line 151). -/
def has (m : Pairs) (k : Bytes) : Bool := (find less m k).isSome

/-- `Values` (lines 122-129). -/
def values (m : Pairs) (k : Bytes) : List Bytes := (equalRange less m k).map (·.2)

end Pairs

/-- `ToString` (lines 155-165), `WriteToStringStream` (lines 168-173). -/
def Pairs.toText (m : Pairs) : Bytes := m.flatMap fun p => p.1 ++ [58, 32] ++ p.2 ++ [13, 10]

/-- `ByteSizeLong` (lines 176-183). -/
def Pairs.byteSize (m : Pairs) : Nat := m.foldl (fun n p => n + (p.1.length + p.2.length + 2 + 2)) 0

/-- What a program does with a map. -/
inductive MapOp where
  | add (k v : Bytes)
  | set (k v : Bytes)
  | setIfNotPresent (k v : Bytes)
  | delete (k : Bytes)
  | deleteValue (k v : Bytes)
  | clear
  deriving DecidableEq

def MapOp.run (less : Bytes → Bytes → Bool) (m : Pairs) : MapOp → Pairs
  | .add k v => m.add less k v
  | .set k v => m.set less k v
  | .setIfNotPresent k v => m.setIfNotPresent less k v
  | .delete k => m.delete less k
  | .deleteValue k v => m.deleteValue less k v
  | .clear => []

end Verif.Http
