import Verif.Http.Percent
import Verif.Http.FieldMap
/-!
# Query parameters of a request

/repo/trpc/util/http/request.cc:27-66.
-/

namespace Verif.Http

/-- `std::string::find(c, from)`; `none` for `npos`. -/
def findFrom (c : UInt8) (s : Bytes) (pos : Nat) : Option Nat :=
  match (s.drop pos).findIdx? (· == c) with
  | some i => some (pos + i)
  | none => none

/-- `substr(pos, n)`. -/
def substr (s : Bytes) (pos n : Nat) : Bytes := (s.drop pos).take n

/-- `AddQueryParameter` (lines 56-71): `split >= param.length() - 1` is a comparison of unsigned numbers: `npos` is the largest, and so is
`param.length() - 1` of an empty parameter. -/
def addQueryParameter (m : Pairs) (param : Bytes) : Pairs :=
  match findFrom 61 param 0 with
  | none => match urlDecode param with
    | some key => m.set lexLess key []
    | none => m
  | some split =>
    if param ≠ [] ∧ param.length - 1 ≤ split then
      match urlDecode (substr param 0 split) with
      | some key => m.set lexLess key []
      | none => m
    else match urlDecode (substr param 0 split), urlDecode (param.drop (split + 1)) with
      | some key, some value => m.set lexLess key value
      | _, _ => m

/-- The loop of `InitQueryParameters` (lines 36-42) at `curr`; `fuel` is the number of bytes that are left. -/
def initLoop (uri : Bytes) : Nat → Nat → Pairs → Pairs
  | 0, curr, m => addQueryParameter m (uri.drop curr)
  | fuel + 1, curr, m =>
    match findFrom 38 uri curr with
    | some e => initLoop uri fuel (e + 1) (addQueryParameter m (substr uri curr (e - curr)))
    | none => addQueryParameter m (uri.drop curr)

/-- `InitQueryParameters` (lines 27-43): the parameters, or `none` if there is no `?`. -/
def initQueryParameters (uri : Bytes) : Option Pairs :=
  match findFrom 63 uri 0 with
  | none => none
  | some pos => some (initLoop uri uri.length (pos + 1) [])

end Verif.Http
