import Verif.Http.Percent
import Verif.Http.FieldMap
/-!
# The checker of requests

/repo/trpc/codec/http/http_server_proto_checker_impl.cc, outside of fibers (`is_blocking` is false), where a request is passed on when it is complete.

A buffer is its content; what `FlattenSlowUntil`, `Cut`, `Skip` and `FlattenSlow` do to it is C03. The two functions of picohttpparser are parameters:
`phr` stands for `phr_parse_request` (it is given a whole buffer each time), `dec` for `phr_decode_chunked` with states `D`; what is assumed
about them is part of the theorems. The stream of a request (`http_request_stream`) is its body as far as received. `GetMaxPacketSize()` is `max`
(the branch for zero is the same with 2⁶⁴ − 2). Not modelled: the methods and versions of requests, closing functions.
-/

namespace Verif.Http

/-- A parsed head: method, path, minor version and headers. -/
structure Head where
  method : Bytes
  path : Bytes
  minor : Nat
  headers : List (Bytes × Bytes)
  deriving DecidableEq

/-- Result of `phr_parse_request`: −1, −2 or the number of bytes. -/
inductive PhrRes where
  | error
  | more
  | ok (n : Nat) (h : Head)
  deriving DecidableEq

/-- Result of `phr_decode_chunked`: −1, −2 or how many bytes are left, and the bytes that were decoded. -/
inductive DecRes (D : Type) where
  | error
  | more (d : D) (out : Bytes)
  | done (d : D) (out : Bytes) (left : Nat)
  deriving DecidableEq

/-- `kEndOfHeaderMarker` (util/http/common.h:41). -/
def mark : Bytes := [13, 10, 13, 10]

/-- What `FlattenSlowUntil` returns without a limit: up to and with the first mark, or all. -/
def untilMark : Bytes → Bytes
  | [] => []
  | c :: s => if mark.isPrefixOf (c :: s) then mark else c :: untilMark s

/-- `FlattenSlowUntil(in, kEndOfHeaderMarker, max_packet_size + 1)`. -/
def cut (max : Nat) (s : Bytes) : Bytes := (untilMark s).take (max + 1)

/-- `"Transfer-Encoding"`, `"Content-Length"`. -/
def teName : Bytes := [84, 114, 97, 110, 115, 102, 101, 114, 45, 69, 110, 99, 111, 100, 105, 110, 103]
def clName : Bytes := [67, 111, 110, 116, 101, 110, 116, 45, 76, 101, 110, 103, 116, 104]

/-- How long the body is. -/
inductive Framing where
  | length (n : Nat)
  | chunked
  deriving DecidableEq

/-- The loop over the headers (lines 81-96); `none` for `kParserError`. Behind a value there is a CR or LF or a blank. -/
def frameLoop (cap : Nat) : List (Bytes × Bytes) → Bool → Option Nat → Option (Bool × Option Nat)
  | [], ch, cl => some (ch, cl)
  | (k, v) :: hs, ch, cl =>
    if !ch && ciEqual k teName then frameLoop cap hs true cl
    else if cl.isNone && ciEqual k clName then
      match parseContentLength (v ++ [13]) v.length with
      | none => none
      | some n => if n > cap then none else frameLoop cap hs ch (some n)
    else frameLoop cap hs ch cl

/-- The decision (lines 78-99, 108): `none` for `kParserError`. -/
def frame (cap : Nat) (hs : List (Bytes × Bytes)) : Option Framing :=
  match frameLoop cap hs false none with
  | none => none
  | some (true, some _) => none
  | some (true, none) => some .chunked
  | some (false, cl) => some (.length (cl.getD 0))

/-- `InternalInflightHttpRequest` (lines 29-37), with the body as far as it was received. -/
structure Inflight (D : Type) where
  newRequest : Bool
  head : Option Head
  expect : Nat
  maxBody : Nat
  chunked : Bool
  dec : D
  body : Bytes
  deriving DecidableEq

inductive HeadRes (α : Type) where
  | error
  | more
  | ok (a : α)
  deriving DecidableEq

section
variable {D : Type} (phr : Bytes → PhrRes) (dec : D → Bytes → DecRes D) (d0 : D) (max : Nat)

/-- The state before a request. -/
def Inflight.idle : Inflight D := ⟨true, none, 0, 0, false, d0, []⟩

/-- `ParseHeader` (lines 47-120): the number of bytes and the state. -/
def parseHeader (s : Bytes) : HeadRes (Nat × Inflight D) :=
  if s.length < 16 then .more
  else
    let buf := cut max s
    if buf.length > max then .error
    else match phr buf with
      | .error => .error
      | .more => .more
      | .ok n h =>
        match frame (max - n) h.headers with
        | none => .error
        | some .chunked => .ok (n, ⟨true, some h, 0, max - n, true, d0, []⟩)
        | some (.length k) => .ok (n, ⟨true, some h, k, min (max - n) k, false, d0, []⟩)

/-- `AppendBuffer` with `CheckBufferSize` and what follows it in `ParseContent` (lines 123-147, 178-183): the state and the request that is passed on. -/
def appendBuffer (st : Inflight D) (buffer : Bytes) (full : Bool) : Option (Inflight D × List (Option Head × Bytes)) :=
  if st.body.length + buffer.length ≤ st.maxBody then
    some ({ st with body := st.body ++ buffer, newRequest := full }, if full then [(st.head, st.body ++ buffer)] else [])
  else none

/-- `ParseContent` (lines 152-185): the state, the rest of the buffer and the request that is passed on; `none` for `kParserError`. -/
def parseContent (st : Inflight D) (s : Bytes) : Option (Inflight D × Bytes × List (Option Head × Bytes)) :=
  if st.chunked then
    match dec st.dec s with
    | .error => none
    | .more d out => (appendBuffer { st with dec := d } out false).map fun r => (r.1, [], r.2)
    | .done d out left => (appendBuffer { st with dec := d } out true).map fun r => (r.1, s.drop (s.length - left), r.2)
  else
    let k := min st.expect s.length
    (appendBuffer { st with expect := st.expect - k } (s.take k) (st.expect - k = 0)).map fun r => (r.1, s.drop k, r.2)

/-- Result of a check: an error, an endless loop, or the new state, what is left in the buffer and the requests. -/
inductive CheckRes (D : Type) where
  | error
  | hang
  | ok (st : Inflight D) (rest : Bytes) (out : List (Option Head × Bytes))

/-- `request.reset()` (line 246), and everything else that the next head will set. -/
def Inflight.settle (st : Inflight D) : Inflight D := if st.newRequest then Inflight.idle d0 else st

/-- The loop of `ParseHttpRequest` (lines 228-248). -/
def checkLoop (st : Inflight D) (s : Bytes) (out : List (Option Head × Bytes)) : CheckRes D :=
  if s = [] then .ok st [] out
  else
    match (if st.newRequest then parseHeader phr d0 max s else .ok (0, st)) with
    | .error => .error
    | .more => .ok st s out
    | .ok (n, st1) =>
      match parseContent dec st1 (s.drop n) with
      | none => .error
      | some (st2, rest, rs) =>
        if _h : rest.length < s.length then checkLoop (st2.settle d0) rest (out ++ rs) else .hang
  termination_by s.length

/-- A connection: the data arrive in pieces, what is left over stays in the buffer (as in C02: after an error there are no more checks). -/
def checkAll (st : Inflight D) (buf : Bytes) (out : List (Option Head × Bytes)) : List Bytes → CheckRes D
  | [] => .ok st buf out
  | x :: xs => match checkLoop phr dec d0 max st (buf ++ x) out with
    | .ok st' rest out' => checkAll st' rest out' xs
    | r => r

end

end Verif.Http
