import Verif.Http.Checker
/-!
# The checker of responses

/repo/trpc/codec/http/http_client_proto_checker_impl.cc, for calls that wait for the whole response (no stream), and what the connections do around it
(/repo/trpc/runtime/iomodel/reactor/fiber/fiber_tcp_connection.cc:247-269, /repo/trpc/runtime/iomodel/reactor/default/tcp_connection.cc:171-217).

As in the model of the server: a buffer is its content; `phr` stands for `phr_parse_response`, `dec` for `phr_decode_chunked` with states `D`, and what is assumed about them is
part of the theorems. `GetMaxPacketSize()` is `max`; zero stands for 2⁶⁴ − 2. The method of the call, as the connection knows it (`GetCurrentContextExt`), is `isHead`.
Not modelled: versions of responses apart from the minor number, streams.
-/

namespace Verif.Http.Client

/-- A parsed head: minor version, status, reason and headers. -/
structure Head where
  minor : Nat
  status : Int
  reason : Bytes
  headers : List (Bytes × Bytes)
  deriving DecidableEq

/-- Result of `phr_parse_response`: −1, −2 or the number of bytes. -/
inductive PhrRes where
  | error
  | more
  | ok (n : Nat) (h : Head)
  deriving DecidableEq

/-- `"Connection"`, `"close"`. -/
def connName : Bytes := [67, 111, 110, 110, 101, 99, 116, 105, 111, 110]
def closeVal : Bytes := [99, 108, 111, 115, 101]

/-- `is_chunked`, `content_length`, `conn_reusable`. -/
structure Seen where
  chunked : Bool := false
  length : Option Nat := none
  reusable : Bool
  deriving DecidableEq

/-- The loop over the headers (lines 89-107); `none` for `kParserError`. Behind a value there is a CR or LF or a blank. -/
def seenLoop : List (Bytes × Bytes) → Seen → Option Seen
  | [], s => some s
  | (k, v) :: hs, s =>
    if !s.chunked && ciEqual k teName then seenLoop hs { s with chunked := true }
    else if s.length.isNone && ciEqual k clName then
      match parseContentLength (v ++ [13]) v.length with
      | none => none
      | some n => seenLoop hs { s with length := some n }
    else if ciEqual k connName then seenLoop hs { s with reusable := !ciEqual v closeVal }
    else seenLoop hs s

/-- How long the body is, and whether the connection can be used again (lines 86-110): `none` for `kParserError`. -/
def frame (h : Head) : Option (Framing × Bool) :=
  match seenLoop h.headers { reusable := h.minor > 0 } with
  | none => none
  | some s => if s.length.isSome && s.chunked then none
    else some (if s.chunked then .chunked else .length (s.length.getD 0), s.reusable)

/-- A response, as it is given to the caller. -/
structure Response where
  head : Head
  reusable : Bool
  body : Bytes
  deriving DecidableEq

/-- `InflightHttpResponse` (lines 29-37). -/
structure Inflight (D : Type) where
  newRsp : Bool
  rsp : Response
  expect : Nat
  headBytes : Nat
  chunked : Bool
  dec : D
  deriving DecidableEq

section
variable {D : Type} (phr : Bytes → PhrRes) (dec : D → Bytes → DecRes D) (d0 : D) (max : Nat)

/-- `ParseHeader` (lines 56-130): the number of bytes and the state. -/
def parseHeader (s : Bytes) : HeadRes (Nat × Inflight D) :=
  if s.length < 17 then .more
  else
    let buf := cut max s
    if buf.length > max then .error
    else match phr buf with
      | .error => .error
      | .more => .more
      | .ok n h =>
        match frame h with
        | none => .error
        | some (.chunked, ru) => .ok (n, ⟨true, ⟨h, ru, []⟩, 0, n, true, d0⟩)
        | some (.length k, ru) => .ok (n, ⟨true, ⟨h, ru, []⟩, k, n, false, d0⟩)

/-- What `ParseContent` does with decoded data (lines 187-200), with `CheckBufferSize` (lines 133-137): the state and the response that is passed on. -/
def appendBuffer (st : Inflight D) (buffer : Bytes) (full : Bool) : Option (Inflight D × Option Response) :=
  if st.headBytes + st.rsp.body.length + buffer.length ≤ max then
    some ({ st with rsp := { st.rsp with body := st.rsp.body ++ buffer }, newRsp := full }, if full then some { st.rsp with body := st.rsp.body ++ buffer } else none)
  else none

/-- `ParseContent` (lines 155-201): the state, the rest of the buffer and the response that is passed on; `none` for `kParserError`. -/
def parseContent (st : Inflight D) (s : Bytes) : Option (Inflight D × Bytes × Option Response) :=
  if st.chunked then
    match dec st.dec s with
    | .error => none
    | .more d out => (appendBuffer max { st with dec := d } out false).map fun r => (r.1, [], r.2)
    | .done d out left => (appendBuffer max { st with dec := d } out true).map fun r => (r.1, s.drop (s.length - left), r.2)
  else
    let k := min st.expect s.length
    (appendBuffer max { st with expect := st.expect - k } (s.take k) (st.expect - k = 0)).map fun r => (r.1, s.drop k, r.2)

/-- Result of a check: an error, or the new state, what is left in the buffer and the response, if it is complete. -/
inductive CheckRes (D : Type) where
  | error
  | ok (st : Inflight D) (rest : Bytes) (out : Option Response)
  deriving DecidableEq

/-- No body for HEAD (lines 224-229). -/
def Inflight.noBody (st : Inflight D) (isHead : Bool) : Inflight D := if isHead then { st with expect := 0, chunked := false } else st

/-- A response that was passed on was moved away; the next head sets everything. -/
def Inflight.settle (st : Inflight D) : Inflight D := if st.newRsp then ⟨true, ⟨⟨0, 0, [], []⟩, false, []⟩, 0, 0, false, d0⟩ else st

/-- The state before a response. -/
def Inflight.idle : Inflight D := ⟨true, ⟨⟨0, 0, [], []⟩, false, []⟩, 0, 0, false, d0⟩

/-- `ParseHttpResponse` (lines 204-242), with the check for an empty buffer in the connection (`ConsumeReadData`, fiber_tcp_connection.cc:248-250). -/
def check (isHead : Bool) (st : Inflight D) (s : Bytes) : CheckRes D :=
  if s = [] then .ok st [] none
  else
    match (if st.newRsp then parseHeader phr d0 max s else .ok (0, st)) with
    | .error => .error
    | .more => .ok st s none
    | .ok (n, st1) =>
      match parseContent dec max (st1.noBody isHead) (s.drop n) with
      | none => .error
      | some (st2, rest, out) => .ok (st2.settle d0) rest out

/-- The data of one call arrive in pieces: each is put behind what is left in the buffer and there is one check (fiber_tcp_connection.cc:194-207, 247-269). After an error
the connection is closed. What is returned are the responses that were passed on; the first one is that of the call. -/
def exchange (isHead : Bool) (st : Inflight D) (buf : Bytes) : List Bytes → Option (Inflight D × Bytes × List Response)
  | [] => some (st, buf, [])
  | x :: xs => match check phr dec d0 max isHead st (buf ++ x) with
    | .error => none
    | .ok st' rest out => (exchange isHead st' rest xs).map fun r => (r.1, r.2.1, out.toList ++ r.2.2)

/-- Calls one after the other on a connection that is kept: for each whether it is a HEAD and the data that arrive during it. -/
def session (st : Inflight D) (buf : Bytes) : List (Bool × List Bytes) → Option (Inflight D × Bytes × List (List Response))
  | [] => some (st, buf, [])
  | c :: cs => match exchange phr dec d0 max c.1 st buf c.2 with
    | none => none
    | some (st', rest, out) => (session st' rest cs).map fun r => (r.1, r.2.1, out :: r.2.2)

end

end Verif.Http.Client
