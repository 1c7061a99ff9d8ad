/-!
# Writers of HTTP streams

/repo/trpc/stream/http/http_stream.cc, /repo/trpc/stream/http/http_stream.h (`HttpWriteStream`), /repo/trpc/stream/http/common.cc (`HttpChunkHeader`)

* Bytes are numbers. What is sent is a list of messages: an informational response, a header, or bytes of the body. What the header says about the body is kept (`te`, `cl`), its text is not.
* `ok k` says whether the k-th call of `SendResponse` succeeds; a call that fails sends nothing.
* The header `Content-Length` of the response is absent, a number, or something else (`ParseContentLength`, C28).
-/

namespace Verif.HttpStream

/-- '0' to '9', 'a' to 'f' -/
def hexChar (d : Nat) : Nat := if d < 10 then 48 + d else 87 + d

/-- The loop of `HttpChunkHeader` (common.cc:40-44): two digits for each byte of `n`, written from position `idx` downwards. -/
def fill : Nat → Nat → Nat → List Nat → Option (List Nat)
  | 0, _, _, _ => none
  | fuel + 1, n, idx, hex =>
    if idx < 2 then none
    else
      let hex := (hex.set (idx - 1) (hexChar (n % 256 % 16))).set (idx - 2) (hexChar (n % 256 / 16))
      if n / 256 = 0 then some hex else fill fuel (n / 256) (idx - 2) hex

/-- `HttpChunkHeader` (common.cc:18-47); `none`: written outside of the string. -/
def chunkHeader (n : Nat) : Option (List Nat) :=
  (fill 9 n 16 (List.replicate 16 48 ++ [13, 10])).map fun hex => hex.drop (min (hex.findIdx (· ≠ 48)) (hex.length - 3))

inductive Msg where
  | info
  /-- `te`: Transfer-Encoding is chunked; `cl`: the header Content-Length, if it is there; `ho`: the answer to HEAD -/
  | header (te : Bool) (cl : Option (Option Nat)) (ho : Bool)
  | body (x : List Nat)
deriving DecidableEq, Repr

inductive Res where
  | ok
  | network
  | length
  /-- an infinite loop or undefined behaviour -/
  | stuck
deriving DecidableEq, Repr

structure S where
  /-- of the response -/
  status : Nat
  clh : Option (Option Nat)
  ho : Bool
  /-- `state_` -/
  hdr : Bool := false
  done : Bool := false
  /-- `content_length_`; `none`: `kChunked` -/
  cl : Option Nat := some 0
  written : Nat := 0
  /-- `IsResponse()` of the context, `CloseConnection` was called -/
  isRsp : Bool := true
  closed : Bool := false
  /-- what was sent, and how often it was tried -/
  wire : List Msg := []
  sends : Nat := 0
deriving DecidableEq, Repr

/-- `SendResponse` -/
def S.send (ok : Nat → Bool) (s : S) (m : Msg) : S × Bool :=
  ({ s with sends := s.sends + 1, wire := if ok s.sends then s.wire ++ [m] else s.wire }, ok s.sends)

/-- `WriteHeader` (http_stream.cc:82-107) -/
def S.writeHeader (ok : Nat → Bool) (s : S) : S × Res :=
  if s.hdr then (s, .ok)
  else if s.status < 200 then
    let (s1, b) := s.send ok .info
    if b then ({ s1 with status := 200 }, .ok) else (s1, .network)
  else
    let cl : Option Nat := match s.clh with
      | none => none
      | some c => some (c.getD 0)
    let (s1, b) := ({ s with cl := if s.ho then some 0 else cl } : S).send ok (.header cl.isNone s.clh s.ho)
    if b then ({ s1 with hdr := true, isRsp := false }, .ok) else (s1, .network)

/-- The loop of `Write` (:110-114) -/
def S.ensure (ok : Nat → Bool) : Nat → S → S × Res
  | 0, s => (s, .stuck)
  | fuel + 1, s =>
    if s.hdr then (s, .ok)
    else
      match s.writeHeader ok with
      | (s1, .ok) => s1.ensure ok fuel
      | (s1, r) => (s1, r)

/-- Sends bytes of the body that stand for `k` bytes of the user (:126) -/
def S.sendBody (ok : Nat → Bool) (s : S) (y : List Nat) (k : Nat) : S × Res :=
  let (s1, b) := s.send ok (.body y)
  if b then ({ s1 with written := s1.written + k }, .ok) else (s1, .network)

/-- `Write` after the header (:115-126) -/
def S.put (ok : Nat → Bool) (s : S) (x : List Nat) : S × Res :=
  match s.cl with
  | some n => if n < s.written + x.length then (s, .length) else s.sendBody ok x x.length
  | none =>
    match chunkHeader x.length with
    | none => (s, .stuck)
    | some h => s.sendBody ok (h ++ x ++ [13, 10]) x.length

/-- `Write` (:109-127) -/
def S.write (ok : Nat → Bool) (s : S) (x : List Nat) : S × Res :=
  match s.ensure ok 3 with
  | (s1, .ok) => s1.put ok x
  | (s1, r) => (s1, r)

/-- `WriteDone` (:129-141) -/
def S.writeDone (ok : Nat → Bool) (s : S) : S × Res :=
  if s.done then (s, .ok)
  else
    match s.cl with
    | none =>
      let (s1, b) := s.send ok (.body [48, 13, 10, 13, 10])
      if b then ({ s1 with done := true }, .ok) else (s1, .network)
    | some n => if s.written ≠ n then ({ s with closed := true }, .length) else ({ s with done := true }, .ok)

/-- `Close` (http_stream.h:188-193) -/
def S.close (ok : Nat → Bool) (s : S) : S :=
  if s.isRsp then s else ((s.writeHeader ok).1.writeDone ok).1

inductive Op where
  | header
  | write (x : List Nat)
  | done
deriving DecidableEq, Repr

/-- A call by the user. -/
def S.call (ok : Nat → Bool) (s : S) : Op → S × Res
  | .header => s.writeHeader ok
  | .write x => s.write ok x
  | .done => s.writeDone ok

end Verif.HttpStream
