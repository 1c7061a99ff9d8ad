import Verif.Http.Checker
/-!
# Requests and responses on the wire

/repo/trpc/util/http/request.cc:79-126, /repo/trpc/util/http/response.cc, /repo/trpc/util/http/content.{h,cc}. The two forms of `SerializeToString` (to a string, to a buffer) do the same;
a buffer is its content. Headers are the map of FieldMap.lean. Not modelled: streams, `GenerateCommonReply` (it only sets headers).
-/

namespace Verif.Http.Message

abbrev crlf : Bytes := [13, 10]

/-- `std::to_string` of a number that is not negative. -/
def toText (n : Nat) : Bytes := if n < 10 then [(48 + n).toUInt8] else toText (n / 10) ++ [(48 + n % 10).toUInt8]

/-- `std::to_string` of an `int`. -/
def intText (i : Int) : Bytes := if i < 0 then 45 :: toText i.natAbs else toText i.natAbs

/-- `ContentProvider` (content.h:24-83): `content_length_`, `content_`, `content_buffer_`. -/
structure Content where
  length : Option Nat := none
  text : Option Bytes := none
  buffer : Bytes := []
  deriving DecidableEq

/-- `ContentLength` (content.h:56-58). -/
def Content.size (c : Content) : Nat := c.length.getD (match c.text with | some t => t.length | none => c.buffer.length)

/-- `SerializeToString` (content.cc:50-74). -/
def Content.bytes (c : Content) : Bytes := match c.text with | none => c.buffer | some t => if t = [] then [] else t

/-- What a program does with it: `SetContent`, `SetNonContiguousBufferContent`, `GetContent` (which caches), `Write`, `Read` (of `n` bytes), changes through `GetMutableContent`,
`SetContentLength`. -/
inductive ContentOp where
  | setContent (t : Bytes)
  | setBuffer (b : Bytes)
  | getContent
  | write (b : Bytes)
  | read (n : Nat)
  | change (t : Bytes)
  | setLength (n : Option Nat)
  deriving DecidableEq

/-- content.h:45-60, 66-70; content.cc:18-48. -/
def Content.run (c : Content) : ContentOp → Content
  | .setContent t => { c with text := some t }
  | .setBuffer b => { c with buffer := b }
  | .getContent => { c with text := some (c.text.getD c.buffer) }
  | .write b => { c with buffer := c.buffer ++ b }
  | .read n => { c with buffer := c.buffer.drop n }
  | .change t => { c with text := some t }
  | .setLength n => { c with length := n }

/-- `Request` (request.h, header.h): `GetMethod()`, `request_uri_`, `version_`, `headers_`, `content_provider_`. -/
structure Request where
  method : Bytes
  uri : Bytes
  version : Bytes
  headers : Pairs
  content : Content
  deriving DecidableEq

/-- `"HTTP/"`. -/
def httpPrefix : Bytes := [72, 84, 84, 80, 47]

/-- `Request::RequestLine` (request.cc:113-126). -/
def Request.line (r : Request) : Bytes := r.method ++ [32] ++ r.uri ++ [32] ++ (httpPrefix ++ r.version) ++ crlf

/-- `Request::SerializeToString` (request.cc:79-111). -/
def Request.bytes (r : Request) : Bytes := r.line ++ r.headers.toText ++ crlf ++ r.content.bytes

/-- `kStatusString` (response.cc:29-56), without the CR LF at the end of each. -/
def table : List (Int × Bytes) :=
  [(100, [32, 49, 48, 48, 32, 67, 111, 110, 116, 105, 110, 117, 101]),
   (200, [32, 50, 48, 48, 32, 79, 75]),
   (201, [32, 50, 48, 49, 32, 67, 114, 101, 97, 116, 101, 100]),
   (202, [32, 50, 48, 50, 32, 65, 99, 99, 101, 112, 116, 101, 100]),
   (204, [32, 50, 48, 52, 32, 78, 111, 32, 67, 111, 110, 116, 101, 110, 116]),
   (205, [32, 50, 48, 53, 32, 82, 101, 115, 101, 116, 32, 67, 111, 110, 116, 101, 110, 116]),
   (206, [32, 50, 48, 54, 32, 80, 97, 114, 116, 105, 97, 108, 32, 67, 111, 110, 116, 101, 110, 116]),
   (300, [32, 51, 48, 48, 32, 77, 117, 108, 116, 105, 112, 108, 101, 32, 67, 104, 111, 105, 99, 101, 115]),
   (301, [32, 51, 48, 49, 32, 77, 111, 118, 101, 100, 32, 80, 101, 114, 109, 97, 110, 101, 110, 116, 108, 121]),
   (302, [32, 51, 48, 50, 32, 77, 111, 118, 101, 100, 32, 84, 101, 109, 112, 111, 114, 97, 114, 105, 108, 121]),
   (304, [32, 51, 48, 52, 32, 78, 111, 116, 32, 77, 111, 100, 105, 102, 105, 101, 100]),
   (400, [32, 52, 48, 48, 32, 66, 97, 100, 32, 82, 101, 113, 117, 101, 115, 116]),
   (401, [32, 52, 48, 49, 32, 85, 110, 97, 117, 116, 104, 111, 114, 105, 122, 101, 100]),
   (403, [32, 52, 48, 51, 32, 70, 111, 114, 98, 105, 100, 100, 101, 110]),
   (404, [32, 52, 48, 52, 32, 78, 111, 116, 32, 70, 111, 117, 110, 100]),
   (408, [32, 52, 48, 56, 32, 82, 101, 113, 117, 101, 115, 116, 32, 84, 105, 109, 101, 111, 117, 116]),
   (409, [32, 52, 48, 57, 32, 67, 111, 110, 102, 108, 105, 99, 116]),
   (413, [32, 52, 49, 51, 32, 82, 101, 113, 117, 101, 115, 116, 32, 69, 110, 116, 105, 116, 121, 32, 84, 111, 111, 32, 76, 97, 114, 103, 101]),
   (418, [32, 52, 49, 56, 32, 73, 39, 109, 32, 97, 32, 84, 101, 97, 112, 111, 116]),
   (429, [32, 52, 50, 57, 32, 84, 111, 111, 32, 77, 97, 110, 121, 32, 82, 101, 113, 117, 101, 115, 116, 115]),
   (499, [32, 52, 57, 57, 32, 67, 108, 105, 101, 110, 116, 32, 67, 108, 111, 115, 101, 100, 32, 82, 101, 113, 117, 101, 115, 116]),
   (500, [32, 53, 48, 48, 32, 73, 110, 116, 101, 114, 110, 97, 108, 32, 83, 101, 114, 118, 101, 114, 32, 69, 114, 114, 111, 114]),
   (501, [32, 53, 48, 49, 32, 78, 111, 116, 32, 73, 109, 112, 108, 101, 109, 101, 110, 116, 101, 100]),
   (502, [32, 53, 48, 50, 32, 66, 97, 100, 32, 71, 97, 116, 101, 87, 97, 121]),
   (503, [32, 53, 48, 51, 32, 83, 101, 114, 118, 105, 99, 101, 32, 85, 110, 97, 118, 97, 105, 108, 97, 98, 108, 101]),
   (504, [32, 53, 48, 52, 32, 71, 97, 116, 101, 119, 97, 121, 32, 84, 105, 109, 101, 111, 117, 116])]

/-- `ConcatStatusLine` (response.cc:58-72). -/
def concatStatusLine (status : Int) (reason : Bytes) : Bytes :=
  let l := [32] ++ intText status
  let l := if reason = [] ∨ reason.head? ≠ some 32 then l ++ [32] else l
  let l := l ++ reason
  if l.length < 2 ∨ l.getLast? ≠ some 10 ∨ l[l.length - 2]? ≠ some 13 then l ++ crlf else l

/-- `Response` (response.h, header.h). -/
structure Response where
  version : Bytes
  status : Int
  reason : Bytes
  headers : Pairs
  headerOnly : Bool
  content : Content
  deriving DecidableEq

/-- `StatusCodeToString` (response.cc:84-90). -/
def Response.statusText (r : Response) : Bytes :=
  match table.lookup r.status with
  | some t => t ++ crlf
  | none => concatStatusLine r.status r.reason

/-- `StatusLine` (response.cc:162-169). -/
def Response.statusLine (r : Response) : Bytes := httpPrefix ++ r.version ++ r.statusText

/-- `"chunked"`. -/
def chunkedVal : Bytes := [99, 104, 117, 110, 107, 101, 100]

/-- The headers that are sent (response.cc:98-103, 147-150). -/
def Response.sent (r : Response) : Pairs :=
  if r.headers.get ciLess teName ≠ chunkedVal then r.headers.setIfNotPresent ciLess clName (toText r.content.size) else r.headers

/-- `SerializeHeaderToString` (response.cc:105-112). -/
def Response.headBytes (r : Response) : Bytes := r.statusLine ++ r.sent.toText ++ crlf

/-- `SerializeToString` (response.cc:114-124, 145-160). -/
def Response.bytes (r : Response) : Bytes := r.headBytes ++ if r.headerOnly then [] else r.content.bytes

/-! ## How a message is read (RFC 9112, section 2) -/

/-- The first line and what follows it. -/
def line : Bytes → Option (Bytes × Bytes)
  | [] => none
  | c :: s => if c = 13 ∧ s.head? = some 10 then some ([], s.tail) else (line s).map fun p => (c :: p.1, p.2)

/-- What is before and behind the first `d`. -/
def cutAt (d : UInt8) : Bytes → Option (Bytes × Bytes)
  | [] => none
  | c :: s => if c = d then some ([], s) else (cutAt d s).map fun p => (c :: p.1, p.2)

/-- A field: its name ends with the first colon, then there are blanks. -/
def field (l : Bytes) : Option (Bytes × Bytes) := (cutAt 58 l).map fun p => (p.1, p.2.dropWhile (· = 32))

/-- Fields up to an empty line, and what follows it; at most `n` lines. -/
def fields : Nat → Bytes → Option (Pairs × Bytes)
  | 0, _ => none
  | n + 1, s => match line s with
    | none => none
    | some (l, t) => if l = [] then some ([], t) else
      match field l with
      | none => none
      | some p => (fields n t).map fun q => (p :: q.1, q.2)

/-- A first line of three parts, the fields and the rest. -/
def read (s : Bytes) : Option (Bytes × Bytes × Bytes × Pairs × Bytes) :=
  match line s with
  | none => none
  | some (l, t) =>
    match cutAt 32 l with
    | none => none
    | some (a, l') => match cutAt 32 l' with
      | none => none
      | some (b, c) => (fields (t.length + 1) t).map fun q => (a, b, c, q.1, q.2)

end Verif.Http.Message
