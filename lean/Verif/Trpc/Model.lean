import Verif.Buffer.Spec
/-!
# Model of `trpc/codec/trpc/trpc_protocol.{h,cc}` and `trpc_proto_checker.cc`

Works on the buffers of `Verif.Buffer` (block lists).  Outcome `none` = undefined behaviour or a
failed check inside the buffer code.  The return value `false` of the C++ functions is `.fail`.

Host byte order is little endian (`htons`/`htonl` swap bytes), as on the platforms trpc-cpp supports.
Protocol buffers are not modelled: a message type is given by `PB`, the only thing the theorems assume
of it is that parsing gives back what was serialised.
-/

namespace Verif.Trpc

open Verif.Buffer

/-- Result of a C++ function that returns `bool` and fills out-parameters. -/
inductive Res (α : Type) where
  | fail
  | ok (a : α)
deriving Repr, DecidableEq

/-! ## Fixed header -/

/-- `TrpcFixedHeader` (trpc_protocol.h:27-64). -/
structure FixedHeader where
  magic : UInt16
  dataFrameType : UInt8
  streamFrameType : UInt8
  dataFrameSize : UInt32
  pbHeaderSize : UInt16
  streamId : UInt32
  reversed : UInt8 × UInt8
deriving Repr, DecidableEq

/-- `TRPC_PROTO_PREFIX_SPACE` (trpc_protocol.h:28), also `ByteSizeLong` (h:77). -/
def prefixSpace : Nat := 16

/-- `htons`/`ntohs` on a little endian host: swap the two bytes. -/
def swap16 (x : UInt16) : UInt16 := UInt16.ofNat (x.toNat % 256 * 256 + x.toNat / 256)

/-- `htonl`/`ntohl` on a little endian host: reverse the four bytes. -/
def swap32 (x : UInt32) : UInt32 :=
  UInt32.ofNat (x.toNat % 256 * 16777216 + x.toNat / 256 % 256 * 65536 + x.toNat / 65536 % 256 * 256 +
    x.toNat / 16777216)

/-- `memcpy(buff, &x, 2)` on a little endian host. -/
def store16 (x : UInt16) : Bytes := [UInt8.ofNat (x.toNat % 256), UInt8.ofNat (x.toNat / 256)]

/-- `memcpy(buff, &x, 4)` on a little endian host. -/
def store32 (x : UInt32) : Bytes :=
  [UInt8.ofNat (x.toNat % 256), UInt8.ofNat (x.toNat / 256 % 256), UInt8.ofNat (x.toNat / 65536 % 256),
    UInt8.ofNat (x.toNat / 16777216)]

/-- `memcpy(&x, ptr + pos, 1)`; reading outside the memory is `none`. -/
def load8 (p : Bytes) (pos : Nat) : Option UInt8 := p[pos]?

/-- `memcpy(&x, ptr + pos, 2)` on a little endian host. -/
def load16 (p : Bytes) (pos : Nat) : Option UInt16 :=
  match p[pos]?, p[pos + 1]? with
  | some a, some b => some (UInt16.ofNat (a.toNat + b.toNat * 256))
  | _, _ => none

/-- `memcpy(&x, ptr + pos, 4)` on a little endian host. -/
def load32 (p : Bytes) (pos : Nat) : Option UInt32 :=
  match p[pos]?, p[pos + 1]?, p[pos + 2]?, p[pos + 3]? with
  | some a, some b, some c, some d =>
    some (UInt32.ofNat (a.toNat + b.toNat * 256 + c.toNat * 65536 + d.toNat * 16777216))
  | _, _, _, _ => none

namespace FixedHeader

/-- `TrpcFixedHeader::Encode` (trpc_protocol.cc:74-104), `buff` not null: the 16 bytes written, field
after field. -/
def encode (h : FixedHeader) : Bytes :=
  store16 (swap16 h.magic) ++ [h.dataFrameType] ++ [h.streamFrameType] ++
  store32 (swap32 h.dataFrameSize) ++ store16 (swap16 h.pbHeaderSize) ++
  store32 (swap32 h.streamId) ++ [h.reversed.1, h.reversed.2]

/-- The reads of `TrpcFixedHeader::Decode` (trpc_protocol.cc:41-65) from the memory `ptr`. -/
def load (ptr : Bytes) : Option FixedHeader :=
  match load16 ptr 0, load8 ptr 2, load8 ptr 3, load32 ptr 4, load16 ptr 8, load32 ptr 10,
    load8 ptr 14, load8 ptr 15 with
  | some magic, some dt, some st, some ds, some ps, some sid, some r0, some r1 =>
    some { magic := swap16 magic, dataFrameType := dt, streamFrameType := st, dataFrameSize := swap32 ds,
           pbHeaderSize := swap16 ps, streamId := swap32 sid, reversed := (r0, r1) }
  | _, _, _, _, _, _, _, _ => none

/-- The memory `Decode` reads from (trpc_protocol.cc:30-39): the first block if it is large enough,
otherwise a flattened copy. -/
def source (nb : NB) : Option Bytes :=
  match nb.firstContiguous with
  | none => none
  | some b => if prefixSpace ≤ b.size then some b.bytes else flattenToSlow nb prefixSpace

/-- `TrpcFixedHeader::Decode` (trpc_protocol.cc:24-72): the header and the buffer afterwards. -/
def decode (nb : NB) (skip : Bool) : Option (Res FixedHeader × NB) :=
  if nb.byteSize < prefixSpace then some (.fail, nb)
  else
    match source nb with
    | none => none
    | some ptr =>
      match load ptr with
      | none => none
      | some h =>
        if skip then
          match nb.skip prefixSpace with
          | some nb' => some (.ok h, nb')
          | none => none
        else some (.ok h, nb)

end FixedHeader

/-! ## Protocol checker -/

/-- `TrpcMagic::TRPC_MAGIC_VALUE`, defined in the tRPC interface definition (trpc.proto, external):
`0x930`. -/
def magicValue : UInt16 := 2352

/-- `PacketChecker` (runtime/iomodel/reactor/common/connection_handler.h:36-40). -/
inductive Packet where
  | less
  | full
  | err
deriving Repr, DecidableEq

/-- `return !out.empty() ? PACKET_FULL : PACKET_LESS` (trpc_proto_checker.cc:62). -/
def finish (out : List NB) : Packet := if out.isEmpty then .less else .full

/-- `conn.Get() != nullptr && header.data_frame_size > conn->GetMaxPacketSize()`
(trpc_proto_checker.cc:50). -/
def overLimit (conn : Option UInt32) (size : UInt32) : Bool :=
  match conn with
  | some mx => decide (mx < size)
  | none => false

/-- The test on the decoded header (trpc_proto_checker.cc:39-53); `conn` is the maximum packet size of
the connection, `none` for a null connection.  `TRPC_PROTO_PREFIX_SPACE + header.pb_header_size` is a
32-bit sum that cannot wrap. -/
def headerBad (conn : Option UInt32) (h : FixedHeader) : Bool :=
  h.magic != magicValue ||
  decide (h.dataFrameSize < UInt32.ofNat (prefixSpace + h.pbHeaderSize.toNat)) ||
  overLimit conn h.dataFrameSize

/-- `CheckTrpcProtocolMessage` (trpc_proto_checker.cc:24-63).  `total_buff_size` is 32 bit.  A loop
iteration that would not shorten the buffer would never end and is `none`. -/
def check (conn : Option UInt32) (nb : NB) (out : List NB) : Option (Packet × NB × List NB) :=
  let total := UInt32.ofNat nb.byteSize
  if total < UInt32.ofNat prefixSpace then some (finish out, nb, out)
  else
    match FixedHeader.decode nb false with
    | some (.ok h, nb1) =>
      if headerBad conn h then some (.err, nb1, out)
      else if total < h.dataFrameSize then some (finish out, nb1, out)
      else
        match nb1.cut h.dataFrameSize.toNat with
        | none => none
        | some (p, rest) =>
          if _h : rest.byteSize < nb.byteSize then check conn rest (out ++ [p]) else none
    | _ => none
termination_by nb.byteSize

/-- `TrpcProtocolMessageMetadata` as filled by `PickTrpcProtocolMessageMetadata`. -/
structure PickData where
  dataFrameType : UInt8
  streamId : UInt32
  streamFrameType : UInt8
  enableStream : Bool
deriving Repr, DecidableEq

/-- `PickTrpcProtocolMessageMetadata` (trpc_proto_checker.cc:65-82). -/
def pick (nb : NB) : Option (Res PickData) :=
  match FixedHeader.decode nb false with
  | none => none
  | some (.fail, _) => some .fail
  | some (.ok h, _) =>
    some (.ok { dataFrameType := h.dataFrameType, streamId := h.streamId,
                streamFrameType := h.streamFrameType, enableStream := h.dataFrameType == 1 })

/-- One read event of a connection (fiber_tcp_connection.cc:228-266 `ReadData`/`ConsumeReadData`,
default/tcp_connection.cc:182-222 `HandleReadEvent`): append what was read, run the checker with an
empty output queue.  Result: the status, the buffer kept, the messages in the queue. -/
def onRead (conn : Option UInt32) (kept : NB) (chunk : NB) : Option (Packet × NB × List NB) :=
  match kept.appendNB chunk with
  | none => none
  | some nb => check conn nb []

/-! ## Protobuf messages -/

/-- What the codec needs of a protobuf message type. -/
structure PB (α : Type) where
  ser : α → Bytes
  parse : Bytes → Option α

/-- A unary header (`RequestProtocol`, `ResponseProtocol`) has an `attachment_size` field (uint32). -/
structure PBHeader (α : Type) extends PB α where
  att : α → UInt32
  setAtt : α → UInt32 → α

/-- `pb.ParseFromZeroCopyStream(NoncontiguousBufferInputStream(&meta))`: the parser sees the bytes of
the buffer (see C04). -/
def PB.parseNB {α} (pb : PB α) (nb : NB) : Option α := pb.parse nb.content

/-- `pb.SerializePartialToZeroCopyStream(NoncontiguousBufferOutputStream(&builder))` followed by
`Flush` (trpc_protocol.cc:153-158).  Protobuf writes the serialised bytes in chunks; `chunks` is an
arbitrary way to do so. -/
def serializeTo (B : Nat) (g : Builder.Garbage) (b : Builder) (chunks : List Bytes) : Option Builder :=
  match outChunks B g { b := b } chunks with
  | none => none
  | some s =>
    match s.flush B g with
    | none => none
    | some s' => some s'.b

/-! ## Unary frames -/

/-- `TrpcRequestProtocol` / `TrpcResponseProtocol` (trpc_protocol.h:81-190): fixed header, pb header,
body and attachment. -/
structure Unary (α : Type) where
  fixed : FixedHeader
  header : α
  body : NB
  attachment : NB

/-- The writing part shared by both encoders (trpc_protocol.cc:146-166, 221-243). -/
def writeFrame (B : Nat) (g : Builder.Garbage) (fixed : FixedHeader) (chunks : List Bytes)
    (body attachment : NB) : Option NB :=
  match Builder.new B g with
  | none => none
  | some b0 =>
    match b0.reserveFill B g fixed.encode with
    | none => none
    | some b1 =>
      match serializeTo B g b1 chunks with
      | none => none
      | some b2 =>
        match b2.appendNB B g body with
        | none => none
        | some b3 =>
          match (if attachment.byteSize = 0 then some b3 else b3.appendNB B g attachment) with
          | none => none
          | some b4 => b4.destructiveGet

/-- The pb header as it is sent: `set_attachment_size(attachment.ByteSize())` (trpc_protocol.cc:140,
214), truncated to 32 bits. -/
def sentHeader {α} (pb : PBHeader α) (m : Unary α) : α :=
  pb.setAtt m.header (UInt32.ofNat m.attachment.byteSize)

/-- Fixed header of an encoded request (trpc_protocol.cc:141-144): `pb_header_size` is truncated to 16
bits, `data_frame_size` (a `size_t` sum) to 32 bits. -/
def requestFixed {α} (pb : PBHeader α) (m : Unary α) : FixedHeader :=
  let n := (pb.ser (sentHeader pb m)).length
  { m.fixed with
    pbHeaderSize := UInt16.ofNat n
    dataFrameSize := UInt32.ofNat (prefixSpace + n + m.body.byteSize + m.attachment.byteSize) }

/-- Fixed header of an encoded response (trpc_protocol.cc:215-219): the sums are 32 bit. -/
def responseFixed {α} (pb : PBHeader α) (m : Unary α) : FixedHeader :=
  let n := UInt32.ofNat (pb.ser (sentHeader pb m)).length
  { m.fixed with
    dataFrameSize := UInt32.ofNat (prefixSpace + n.toNat + m.body.byteSize + m.attachment.byteSize)
    pbHeaderSize := UInt16.ofNat n.toNat }

/-- `TrpcRequestProtocol::ZeroCopyEncode` (trpc_protocol.cc:139-167). -/
def encodeRequest {α} (pb : PBHeader α) (B : Nat) (g : Builder.Garbage) (chunks : List Bytes)
    (m : Unary α) : Option NB :=
  writeFrame B g (requestFixed pb m) chunks m.body m.attachment

/-- `TrpcResponseProtocol::ZeroCopyEncode` (trpc_protocol.cc:213-244). -/
def encodeResponse {α} (pb : PBHeader α) (B : Nat) (g : Builder.Garbage) (chunks : List Bytes)
    (m : Unary α) : Option NB :=
  writeFrame B g (responseFixed pb m) chunks m.body m.attachment

/-- Common tail of both decoders (trpc_protocol.cc:120-136, 194-210). -/
def splitPayload {α} (pb : PBHeader α) (fixed : FixedHeader) (hdr rest : NB) : Option (Res (Unary α)) :=
  match pb.parseNB hdr with
  | none => some .fail
  | some h =>
    if rest.byteSize < (pb.att h).toNat then some .fail
    else
      match rest.cut (rest.byteSize - (pb.att h).toNat) with
      | none => none
      | some (body, att) => some (.ok { fixed := fixed, header := h, body := body, attachment := att })

/-- `TrpcRequestProtocol::ZeroCopyDecode` (trpc_protocol.cc:106-137).  The sum at 114 is a `size_t`. -/
def decodeRequest {α} (pb : PBHeader α) (nb : NB) : Option (Res (Unary α)) :=
  match FixedHeader.decode nb true with
  | none => none
  | some (.fail, _) => some .fail
  | some (.ok fixed, nb1) =>
    match nb1.cut fixed.pbHeaderSize.toNat with
    | none => none
    | some (hdr, rest) =>
      if fixed.dataFrameSize.toNat ≠ prefixSpace + fixed.pbHeaderSize.toNat + rest.byteSize then some .fail
      else splitPayload pb fixed hdr rest

/-- `TrpcResponseProtocol::ZeroCopyDecode` (trpc_protocol.cc:186-211). -/
def decodeResponse {α} (pb : PBHeader α) (nb : NB) : Option (Res (Unary α)) :=
  match FixedHeader.decode nb true with
  | none => none
  | some (.fail, _) => some .fail
  | some (.ok fixed, nb1) =>
    match nb1.cut fixed.pbHeaderSize.toNat with
    | none => none
    | some (hdr, rest) => splitPayload pb fixed hdr rest

/-! ## Stream frames -/

/-- Stream frame kinds (`TrpcStreamFrameType`, trpc_protocol.h:45-50). -/
inductive Kind where
  | init
  | data
  | feedback
  | close
deriving Repr, DecidableEq

def Kind.code : Kind → UInt8
  | .init => 1
  | .data => 2
  | .feedback => 3
  | .close => 4

/-- `Check()` of the four frame classes (trpc_protocol.cc:361-367, 394-400, 425-431, 456-462) with
`CheckTrpcDataFrameType` and `CheckTrpcStreamFrameType` (268-290). -/
def kindOk (k : Kind) (h : FixedHeader) : Bool := h.dataFrameType == 1 && h.streamFrameType == k.code

/-- `EncodeStreamFrame` (trpc_protocol.cc:294-311). -/
def encodeStreamFrame (B : Nat) (g : Builder.Garbage) (fixed : FixedHeader) (chunks : List Bytes)
    (b : Builder) : Option Builder :=
  match b.reserveFill B g fixed.encode with
  | none => none
  | some b1 => serializeTo B g b1 chunks

/-- Fixed header with `data_frame_size = ByteSizeLong()` (trpc_protocol.cc:352, 382, 416, 447;
trpc_protocol.h:249-251, 283, 315-317). -/
def streamFixed (fixed : FixedHeader) (payload : Nat) : FixedHeader :=
  { fixed with dataFrameSize := UInt32.ofNat (prefixSpace + payload) }

/-- `ZeroCopyEncode` of INIT, FEEDBACK and CLOSE (trpc_protocol.cc:348-359, 412-423, 443-454); the
three functions differ only in the message type and in `Check`. -/
def encodeControl {α} (k : Kind) (pb : PB α) (B : Nat) (g : Builder.Garbage) (chunks : List Bytes)
    (fixed : FixedHeader) (meta_ : α) : Option (Res NB) :=
  if kindOk k fixed then
    match Builder.new B g with
    | none => none
    | some b0 =>
      match encodeStreamFrame B g (streamFixed fixed (pb.ser meta_).length) chunks b0 with
      | none => none
      | some b1 =>
        match b1.destructiveGet with
        | none => none
        | some nb => some (.ok nb)
  else some .fail

/-- `size_t` subtraction (64 bit, wraps). -/
def sizeSub (a b : Nat) : Nat := if b ≤ a then a - b else a + (18446744073709551616 - b)

/-- `DecodeStreamFrame` (trpc_protocol.cc:316-335): `metadata_size` is a `size_t` and wraps when
`data_frame_size < 16`. -/
def decodeStreamFrame {α} (pb : PB α) (nb : NB) : Option (Res (FixedHeader × α)) :=
  match FixedHeader.decode nb true with
  | none => none
  | some (.fail, _) => some .fail
  | some (.ok fixed, nb1) =>
    let metadataSize := sizeSub fixed.dataFrameSize.toNat prefixSpace
    if nb1.byteSize < metadataSize then some .fail
    else
      match nb1.cut metadataSize with
      | none => none
      | some (md, _) =>
        match pb.parseNB md with
        | none => some .fail
        | some m => some (.ok (fixed, m))

/-- `ZeroCopyDecode` of INIT, FEEDBACK and CLOSE (trpc_protocol.cc:338-346, 402-410, 433-441). -/
def decodeControl {α} (k : Kind) (pb : PB α) (nb : NB) : Option (Res (FixedHeader × α)) :=
  match decodeStreamFrame pb nb with
  | none => none
  | some .fail => some .fail
  | some (.ok r) => if kindOk k r.1 then some (.ok r) else some .fail

/-- `TrpcStreamDataFrameProtocol::ZeroCopyEncode` (trpc_protocol.cc:378-392). -/
def encodeData (B : Nat) (g : Builder.Garbage) (fixed : FixedHeader) (body : NB) : Option (Res NB) :=
  if kindOk .data fixed then
    match Builder.new B g with
    | none => none
    | some b0 =>
      match b0.reserveFill B g (streamFixed fixed body.byteSize).encode with
      | none => none
      | some b1 =>
        match b1.appendNB B g body with
        | none => none
        | some b2 =>
          match b2.destructiveGet with
          | none => none
          | some nb => some (.ok nb)
  else some .fail

/-- `TrpcStreamDataFrameProtocol::ZeroCopyDecode` (trpc_protocol.cc:369-376): no check of kind or
size; the `size_t` argument of `Cut` wraps when `data_frame_size < 16`. -/
def decodeData (nb : NB) : Option (Res (FixedHeader × NB)) :=
  match FixedHeader.decode nb true with
  | none => none
  | some (.fail, _) => some .fail
  | some (.ok fixed, nb1) =>
    match nb1.cut (sizeSub fixed.dataFrameSize.toNat prefixSpace) with
    | none => none
    | some (body, _) => some (.ok (fixed, body))

end Verif.Trpc
