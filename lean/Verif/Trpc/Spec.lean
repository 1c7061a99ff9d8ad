import Verif.Trpc.Model
/-!
# Specification of the tRPC wire format on flat byte strings
-/

namespace Verif.Trpc

open Verif.Buffer

/-- Big-endian (network order) number at offset `off`, `len` bytes long. -/
def field (s : Bytes) (off len : Nat) : Nat :=
  ((s.drop off).take len).foldl (fun a b => a * 256 + b.toNat) 0

/-- The tRPC wire header: what the 16 bytes mean. -/
structure WireIs (s : Bytes) (h : FixedHeader) : Prop where
  magic : h.magic.toNat = field s 0 2
  dataFrameType : h.dataFrameType.toNat = field s 2 1
  streamFrameType : h.streamFrameType.toNat = field s 3 1
  dataFrameSize : h.dataFrameSize.toNat = field s 4 4
  pbHeaderSize : h.pbHeaderSize.toNat = field s 8 2
  streamId : h.streamId.toNat = field s 10 4
  reversed0 : h.reversed.1.toNat = field s 14 1
  reversed1 : h.reversed.2.toNat = field s 15 1

/-- A complete header that must be refused: wrong magic, an announced size that does not cover the
header itself, or a size above the limit. -/
def BadHead (mx : Option Nat) (s : Bytes) : Prop :=
  16 ≤ s.length ∧ (field s 0 2 ≠ 0x930 ∨ field s 4 4 < 16 + field s 8 2 ∨
    ∃ m, mx = some m ∧ m < field s 4 4)

/-- A complete acceptable header. -/
def GoodHead (mx : Option Nat) (s : Bytes) : Prop :=
  16 ≤ s.length ∧ field s 0 2 = 0x930 ∧ 16 + field s 8 2 ≤ field s 4 4 ∧
    ∀ m, mx = some m → field s 4 4 ≤ m

/-- A complete frame, nothing more. -/
def IsFrame (mx : Option Nat) (f : Bytes) : Prop := GoodHead mx f ∧ f.length = field f 4 4

/-- A proper beginning of a frame. -/
def Incomplete (mx : Option Nat) (s : Bytes) : Prop :=
  s.length < 16 ∨ (GoodHead mx s ∧ s.length < field s 4 4)

/-- `s` consists of the complete frames `frames` followed by `rest`, which is the beginning of a frame,
or (when `bad`) starts with a header that must be refused. -/
structure Framing (mx : Option Nat) (s : Bytes) (frames : List Bytes) (rest : Bytes) (bad : Bool) :
    Prop where
  split : s = frames.flatten ++ rest
  frames : ∀ f ∈ frames, IsFrame mx f
  rest : if bad then BadHead mx rest else Incomplete mx rest

/-- The connection reads `chunks` one after the other; after an error it reads no more.  Result: all
messages put in the queue, the bytes kept, whether an error was reported, the chunks not read. -/
def feed (conn : Option UInt32) (kept : NB) : List NB → Option (List NB × NB × Bool × List NB)
  | [] => some ([], kept, false, [])
  | c :: cs =>
    match onRead conn kept c with
    | none => none
    | some (.err, rest, out) => some (out, rest, true, cs)
    | some (_, rest, out) =>
      match feed conn rest cs with
      | none => none
      | some (outs, rest', bad, unread) => some (out ++ outs, rest', bad, unread)

/-- What the connection hands to the message handler: nothing from a read that reported an error
(fiber_tcp_connection.cc:256-266, default/tcp_connection.cc:189-212). -/
def handled (conn : Option UInt32) (kept : NB) : List NB → Option (List NB)
  | [] => some []
  | c :: cs =>
    match onRead conn kept c with
    | none => none
    | some (.err, _, _) => some []
    | some (.less, rest, _) => handled conn rest cs
    | some (.full, rest, out) =>
      match handled conn rest cs with
      | none => none
      | some outs => some (out ++ outs)

/-- Concatenated content of a list of buffers. -/
def contents (l : List NB) : Bytes := (l.map NB.content).flatten

end Verif.Trpc
