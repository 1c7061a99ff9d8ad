import Verif.Buffer.Model
/-!
# Specification of the buffer: a flat byte string

`NB.content` is what a caller sees by walking the blocks.  `Op`/`specStep` say what every operation
means for a flat byte string, with `List.take`, `List.drop` and `++` only.
-/

namespace Verif.Buffer

/-- What a caller sees by walking the blocks of a buffer. -/
def blocksContent (bs : List Block) : Bytes := (bs.map Block.bytes).flatten

def NB.content (nb : NB) : Bytes := blocksContent nb.blocks

/-- Well-formedness of a buffer: every window lies in its memory, the cached size is right. -/
structure NB.WF (nb : NB) : Prop where
  inMem : ∀ b ∈ nb.blocks, b.WF
  size : nb.byteSize = (nb.blocks.map Block.size).sum

/-- No block of zero size (every way to build a buffer except `Append(char*, 0)` guarantees it). -/
def NB.NoZero (nb : NB) : Prop := ∀ b ∈ nb.blocks, 0 < b.size

/-- Operations of the public interface that change a buffer. -/
inductive Op where
  | appendBlock (b : Block)
  | appendNB (o : NB)
  | appendRaw (m : Bytes)
  | appendBufferPtr (m : Bytes)
  | cut (n : Nat)
  | skip (n : Nat)
  | clear
  | copyAssign (o : NB)
  | moveAssign (o : NB)

/-- One operation on the model; the output is the buffer returned by `Cut`, if any. -/
def step (nb : NB) : Op → Option (NB × List NB)
  | .appendBlock b => (nb.appendBlock b).map (·, [])
  | .appendNB o => (nb.appendNB o).map (·, [])
  | .appendRaw m => (nb.appendRaw m).map (·, [])
  | .appendBufferPtr m => (nb.appendBufferPtr m).map (·, [])
  | .cut n => (nb.cut n).map (fun p => (p.2, [p.1]))
  | .skip n => (nb.skip n).map (·, [])
  | .clear => some (nb.clear, [])
  | .copyAssign o => some (nb.copyAssign o, [])
  | .moveAssign o => (nb.moveAssign o).map (fun p => (p.1, []))

def run (nb : NB) : List Op → Option (NB × List NB)
  | [] => some (nb, [])
  | o :: os =>
    match step nb o with
    | none => none
    | some (nb', out) =>
      match run nb' os with
      | none => none
      | some (nb'', outs) => some (nb'', out ++ outs)

/-- One operation on a flat byte string. -/
def specStep (s : Bytes) : Op → Option (Bytes × List Bytes)
  | .appendBlock b => some (s ++ b.bytes, [])
  | .appendNB o => some (s ++ o.content, [])
  | .appendRaw m => some (s ++ m, [])
  | .appendBufferPtr m => some (s ++ m, [])
  | .cut n => if n ≤ s.length then some (s.drop n, [s.take n]) else none
  | .skip n => if n ≤ s.length then some (s.drop n, []) else none
  | .clear => some ([], [])
  | .copyAssign o => some (o.content, [])
  | .moveAssign o => some (o.content, [])

def specRun (s : Bytes) : List Op → Option (Bytes × List Bytes)
  | [] => some (s, [])
  | o :: os =>
    match specStep s o with
    | none => none
    | some (s', out) =>
      match specRun s' os with
      | none => none
      | some (s'', outs) => some (s'', out ++ outs)

/-- The operands of an operation are themselves well formed. -/
def Op.WF : Op → Prop
  | .appendBlock b => b.WF
  | .appendNB o => o.WF
  | .copyAssign o => o.WF
  | .moveAssign o => o.WF
  | _ => True

/-- Operations that stay in the pooled-block mode, without zero-size blocks. -/
def Op.Plain : Op → Prop
  | .appendBlock b => 0 < b.size
  | .appendNB o => o.NoZero
  | .copyAssign o => o.NoZero ∧ o.contiguous = false
  | .moveAssign o => o.NoZero ∧ o.contiguous = false
  | .appendRaw _ => False
  | .appendBufferPtr _ => False
  | _ => True

/-! ## First occurrence of a delimiter -/

/-- `d` occurs in `s` at position `i`. -/
def OccursAt (d s : Bytes) (i : Nat) : Prop := i ≤ s.length ∧ d <+: s.drop i

/-- `i` is the first position at which `d` occurs in `s`. -/
def FirstOcc (d s : Bytes) (i : Nat) : Prop := OccursAt d s i ∧ ∀ j < i, ¬ OccursAt d s j

/-- The bytes up to and including the first delimiter (all of them if there is none). -/
def UntilSpec (c d : Bytes) (maxBytes : Nat) (r : Bytes) : Prop :=
  (∀ i, FirstOcc d c i → r = c.take (min (i + d.length) maxBytes)) ∧
  ((∀ i, ¬ OccursAt d c i) → r = c.take maxBytes)

/-! ## Builder: what is written -/

inductive BOp where
  | append (src : Bytes)
  | appendMany (srcs : List Bytes)
  | appendChar (c : UInt8)
  | appendNB (o : NB)
  | reserveFill (src : Bytes)
  | pokeMark (src : Bytes)

def BOp.written : BOp → Bytes
  | .append s => s
  | .appendMany ss => ss.flatten
  | .appendChar c => [c]
  | .appendNB o => o.content
  | .reserveFill s => s
  | .pokeMark s => s

def bstep (B : Nat) (g : Builder.Garbage) (s : Builder) : BOp → Option Builder
  | .append src => s.append B g src
  | .appendMany srcs => s.appendMany B g srcs
  | .appendChar c => s.appendChar B g c
  | .appendNB o => s.appendNB B g o
  | .reserveFill src => s.reserveFill B g src
  | .pokeMark src =>
    match s.poke src with
    | some s' => s'.markWritten B g src.length
    | none => none

def brun (B : Nat) (g : Builder.Garbage) (s : Builder) : List BOp → Option Builder
  | [] => some s
  | o :: os =>
    match bstep B g s o with
    | some s' => brun B g s' os
    | none => none

/-- Arguments the interface accepts when `avail` bytes are free in the current block: a reservation
fits a block, a direct write fits what `SizeAvailable()` announced. -/
def BOp.Legal (B avail : Nat) : BOp → Prop
  | .reserveFill src => src.length ≤ B
  | .pokeMark src => src.length ≤ avail
  | .appendNB o => o.WF
  | _ => True

/-- Every operation of a builder run is legal in the state in which it is issued. -/
def LegalRun (B : Nat) (g : Builder.Garbage) (s : Builder) : List BOp → Prop
  | [] => True
  | o :: os => o.Legal B (B - s.used) ∧ ∀ s', bstep B g s o = some s' → LegalRun B g s' os

/-! ## Input stream: a cursor in a byte string -/

inductive InOp where
  | next
  | backUp (n : Nat)
  | skip (n : Nat)

/-- What the caller observes: a chunk / end of data, nothing, success of a skip. -/
inductive InOut where
  | chunk (c : Bytes)
  | eof
  | unit
  | skipped (ok : Bool)

def inStep (s : InStream) : InOp → Option (InStream × InOut)
  | .next =>
    match s.next with
    | some (s', some c) => some (s', .chunk c)
    | some (s', none) => some (s', .eof)
    | none => none
  | .backUp n => (s.backUp n).map (·, .unit)
  | .skip n => (s.skip n).map (fun p => (p.1, .skipped p.2))

def inRun (s : InStream) : List InOp → Option (InStream × List InOut)
  | [] => some (s, [])
  | o :: os =>
    match inStep s o with
    | none => none
    | some (s', out) =>
      match inRun s' os with
      | none => none
      | some (s'', outs) => some (s'', out :: outs)

/-- A cursor into the byte string `orig`: `pos` bytes consumed, `last` of them may be backed up. -/
structure Cursor where
  pos : Nat := 0
  last : Nat := 0

/-- Behaviour of a zero-copy input stream over `orig`: a chunk is a non-empty piece of `orig` at the
cursor, end of data is reported exactly at the end, `Skip` succeeds iff enough bytes are left. -/
def cursorStep (orig : Bytes) (c : Cursor) : InOp → InOut → Cursor → Prop
  | .next, .chunk ch, c' =>
      ch ≠ [] ∧ ch <+: orig.drop c.pos ∧ c'.pos = c.pos + ch.length ∧ c'.last = ch.length
  | .next, .eof, c' => c.pos = orig.length ∧ c'.pos = c.pos ∧ c'.last = 0
  | .backUp n, .unit, c' => n ≤ c.last ∧ c'.pos + n = c.pos ∧ c'.last + n = c.last
  | .skip n, .skipped true, c' => c.pos + n ≤ orig.length ∧ c'.pos = c.pos + n ∧ c'.last = 0
  | .skip n, .skipped false, c' => orig.length < c.pos + n ∧ c'.pos = c.pos ∧ c'.last = 0
  | _, _, _ => False

def cursorRun (orig : Bytes) (c : Cursor) : List InOp → List InOut → Cursor → Prop
  | [], [], c' => c' = c
  | o :: os, out :: outs, c' => ∃ c1, cursorStep orig c o out c1 ∧ cursorRun orig c1 os outs c'
  | _, _, _ => False

/-- The only illegal call: backing up more than the last chunk. -/
def inLegal (c : Cursor) : InOp → Prop
  | .backUp n => n ≤ c.last
  | _ => True

/-! ## Output stream: write chunks -/

/-- The protobuf usage pattern: get memory, fill a prefix, give back the rest. -/
def outChunk (B : Nat) (g : Builder.Garbage) (s : OutStream) (src : Bytes) : Option OutStream :=
  match s.nextFill B g src with
  | some (s', size) => s'.backUp (size - src.length)
  | none => none

def outChunks (B : Nat) (g : Builder.Garbage) (s : OutStream) : List Bytes → Option OutStream
  | [] => some s
  | c :: cs =>
    match outChunk B g s c with
    | some s' => outChunks B g s' cs
    | none => none

/-- Free bytes `Next` will hand out: what is left in the current block after the pending bytes. -/
def outAvail (B : Nat) (s : OutStream) : Nat :=
  if B - (s.b.used + s.usingBytes) = 0 then B else B - (s.b.used + s.usingBytes)

end Verif.Buffer
