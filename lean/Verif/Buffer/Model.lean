/-!
# Model of `trpc/util/buffer/noncontiguous_buffer.{h,cc}` and `zero_copy_stream.cc`

Bytes are `UInt8`, memory sizes are `Nat` (a `size_t` that counts bytes which are in memory cannot
wrap).  An outcome `none` stands for undefined behaviour or a failed check: calling `front()` on an
empty list, a failing `TRPC_DCHECK` on an argument, a failing `TRPC_CHECK`/`TRPC_ASSERT`.

The singly linked list of blocks (`trpc/util/internal/singly_linked_list.h:178-232`) is a `List`
here; its pointer level is modelled separately in `Verif.Buffer.SList`.
-/

namespace Verif.Buffer

abbrev Bytes := List UInt8

/-- `BufferBlock` (noncontiguous_buffer.h:116-243): a window `[start, start+size)` of a memory
block.  Simplified: `data_` (pool block) and `contiguous_buffer_` (user memory) are one field `mem`,
the memory as a value; the reference count is not modelled (a block that is shared by two windows is
never written again, see `Builder`). -/
structure Block where
  mem : Bytes
  start : Nat
  size : Nat
deriving Repr, DecidableEq

namespace Block

/-- `BufferBlock::data()`/`size()` (h:179-193): the bytes one reads through the block. -/
def bytes (b : Block) : Bytes := (b.mem.drop b.start).take b.size

/-- `BufferBlock::Skip` (h:163-167); `TRPC_DCHECK_LT(bytes, size_)`. -/
def skip (b : Block) (n : Nat) : Option Block :=
  if n < b.size then some { b with size := b.size - n, start := b.start + n } else none

/-- `BufferBlock::SetSize` (h:171-174); `TRPC_DCHECK_LE(size, size_)`. -/
def setSize (b : Block) (n : Nat) : Option Block :=
  if n ≤ b.size then some { b with size := n } else none

/-- The window lies inside the memory (otherwise reading it is undefined behaviour). -/
def WF (b : Block) : Prop := b.start + b.size ≤ b.mem.length

instance (b : Block) : Decidable b.WF := inferInstanceAs (Decidable (_ ≤ _))

end Block

/-- `NoncontiguousBuffer` (h:318-511). -/
structure NB where
  byteSize : Nat := 0
  blocks : List Block := []
  contiguous : Bool := false
deriving Repr, DecidableEq

namespace NB

/-- the default constructed buffer (h:327). -/
def empty : NB := {}

/-- `SkipSlow`'s loop (cc:210-222). `front()` on an empty list is undefined: `none`. -/
def skipLoop : List Block → Nat → Option (List Block)
  | bs, 0 => some bs
  | [], _ + 1 => none
  | b :: bs, n + 1 =>
    let os := min (n + 1) b.size
    if os = b.size then skipLoop bs (n + 1 - os)
    else
      match b.skip os with
      | some b' => skipLoop (b' :: bs) (n + 1 - os)
      | none => none
termination_by bs n => (bs.length, n)
decreasing_by
  all_goals simp_wf
  · left; omega
  · right
    rename_i h
    have : ¬ min (n + 1) b.size = b.size := h
    omega

/-- `NoncontiguousBuffer::Skip` (h:369-379) with `SkipSlow` (cc:207-223). -/
def skip (nb : NB) (n : Nat) : Option NB :=
  if n ≤ nb.byteSize then
    if n = 0 then some nb
    else
      match nb.blocks with
      | [] => none
      | b :: bs =>
        if n < b.size then
          match b.skip n with
          | some b' => some { nb with blocks := b' :: bs, byteSize := nb.byteSize - n }
          | none => none
        else
          match skipLoop nb.blocks n with
          | some bs' => some { nb with blocks := bs', byteSize := nb.byteSize - n }
          | none => none
  else none

/-- the loop of `Cut` (h:394-397): moves whole blocks; returns the moved blocks, the blocks left and
the number of bytes still to be cut. -/
def cutLoop : List Block → Nat → List Block → Option (List Block × List Block × Nat)
  | bs, 0, acc => some (acc, bs, 0)
  | [], _ + 1, _ => none
  | b :: bs, n + 1, acc =>
    if b.size ≤ n + 1 then cutLoop bs (n + 1 - b.size) (acc ++ [b])
    else some (acc, b :: bs, n + 1)

/-- `NoncontiguousBuffer::Cut` (h:385-410).  First component: the returned buffer, second: what is
left in `*this`.  The branch `return std::move(*this)` uses the move constructor (h:335-338). -/
def cut (nb : NB) (n : Nat) : Option (NB × NB) :=
  if n ≤ nb.byteSize then
    if n = nb.byteSize then some (nb, { byteSize := 0, blocks := [], contiguous := false })
    else
      match cutLoop nb.blocks n [] with
      | none => none
      | some (rc, rest, left) =>
        if left = 0 then
          some ({ byteSize := n, blocks := rc, contiguous := false },
                { nb with blocks := rest, byteSize := nb.byteSize - n })
        else
          match rest with
          | [] => none
          | b :: bs =>
            match b.setSize left, b.skip left with
            | some ncb, some b' =>
              some ({ byteSize := n, blocks := rc ++ [ncb], contiguous := false },
                    { nb with blocks := b' :: bs, byteSize := nb.byteSize - n })
            | _, _ => none
  else none

/-- `Append(LwUniquePtr<BufferBlock>&&)` (h:416-420). -/
def appendBlock (nb : NB) (b : Block) : Option NB :=
  if nb.contiguous then none
  else some { nb with byteSize := nb.byteSize + b.size, blocks := nb.blocks ++ [b] }

/-- `Append(NoncontiguousBuffer)` (h:426-430). -/
def appendNB (nb : NB) (o : NB) : Option NB :=
  if nb.contiguous then none
  else some { nb with byteSize := nb.byteSize + o.byteSize, blocks := nb.blocks ++ o.blocks }

/-- `Append(char*, size_t)` (h:439-448), `BufferBlock::WrapUp` (h:211-220). -/
def appendRaw (nb : NB) (m : Bytes) : Option NB :=
  if nb.byteSize = 0 then
    some { byteSize := nb.byteSize + m.length,
           blocks := nb.blocks ++ [{ mem := m, start := 0, size := m.length }],
           contiguous := true }
  else none

/-- `Append(BufferPtr&&)` (h:457-471); unlike the raw-pointer version it ignores empty memory. -/
def appendBufferPtr (nb : NB) (m : Bytes) : Option NB :=
  if nb.byteSize = 0 then
    if m.length = 0 then some nb
    else some { byteSize := nb.byteSize + m.length,
                blocks := nb.blocks ++ [{ mem := m, start := 0, size := m.length }],
                contiguous := true }
  else none

/-- `Clear` (h:485-490) and `ClearSlow` (cc:225-232).  `Empty()`'s own debug check
(h:480: `buffers_.empty() == (byte_size_ == 0)`) is the subject of theorem `empty_check_holds`. -/
def clear (nb : NB) : NB :=
  if nb.byteSize ≠ 0 then { byteSize := 0, blocks := [], contiguous := false }
  else { nb with contiguous := false }

/-- copy assignment (cc:192-205). -/
def copyAssign (self : NB) (o : NB) : NB :=
  let c := clear self
  { byteSize := o.byteSize, blocks := c.blocks ++ o.blocks, contiguous := o.contiguous }

/-- move assignment (h:340-348): first the new value of `*this`, second what is left in `nb`.
`SinglyLinkedList::operator=` (singly_linked_list.h:271-275) aborts unless the destination list is
empty. -/
def moveAssign (self : NB) (o : NB) : Option (NB × NB) :=
  let c := clear self
  match c.blocks with
  | [] => some ({ byteSize := o.byteSize, blocks := o.blocks, contiguous := o.contiguous },
                { byteSize := c.byteSize, blocks := [], contiguous := c.contiguous })
  | _ :: _ => none

/-- `FirstContiguous` (h:352-356). -/
def firstContiguous (nb : NB) : Option Block := nb.blocks.head?

end NB

/-! ## Builder -/

/-- `NoncontiguousBufferBuilder` (h:514-686).  `cur` is the content of the current memory block
(`none` after `DestructiveGet`), of length `B = GetBlockMaxAvailableSize()`. -/
structure Builder where
  nb : NB
  used : Nat
  cur : Option Bytes
deriving Repr

namespace Builder

/-- A fresh pool block: contents are unspecified, the model parameter `g` provides them. -/
abbrev Garbage := Nat → UInt8

/-- memory of a fresh block of `B` bytes. -/
def fresh (B : Nat) (g : Garbage) : Bytes := (List.range B).map g

/-- `memcpy(dst + off, src, |src|)` inside a block: undefined if it does not fit. -/
def memWrite (m : Bytes) (off : Nat) (src : Bytes) : Option Bytes :=
  if off + src.length ≤ m.length then some (m.take off ++ src ++ m.drop (off + src.length)) else none

/-- `InitializeNextBlock` (cc:234-242); the `TRPC_CHECK(SizeAvailable())` failing is `none`. -/
def initNext (B : Nat) (g : Garbage) (s : Builder) : Option Builder :=
  match s.cur with
  | some _ => if B - s.used = 0 then none else some s
  | none => some { s with cur := some (fresh B g), used := 0 }

/-- `FlushCurrentBlock` (cc:244-253). -/
def flush (s : Builder) : Option Builder :=
  if s.used = 0 then some s
  else
    match s.cur with
    | none => none
    | some m =>
      match s.nb.appendBlock { mem := m, start := 0, size := s.used } with
      | some nb' => some { nb := nb', used := 0, cur := none }
      | none => none

/-- `FlushCurrentBlock(); InitializeNextBlock();` as it occurs in h:533-534, 548-549 and 611-612. -/
def flushInit (B : Nat) (g : Garbage) (s : Builder) : Option Builder :=
  match flush s with
  | some s' => initNext B g s'
  | none => none

/-- constructor (h:516). -/
def new (B : Nat) (g : Garbage) : Option Builder := initNext B g { nb := {}, used := 0, cur := none }

/-- `MarkWritten` (h:529-536). -/
def markWritten (B : Nat) (g : Garbage) (s : Builder) (n : Nat) : Option Builder :=
  if n ≤ B - s.used then
    let s := { s with used := s.used + n }
    if B - s.used = 0 then flushInit B g s
    else some s
  else none

/-- writing through the pointer `data()` (h:519) `data.length` bytes at offset `used`. -/
def poke (s : Builder) (src : Bytes) : Option Builder :=
  match s.cur with
  | none => none
  | some m =>
    match memWrite m s.used src with
    | some m' => some { s with cur := some m' }
    | none => none

/-- `Reserve(n)` (h:542-554) followed by the caller filling the reserved bytes with `src`
(`src.length` must be `n`, the memory must not be used otherwise in between). The pointer returned
stays valid when `MarkWritten` flushes the block; writing it before or after `MarkWritten` is the same
because the block is only referenced. We write before. -/
def reserveFill (B : Nat) (g : Garbage) (s : Builder) (src : Bytes) : Option Builder :=
  if src.length ≤ B then
    match (if B - s.used < src.length then flushInit B g s else some s) with
    | none => none
    | some s' =>
      match poke s' src with
      | some s2 => markWritten B g s2 src.length
      | none => none
  else none

/-- `AppendSlow` (cc:255-263). The measure is the number of bytes left; an iteration that copies
nothing would loop forever and is `none`. -/
def appendSlow (B : Nat) (g : Garbage) (s : Builder) (src : Bytes) : Option Builder :=
  if src.length = 0 then some s
  else
    let copying := min src.length (B - s.used)
    if copying = 0 then none
    else
      match poke s (src.take copying) with
      | none => none
      | some s1 =>
        match markWritten B g s1 copying with
        | none => none
        | some s2 => appendSlow B g s2 (src.drop copying)
termination_by src.length
decreasing_by simp_wf; omega

/-- `Append(const void*, size_t)` (h:573-596). -/
def append (B : Nat) (g : Garbage) (s : Builder) (src : Bytes) : Option Builder :=
  if src.length = 0 then some s
  else if s.used + src.length < B then
    match poke s src with
    | some s' => some { s' with used := s.used + src.length }
    | none => none
  else appendSlow B g s src

/-- `Append(unsigned char)` (h:623-627); `TRPC_DCHECK(SizeAvailable())` is implied by `poke`. -/
def appendChar (B : Nat) (g : Garbage) (s : Builder) (c : UInt8) : Option Builder :=
  match poke s [c] with
  | some s' => markWritten B g s' 1
  | none => none

/-- `Append(NoncontiguousBuffer)` (h:608-615). -/
def appendNB (B : Nat) (g : Garbage) (s : Builder) (o : NB) : Option Builder :=
  match (if s.used ≠ 0 then flushInit B g s else some s) with
  | none => none
  | some s' =>
    match s'.nb.appendNB o with
    | some nb' => some { s' with nb := nb' }
    | none => none

/-- `UncheckedAppend` (h:660-669): consecutive `memcpy`s. -/
def uncheckedAppend (s : Builder) (off : Nat) : List Bytes → Option Builder
  | [] => some s
  | b :: bs =>
    match s.cur with
    | none => none
    | some m =>
      match memWrite m off b with
      | some m' => uncheckedAppend { s with cur := some m' } (off + b.length) bs
      | none => none

/-- the fall back of the variadic `Append`: append one at a time. -/
def appendEach (B : Nat) (g : Garbage) (s : Builder) : List Bytes → Option Builder
  | [] => some s
  | b :: bs =>
    match append B g s b with
    | some s' => appendEach B g s' bs
    | none => none

/-- variadic `Append(const Ts&...)` (h:635-646). -/
def appendMany (B : Nat) (g : Garbage) (s : Builder) (bs : List Bytes) : Option Builder :=
  let total := (bs.map List.length).sum
  if s.used + total < B then
    match uncheckedAppend s s.used bs with
    | some s' => some { s' with used := s.used + total }
    | none => none
  else appendEach B g s bs

/-- `ByteSize` (h:558). -/
def byteSize (s : Builder) : Nat := s.nb.byteSize + s.used

/-- `DestructiveGet` (h:563-566). -/
def destructiveGet (s : Builder) : Option NB :=
  match flush s with
  | some s' => some s'.nb
  | none => none

end Builder

/-- `CreateBufferSlow` (cc:280-290). -/
def createBufferSlow (B : Nat) (g : Builder.Garbage) (s : Bytes) : Option NB :=
  match Builder.new B g with
  | none => none
  | some b =>
    match Builder.append B g b s with
    | none => none
    | some b' => b'.destructiveGet

/-! ## Flattening -/

/-- loop of `FlattenSlow` (cc:297-301). -/
def flattenLoop : List Block → Nat → Bytes
  | _, 0 => []
  | [], _ => []
  | b :: bs, left =>
    let len := min left b.size
    b.bytes.take len ++ flattenLoop bs (left - len)

/-- `FlattenSlow` (cc:292-303). -/
def flattenSlow (nb : NB) (maxBytes : Nat) : Bytes :=
  flattenLoop nb.blocks (min maxBytes nb.byteSize)

/-- loop of `FlattenToSlowSlow` (cc:127-132). -/
def flattenToLoop : List Block → Nat → Bytes → Bytes
  | [], _, acc => acc
  | b :: bs, size, acc =>
    if acc.length = size then acc
    else flattenToLoop bs size (acc ++ b.bytes.take (min (size - acc.length) b.size))

/-- `FlattenToSlow` (h:724-730) with `FlattenToSlowSlow` (cc:125-133). The result is the memory
written to the destination.  `FirstContiguous` on an empty buffer is undefined (`none`). -/
def flattenToSlow (nb : NB) (size : Nat) : Option Bytes :=
  match nb.blocks with
  | [] => none
  | b :: _ =>
    if size ≤ b.size then some (b.bytes.take size)
    else if size ≤ nb.byteSize then some (flattenToLoop nb.blocks size [])
    else none

/-- `std::string::find(delim, pos)` from the C++ standard library: the least position `i ≥ pos` such
that `delim` occurs at `i`. -/
def strFind (s d : Bytes) (pos : Nat) : Option Nat :=
  (List.range' pos (s.length + 1 - pos)).find? (fun i => d.isPrefixOf (s.drop i))

/-- loop of `FlattenSlowUntil` (cc:320-327). -/
def untilLoop (d : Bytes) (maxBytes : Nat) : List Block → Bytes → Bytes
  | [], rc => rc
  | b :: bs, rc =>
    if rc.length < maxBytes then
      let rc' := rc ++ b.bytes
      match strFind rc' d (rc.length - min rc.length d.length) with
      | some pos => rc'.take (pos + d.length)
      | none => untilLoop d maxBytes bs rc'
    else rc

/-- `FlattenSlowUntil` (cc:305-332). -/
def flattenSlowUntil (nb : NB) (d : Bytes) (maxBytes : Nat) : Option Bytes :=
  if nb.byteSize = 0 then some []
  else
    match nb.blocks with
    | [] => none
    | b :: _ =>
      match strFind b.bytes d 0 with
      | some pos => some (b.bytes.take (min (pos + d.length) maxBytes))
      | none =>
        let rc := untilLoop d maxBytes nb.blocks []
        some (if rc.length > maxBytes then rc.take maxBytes else rc)

/-! ## `NoncontiguousBufferInputStream` (zero_copy_stream.cc:29-75)

Simplified: the `int` size output of `Next` is a `Nat` (blocks above 2 GiB are out of scope). -/

structure InStream where
  nb : NB
  skipBeforeRead : Nat := 0
  read : Nat := 0
deriving Repr

namespace InStream

/-- `PerformPendingSkips` (zero_copy_stream.cc:70-75). -/
def performPendingSkips (s : InStream) : Option InStream :=
  if s.skipBeforeRead ≠ 0 then
    match s.nb.skip s.skipBeforeRead with
    | some nb' => some { s with nb := nb', skipBeforeRead := 0 }
    | none => none
  else some s

/-- `Next` (zero_copy_stream.cc:36-49): `some (s', none)` is the return value `false`. -/
def next (s : InStream) : Option (InStream × Option Bytes) :=
  match performPendingSkips s with
  | none => none
  | some s =>
    if s.nb.byteSize = 0 then some (s, none)
    else
      match s.nb.blocks with
      | [] => none
      | b :: _ =>
        some ({ s with skipBeforeRead := b.size, read := s.read + b.size }, some b.bytes)

/-- `BackUp` (zero_copy_stream.cc:51-55), `TRPC_ASSERT` failing is `none`. -/
def backUp (s : InStream) (n : Nat) : Option InStream :=
  if n ≤ s.skipBeforeRead then
    some { s with skipBeforeRead := s.skipBeforeRead - n, read := s.read - n }
  else none

/-- `Skip` (zero_copy_stream.cc:57-66). -/
def skip (s : InStream) (n : Nat) : Option (InStream × Bool) :=
  match performPendingSkips s with
  | none => none
  | some s =>
    if s.nb.byteSize < n then some (s, false)
    else
      match s.nb.skip n with
      | some nb' => some ({ s with nb := nb', read := s.read + n }, true)
      | none => none

end InStream

/-! ## `NoncontiguousBufferOutputStream` (zero_copy_stream.cc:77-105) -/

structure OutStream where
  b : Builder
  usingBytes : Nat := 0
deriving Repr

namespace OutStream

/-- `Flush` (zero_copy_stream.cc:83-88). -/
def flush (B : Nat) (g : Builder.Garbage) (s : OutStream) : Option OutStream :=
  if s.usingBytes ≠ 0 then
    match s.b.markWritten B g s.usingBytes with
    | some b' => some { b := b', usingBytes := 0 }
    | none => none
  else some s

/-- `Next` (zero_copy_stream.cc:90-99) followed by the caller filling the start of the memory it got
with `src` (at most the whole).  Returns the size handed out. -/
def nextFill (B : Nat) (g : Builder.Garbage) (s : OutStream) (src : Bytes) : Option (OutStream × Nat) :=
  match flush B g s with
  | none => none
  | some s1 =>
    let size := B - s1.b.used
    if size = 0 then none
    else if src.length ≤ size then
      match s1.b.poke src with
      | some b' => some ({ b := b', usingBytes := size }, size)
      | none => none
    else none

/-- `BackUp` (zero_copy_stream.cc:101).  `using_bytes_ -= count` wraps when `count` is larger: that
breaks the contract of protobuf and is `none`. -/
def backUp (s : OutStream) (n : Nat) : Option OutStream :=
  if n ≤ s.usingBytes then some { s with usingBytes := s.usingBytes - n } else none

/-- `ByteCount` (zero_copy_stream.cc:103-105). -/
def byteCount (s : OutStream) : Nat := s.b.byteSize

end OutStream

end Verif.Buffer
