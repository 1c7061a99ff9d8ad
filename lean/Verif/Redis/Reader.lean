import Verif.Redis.Spec
/-!
# `redis::Reader` (client/redis/reader.{h,cc}) and `RedisZeroCopyCheckResponse` (codec/redis/redis_proto_checker.cc)

The checker makes a new `Reader` for every attempt, so `GetReply` is modelled for a reader that is between two replies
(`ridx_ == -1`). The input is the list of the byte strings of its blocks; a `const_iterator` is the rest of this list. Blocks
are shorter than 2³¹ bytes (`SeekNewLine` takes an `int`).

The replies under construction are in a tree; `obj_` of a task points to the last element of the array that `obj_` of the
task below it points to (the vectors only grow at the moment when the pointer to the last element is replaced). Here a task
contains the finished elements of its array, and the element that the task above it works on is not among them yet.
-/

namespace Verif.Redis

/-- The outcome of a function: a value; the data are not complete; `protocol_err_`; signed overflow; another kind of
undefined behaviour (reading beyond a block or through the end iterator, a failed assertion); no end. -/
inductive R (α : Type) where
  | ok (a : α)
  | less
  | bad
  | overflow
  | ub
  | loop
  deriving Repr

def R.bind {α β : Type} : R α → (α → R β) → R β
  | .ok a, f => f a
  | .less, _ => .less
  | .bad, _ => .bad
  | .overflow, _ => .overflow
  | .ub, _ => .ub
  | .loop, _ => .loop

instance : Monad R where
  pure := .ok
  bind := R.bind

/-- `cur_itr` and `pos`. -/
structure Cur where
  bs : List Bytes
  pos : Nat

/-- `TryReadable` (reader.cc:37-56). -/
def tryReadable : List Bytes → Nat → Option Cur
  | [], _ => none
  | b :: bs, pos => if pos < b.length then some ⟨b :: bs, pos⟩ else tryReadable bs 0

theorem tryReadable_length {bs : List Bytes} {pos : Nat} {c : Cur} (h : tryReadable bs pos = some c) :
    c.bs.length ≤ bs.length := by
  induction bs generalizing pos with
  | nil => simp [tryReadable] at h
  | cons b bs ih =>
    simp only [tryReadable] at h
    split at h
    · cases h; exact Nat.le_refl _
    · exact Nat.le_succ_of_le (ih h)

/-- `memchr(p, '\r', len)`: the offset. -/
def memchr (p : Bytes) (len : Nat) : Option Nat := (p.take len).findIdx? (· == 13)

/-- The loop of `SeekNewLine` (lines 65-72); `s` is the block from the start of the search on. -/
def seekLoop (s : Bytes) (p len : Nat) : R (Option Nat) :=
  match h : memchr (s.drop p) len with
  | none => .ok none
  | some k =>
    match s[p + k + 1]? with
    | none => .ub
    | some x => if x = 10 then .ok (some (p + k)) else seekLoop s (p + k + 1) (len - (k + 1))
termination_by len
decreasing_by
  have hk : k < ((s.drop p).take len).length := by
    simp only [memchr, List.findIdx?_eq_some_iff_getElem] at h
    exact h.1
  simp only [List.length_take] at hk
  omega

/-- `SeekNewLine` (lines 58-74). -/
def seekNewLine (s : Bytes) : R (Option Nat) := if s.length < 2 then .ok none else seekLoop s 0 (s.length - 1)

/-- `TryReadVariableLengthString` (lines 174-225) with `len` being 0 at the start: the cursor behind the line, and its length. -/
def tryVar (bs0 : List Bytes) (pos : Nat) : R (Option (Cur × Nat)) :=
  match bs0 with
  | [] => .ub
  | b :: bs =>
    if b.length < pos then .ub
    else
      match seekNewLine (b.drop pos) with
      | .ok (some n) => .ok (some (if b.length ≤ pos + (n + 2) then ⟨bs, 0⟩ else ⟨b :: bs, pos + (n + 2)⟩, n))
      | .ok none =>
        match h : tryReadable bs 0 with
        | none => .ok none
        | some ⟨[], _⟩ => .ub
        | some ⟨c :: cs, q⟩ =>
          match (b.drop pos).getLast?, c.head? with
          | some x, some y =>
            if x = 13 ∧ y = 10 then .ok (some (if c.length = 1 then ⟨cs, 0⟩ else ⟨c :: cs, 1⟩, b.length - pos - 1))
            else if 2 ≤ c.length ∧ y = 13 ∧ c[1]? = some 10 then
              .ok (some (if c.length = 2 then ⟨cs, 0⟩ else ⟨c :: cs, 2⟩, b.length - pos))
            else
              match tryVar (c :: cs) q with
              | .ok (some (r, n)) => .ok (some (r, n + (b.length - pos)))
              | .ok none => .ok none
              | .less => .less
              | .bad => .bad
              | .overflow => .overflow
              | .ub => .ub
              | .loop => .loop
          | _, _ => .ub
      | .less => .less
      | .bad => .bad
      | .overflow => .overflow
      | .ub => .ub
      | .loop => .loop
termination_by bs0.length
decreasing_by
  have := tryReadable_length h
  simp only [List.length_cons] at this ⊢
  omega

/-- The loops that copy from several blocks (lines 125-137 and 589-599); `p` is what is left of the current block. -/
def gather : List Bytes → Bytes → Nat → R Bytes
  | bs, p, wait =>
    if wait ≤ p.length then .ok (p.take wait)
    else
      match bs with
      | [] => .ub
      | b :: bs =>
        match gather bs b (wait - p.length) with
        | .ok s => .ok (p ++ s)
        | r => r

/-- `ReadInteger` (lines 105-144): the memory at the pointer returned, the length, and the cursor behind the line. -/
def readInteger (c : Cur) : R (Bytes × Nat × Cur) := do
  match ← tryVar c.bs c.pos with
  | none => .less
  | some (c', len) =>
    if 24 ≤ len then .bad
    else
      match c.bs with
      | [] => .ub
      | b :: bs =>
        if (b.drop c.pos).length < len then
          let s ← gather bs (b.drop c.pos) len
          .ok (s, len, c')
        else .ok (b.drop c.pos, len, c')

/-- The loop of `ConvertToInteger` (lines 90-102); `none`: there is something that is not a digit. -/
def convLoop : Bytes → Nat → Int → R (Option Int)
  | _, 0, v => .ok (some v)
  | [], _ + 1, _ => .ub
  | c :: s, count + 1, v =>
    if 48 ≤ c ∧ c < 58 then
      if 2 ^ 63 ≤ v * 10 then .overflow
      else if 2 ^ 63 ≤ v * 10 + (c.toNat - 48 : Nat) then .overflow
      else convLoop s count (v * 10 + (c.toNat - 48 : Nat))
    else .ok none

/-- The value that `ConvertToInteger` returns after the loop; something that is not a number is −1, whatever its sign. -/
def signed (minus : Bool) : R (Option Int) → R Int
  | .ok (some v) => .ok (if minus then -v else v)
  | .ok none => .ok (-1)
  | .overflow => .overflow
  | _ => .ub

/-- `ConvertToInteger` (lines 76-103). -/
def convert (s : Bytes) (len : Nat) : R Int :=
  match s with
  | [] => .ub
  | x :: t =>
    if x = 45 then (if len = 0 then .ub else signed true (convLoop t (len - 1) 0))
    else if x = 43 then (if len = 0 then .ub else signed false (convLoop t (len - 1) 0))
    else signed false (convLoop s len 0)

/-- `ProcessInteger` (lines 252-269) without storing the value: the value, the cursor, what is added to `consume_len`. -/
def processInteger (c : Cur) : R (Int × Cur × Nat) := do
  let (p, len, c') ← readInteger c
  let i ← convert p len
  .ok (i, c', len + 2)

/-- `FillStringReply` (lines 560-600). -/
def fillString (c : Cur) (len : Nat) : R Bytes :=
  match c.bs with
  | [] => .ub
  | b :: bs =>
    if b.length < c.pos then .ub
    else if len ≤ (b.drop c.pos).length then .ok ((b.drop c.pos).take len)
    else gather bs (b.drop c.pos) len

/-- `ProcessVariableLengthString` (lines 404-417). -/
def processLine (c : Cur) : R (Bytes × Cur × Nat) := do
  match ← tryVar c.bs c.pos with
  | none => .less
  | some (c', len) =>
    let s ← fillString c len
    .ok (s, c', len + 2)

/-- The loop of `TryReadFixedLengthString` (lines 146-172). -/
def fixedLoop : List Bytes → Nat → Nat → R (Option Cur)
  | [], _, _ => .ok none
  | b :: bs, pos, left =>
    if left = 0 then .ok none
    else if b.length < pos then .ub
    else if left < b.length - pos then .ok (some ⟨b :: bs, pos + left⟩)
    else if b.length - pos = left then .ok (some ⟨bs, 0⟩)
    else fixedLoop bs 0 (left - (b.length - pos))

/-- `ProcessBulkItem` (lines 284-318) with `ProcessFixedLengthString` (lines 419-430). -/
def processBulk (c : Cur) : R (Val × Cur × Nat) := do
  let (p, len, c') ← readInteger c
  let n ← convert p len
  if n < 0 then .ok (.nil, c', len + 2)
  else
    match tryReadable c'.bs c'.pos with
    | none => .less
    | some c' =>
      match ← fixedLoop c'.bs c'.pos (n.toNat + 2) with
      | none => .less
      | some c'' =>
        let s ← fillString c' n.toNat
        .ok (.str s, c'', (n.toNat + 2) + (len + 2))

/-- `static_cast<int>` of an `int64_t`. -/
def toInt32 (i : Int) : Int := (i + 2 ^ 31) % 2 ^ 32 - 2 ^ 31

/-- What `ProcessItem` finds: a whole reply, or the beginning of an array of so many elements. -/
inductive Item where
  | leaf (v : Val)
  | array (elements : Int)

/-- `ProcessMultiBulkItem` (lines 320-362) without the stack. -/
def processArray (ridx : Nat) (c : Cur) : R (Item × Cur × Nat) := do
  if ridx = 8 then .bad
  else
    let (i, c', n) ← processInteger c
    let e := toInt32 i
    if e = -1 then .ok (.leaf .nil, c', n)
    else if 0 < e then .ok (.array e, c', n)
    else .ok (.leaf (.array []), c', n)

/-- `ProcessReplyType` (lines 525-558). -/
def processType (c : Cur) : R (UInt8 × Cur) :=
  match tryReadable c.bs c.pos with
  | none => .less
  | some ⟨[], _⟩ => .ub
  | some ⟨b :: bs, pos⟩ =>
    match b[pos]? with
    | none => .ub
    | some t =>
      if t = 45 ∨ t = 43 ∨ t = 58 ∨ t = 36 ∨ t = 42 then
        match tryReadable (b :: bs) (pos + 1) with
        | none => .less
        | some c => .ok (t, c)
      else .bad

/-- `ProcessItem` (lines 364-402) for a task whose reply has no type yet. -/
def processItem (ridx : Nat) (c : Cur) : R (Item × Cur × Nat) := do
  let (t, c) ← processType c
  if t = 45 then
    let (s, c, n) ← processLine c
    .ok (.leaf (.error s), c, n + 1)
  else if t = 43 then
    let (s, c, n) ← processLine c
    .ok (.leaf (.status s), c, n + 1)
  else if t = 58 then
    let (i, c, n) ← processInteger c
    .ok (.leaf (.int i), c, n + 1)
  else if t = 36 then
    let (v, c, n) ← processBulk c
    .ok (.leaf v, c, n + 1)
  else
    let (it, c, n) ← processArray ridx c
    .ok (it, c, n + 1)

/-- `ProcessSerialNo` (lines 493-523); no serial number: 0. -/
def processSerialNo (c : Cur) : R (Nat × Cur × Nat) :=
  match tryReadable c.bs c.pos with
  | none => .less
  | some ⟨[], _⟩ => .ub
  | some ⟨b :: bs, pos⟩ =>
    match b[pos]? with
    | none => .ub
    | some t =>
      if t = 64 then
        match tryReadable (b :: bs) (pos + 1) with
        | none => .less
        | some c => do
          let (p, len, c') ← readInteger c
          let i ← convert p len
          .ok ((i % 2 ^ 32).toNat, c', len + 3)
      else .ok (0, ⟨b :: bs, pos⟩, 0)

/-- `ReadTask` (reader.h:41-53) with the reply it builds. -/
structure Task where
  elements : Int := -1
  idx : Int
  no : Nat := 0
  kids : List Val := []

/-- A finished reply: `serial_no_` and the rest. -/
def mk (no : Nat) (v : Val) : Val := if no = 0 then v else .numbered no v

/-- `MoveToNextTask` (lines 227-250): the stack, top first, or the reply if everything is done. The type of the reply of a
task below the top is `ARRAY`. -/
def complete : List Task → Val → R (List Task ⊕ Val)
  | [], _ => .ub
  | [t], v => .ok (.inr (mk t.no v))
  | t :: p :: st, v =>
    let p' := { p with kids := p.kids ++ [mk t.no v] }
    if t.idx = p.elements - 1 then complete (p' :: st) (.array p'.kids)
    else if t.idx < p.elements then .ok (.inl ({ idx := t.idx + 1 } :: p' :: st))
    else .ub
termination_by st => st.length

/-- `ProcessMultiBulkItem`, the stack (lines 343-352). -/
def push : List Task → Int → List Task
  | t :: st, e => { idx := 0 } :: { t with elements := e, kids := [] } :: st
  | [], _ => []

/-- `cur->obj_->serial_no_ = ...`. -/
def setNo : List Task → Nat → List Task
  | t :: st, no => { t with no := no } :: st
  | [], _ => []

/-- The loop of `GetReply` (lines 465-479). -/
def getLoop (count : Int) : Nat → Bool → List Task → Cur → Nat → R (Val × Nat)
  | 0, _, _, _, _ => .loop
  | fuel + 1, seq, st, c, n =>
    if c.bs = [] then .less
    else do
      let (st, c, n) ← if !seq || (1 < count && st.length = 2) then do
          let (no, c, k) ← processSerialNo c
          R.ok (setNo st no, c, n + k)
        else R.ok (st, c, n)
      let (it, c, k) ← processItem (st.length - 1) c
      match it with
      | .leaf v =>
        match ← complete st v with
        | .inr v => .ok (v, n + k)
        | .inl st => getLoop count fuel true st c (n + k)
      | .array e => getLoop count fuel true (push st e) c (n + k)

/-- `GetReply` (lines 432-491): the reply, and how many bytes are skipped. -/
def getReply (blocks : List Bytes) (count : Int) : R (Val × Nat) :=
  match tryReadable blocks 0 with
  | none => .less
  | some c =>
    getLoop count (blocks.flatten.length + 1) false
      (if 1 < count then [{ idx := 0 }, { elements := count, idx := -1 }] else [{ idx := -1 }]) c 0

end Verif.Redis
