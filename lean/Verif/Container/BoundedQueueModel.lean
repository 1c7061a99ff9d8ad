/-!
# `container::BoundedQueue` (`trpc/util/container/bounded_queue.h`)

`count_`, `cap_` and `start_` are 32-bit.  A slot of `items_` is `none` (raw memory) or `some x` (a live object).
The outcome `none` of an operation is undefined behaviour or non-termination: an access outside the `cap_` slots,
reading, assigning or destroying a slot without a live object, constructing over a live object, or the loop of
`Mod` with capacity 0.  Not modelled: allocation failure, ownership of the memory.
-/

namespace Verif.Container.BQ

structure Q (T : Type) where
  count : UInt32
  cap : UInt32
  start : UInt32
  items : Nat → Option T

/-- Constructor, :44-51, for `capacity < 2³²`. -/
def init {T : Type} (cap : UInt32) : Q T := ⟨0, cap, 0, fun _ => none⟩

/-- `Mod`, :262-267; the loop runs at most `off` times unless `cap` is 0. -/
def modLoop : Nat → UInt32 → UInt32 → Option UInt32
  | 0, _, _ => none
  | fuel + 1, off, cap => if off ≥ cap then modLoop fuel (off - cap) cap else some off

def mod (off cap : UInt32) : Option UInt32 := modLoop (off.toNat + 1) off cap

variable {T : Type}

/-- The live object in slot `i`. -/
def Q.read (q : Q T) (i : UInt32) : Option T := if i < q.cap then q.items i.toNat else none

def setItem (f : Nat → Option T) (i : Nat) (x : Option T) : Nat → Option T := fun j => if j = i then x else f j

/-- Placement new. -/
def Q.construct (q : Q T) (i : UInt32) (x : T) : Option (Q T) :=
  if i < q.cap ∧ (q.items i.toNat).isNone then some { q with items := setItem q.items i.toNat (some x) } else none

/-- Destructor call. -/
def Q.destroy (q : Q T) (i : UInt32) : Option (Q T) :=
  if i < q.cap ∧ (q.items i.toNat).isSome then some { q with items := setItem q.items i.toNat none } else none

/-- Assignment. -/
def Q.assign (q : Q T) (i : UInt32) (x : T) : Option (Q T) :=
  if i < q.cap ∧ (q.items i.toNat).isSome then some { q with items := setItem q.items i.toNat (some x) } else none

inductive Op (T : Type)
  | push (x : T)
  | elimPush (x : T)
  | pushTop (x : T)
  | pop
  | popBottom
  | clear
  | top (i : Nat)
  | bottom (i : Nat)
  | top0
  | bottom0
  | size
  | empty
  | full
deriving DecidableEq

inductive Res (T : Type)
  | bool (b : Bool)
  | item (x : Option T)
  | num (n : Nat)
  | unit
deriving DecidableEq

/-- `Push`, :70-77 (and :93-98 with a default-constructed item). -/
def push (q : Q T) (x : T) : Option (Bool × Q T) :=
  if q.count < q.cap then do
    let i ← mod (q.start + q.count) q.cap
    let q ← q.construct i x
    some (true, { q with count := q.count + 1 })
  else some (false, q)

/-- `ElimPush`, :81-89. -/
def elimPush (q : Q T) (x : T) : Option (Q T) :=
  if q.count < q.cap then do
    let i ← mod (q.start + q.count) q.cap
    let q ← q.construct i x
    some { q with count := q.count + 1 }
  else do
    let q ← q.assign q.start x
    let s ← mod (q.start + 1) q.cap
    some { q with start := s }

/-- `PushTop`, :102-110 (and :114-121). -/
def pushTop (q : Q T) (x : T) : Option (Bool × Q T) :=
  if q.count < q.cap then do
    let q := { q with start := if q.start ≠ 0 then q.start - 1 else q.cap - 1, count := q.count + 1 }
    let q ← q.construct q.start x
    some (true, q)
  else some (false, q)

/-- `Pop`, :125-147; `none` in the result: the queue is empty. -/
def pop (q : Q T) : Option (Option T × Q T) :=
  if q.count ≠ 0 then do
    let q := { q with count := q.count - 1 }
    let x ← q.read q.start
    let q ← q.destroy q.start
    let s ← mod (q.start + 1) q.cap
    some (some x, { q with start := s })
  else some (none, q)

/-- `PopBottom`, :151-171. -/
def popBottom (q : Q T) : Option (Option T × Q T) :=
  if q.count ≠ 0 then do
    let q := { q with count := q.count - 1 }
    let i ← mod (q.start + q.count) q.cap
    let x ← q.read i
    let q ← q.destroy i
    some (some x, q)
  else some (none, q)

/-- The loop of `Clear`, :175-177, with `fuel` items to go, from the `i`-th on. -/
def clearLoop : Nat → UInt32 → Q T → Option (Q T)
  | 0, _, q => some q
  | fuel + 1, i, q => do
    let j ← mod (q.start + i) q.cap
    let q ← q.destroy j
    clearLoop fuel (i + 1) q

/-- `Clear`, :174-180. -/
def clear (q : Q T) : Option (Q T) := do
  let q ← clearLoop q.count.toNat 0 q
  some { q with count := 0, start := 0 }

/-- `Top(index)`, :189-203; `index` is 64-bit, the sum is truncated to 32 bits by the parameter of `Mod`. -/
def top (q : Q T) (i : Nat) : Option (Option T) :=
  if i < q.count.toNat then do
    let j ← mod (UInt32.ofNat (q.start.toNat + i)) q.cap
    let x ← q.read j
    some (some x)
  else some none

/-- `Bottom(index)`, :217-231; the 64-bit difference is truncated to 32 bits by the parameter of `Mod`. -/
def bottom (q : Q T) (i : Nat) : Option (Option T) :=
  if i < q.count.toNat then do
    let j ← mod (q.start + q.count - UInt32.ofNat i - 1) q.cap
    let x ← q.read j
    some (some x)
  else some none

/-- `Top()`, :183-184. -/
def top0 (q : Q T) : Option (Option T) :=
  if q.count ≠ 0 then do
    let x ← q.read q.start
    some (some x)
  else some none

/-- `Bottom()`, :206-212. -/
def bottom0 (q : Q T) : Option (Option T) :=
  if q.count ≠ 0 then do
    let j ← mod (q.start + q.count - 1) q.cap
    let x ← q.read j
    some (some x)
  else some none

/-- All operations; `Size`, `Empty`, `Full`, :233-238. -/
def step (q : Q T) : Op T → Option (Res T × Q T)
  | .push x => (push q x).map fun r => (.bool r.1, r.2)
  | .elimPush x => (elimPush q x).map fun r => (.unit, r)
  | .pushTop x => (pushTop q x).map fun r => (.bool r.1, r.2)
  | .pop => (pop q).map fun r => (.item r.1, r.2)
  | .popBottom => (popBottom q).map fun r => (.item r.1, r.2)
  | .clear => (clear q).map fun r => (.unit, r)
  | .top i => (top q i).map fun r => (.item r, q)
  | .bottom i => (bottom q i).map fun r => (.item r, q)
  | .top0 => (top0 q).map fun r => (.item r, q)
  | .bottom0 => (bottom0 q).map fun r => (.item r, q)
  | .size => some (.num q.count.toNat, q)
  | .empty => some (.bool (q.count == 0), q)
  | .full => some (.bool (q.cap == q.count), q)

def run : Q T → List (Op T) → Option (List (Res T) × Q T)
  | q, [] => some ([], q)
  | q, o :: os => do
    let (r, q) ← step q o
    let (rs, q) ← run q os
    some (r :: rs, q)

end Verif.Container.BQ
