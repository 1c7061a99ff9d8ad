import Verif.Common.Sum

/-!
# The object pool

/repo/trpc/util/object_pool/global.h (the default pool of `object_pool::New` and `Delete`)

* Objects of the pool are numbers: slot `k` of `Block` `l` (of all chunks, in order) is `32 * l + k`. Objects of the system are other numbers, never used again (`aligned_alloc` returns memory that is not in use). Which ones they are is `need_free_to_system`, which is written when the object is handed out and read when it is given back; users do not write it (it lies behind the object).
* A free list is a list of slots and the number kept beside it; `next` of a slot is only written when the slot is put in front of a list. `free_slots_vec[0 .. free_num)` is a list, the last one first; it grows as needed (:158-160).
* Each critical section is a step, and so is what a thread does alone between two of them. `crash`: `next` of a null pointer read. `oom`: memory for a chunk may be missing.
* Objects are given back by whoever has them, on any thread. Threads may end. Statistics are left out, and so are calls after the pool of the thread is destroyed.
-/

namespace Verif.Pool.Objects

inductive Blk where
  | pool (n : Nat)
  | sys (n : Nat)
deriving DecidableEq, Repr

/-- In `New`: about to ask for a free list; to look at `block_`; to ask for a block. In the destructor. Gone. -/
inductive Pc where
  | idle
  | a1
  | a2
  | a3
  | x
  | dead
deriving DecidableEq, Repr

/-- `LocalPool` (:233-252) -/
structure L where
  /-- `block_`: which one, and its `idx` -/
  blist : Option (Nat × Nat) := none
  free : List Blk := []
  len : Nat := 0
  pc : Pc := .idle
deriving DecidableEq, Repr

structure S where
  /-- `max_slot_num_` -/
  max : Nat
  /-- number of chunks, and `idx` of the last chunk -/
  avail : Nat
  idx : Nat
  lists : List (List Blk × Nat)
  th : List L
  /-- objects that were handed out -/
  user : List Blk
  /-- objects of the system so far -/
  nsys : Nat
  crash : Bool
deriving DecidableEq, Repr

/-- The constructor (:112-122): one chunk, no thread. -/
def S.init (max : Nat) : S := ⟨max, 1, 0, [], [], [], 0, false⟩

/-- `PushFreeSlots` (:152-168) -/
def S.push (s : S) (l : List Blk) (n : Nat) : S := { s with lists := (l, n) :: s.lists }

def S.at (s : S) (i : Nat) (t : L) : S := { s with th := s.th.set i t }

/-- `PopBlock` with `NewBlockChunk` (:183-230), with memory: the new state and the number of the block. -/
def S.popBlocks (s : S) : S × Option Nat :=
  if s.idx < 32 then ({ s with idx := s.idx + 1 }, some (32 * (s.avail - 1) + s.idx))
  else if s.max ≤ 1024 * s.avail then (s, none)
  else ({ s with avail := s.avail + 1, idx := 1 }, some (32 * s.avail))

/-- Slot `k` of block `l`. -/
def blk (l k : Nat) : Blk := .pool (32 * l + k)

inductive Step (oom : Bool) : S → S → Prop
  | spawn {s : S} : Step oom s { s with th := s.th ++ [{}] }
  /-- `New` (:271-312, :170-181): from the list of the thread -/
  | take {s : S} (i : Nat) (t : L) (b : Blk) (r : List Blk) (h : s.th[i]? = some t) (hp : t.pc = .idle) (hf : t.free = b :: r) :
      Step oom s { (s.at i { t with free := r, len := t.len - 1 }) with user := b :: s.user }
  | ask {s : S} (i : Nat) (t : L) (h : s.th[i]? = some t) (hp : t.pc = .idle) (hf : t.free = []) : Step oom s (s.at i { t with pc := .a1 })
  /-- from a free list of the global pool -/
  | popped {s : S} (i : Nat) (t : L) (l : List Blk) (n : Nat) (ls : List (List Blk × Nat)) (h : s.th[i]? = some t) (hp : t.pc = .a1) (hl : s.lists = (l, n) :: ls) :
      Step oom s (match l with
        | [] => { s with crash := true }
        | b :: r => { (s.at i { t with free := r, len := n - 1, pc := .idle }) with user := b :: s.user, lists := ls })
  | empty {s : S} (i : Nat) (t : L) (h : s.th[i]? = some t) (hp : t.pc = .a1) (hl : s.lists = []) : Step oom s (s.at i { t with pc := .a2 })
  /-- from the block of the thread -/
  | block {s : S} (i : Nat) (t : L) (l k : Nat) (h : s.th[i]? = some t) (hp : t.pc = .a2) (hb : t.blist = some (l, k)) (hk : k < 32) :
      Step oom s { (s.at i { t with blist := some (l, k + 1), pc := .idle }) with user := blk l k :: s.user }
  | used {s : S} (i : Nat) (t : L) (h : s.th[i]? = some t) (hp : t.pc = .a2) (hb : ∀ l k : Nat, t.blist = some (l, k) → ¬ k < 32) : Step oom s (s.at i { t with pc := .a3 })
  /-- from a new one -/
  | fresh {s s1 : S} (i l : Nat) (t : L) (h : s.th[i]? = some t) (hp : t.pc = .a3) (hb : s.popBlocks = (s1, some l)) :
      Step oom s { (s1.at i { t with blist := some (l, 1), pc := .idle }) with user := blk l 0 :: s1.user }
  /-- from the system, which may have none -/
  | system {s : S} (i : Nat) (t : L) (ok : Bool) (h : s.th[i]? = some t) (hp : t.pc = .a3) (hb : s.popBlocks.2 = none ∨ (oom = true ∧ 32 ≤ s.idx)) :
      Step oom s { (s.at i { t with blist := none, pc := .idle }) with user := if ok then .sys s.nsys :: s.user else s.user, nsys := if ok then s.nsys + 1 else s.nsys }
  /-- `Delete` (:314-332) -/
  | freeSys {s : S} (i : Nat) (t : L) (n : Nat) (h : s.th[i]? = some t) (hp : t.pc = .idle) (hu : Blk.sys n ∈ s.user) : Step oom s { s with user := s.user.erase (.sys n) }
  | free {s : S} (i : Nat) (t : L) (n : Nat) (h : s.th[i]? = some t) (hp : t.pc = .idle) (hu : Blk.pool n ∈ s.user) :
      Step oom s (if t.len = 32 then { ((s.push t.free t.len).at i { t with free := [.pool n], len := 1 }) with user := s.user.erase (.pool n) }
        else { (s.at i { t with free := .pool n :: t.free, len := t.len + 1 }) with user := s.user.erase (.pool n) })
  /-- the destructor (:254-269) -/
  | exit {s : S} (i : Nat) (t : L) (h : s.th[i]? = some t) (hp : t.pc = .idle) : Step oom s (s.at i { t with pc := .x })
  | unload {s : S} (i : Nat) (t : L) (l k : Nat) (h : s.th[i]? = some t) (hp : t.pc = .x) (hb : t.blist = some (l, k)) (hk : k < 32) :
      Step oom s (if t.len = 32 then (s.push t.free t.len).at i { t with free := [blk l k], len := 1, blist := some (l, k + 1) }
        else s.at i { t with free := blk l k :: t.free, len := t.len + 1, blist := some (l, k + 1) })
  | gone {s : S} (i : Nat) (t : L) (h : s.th[i]? = some t) (hp : t.pc = .x) (hb : ∀ l k : Nat, t.blist = some (l, k) → ¬ k < 32) :
      Step oom s (if 0 < t.len then (s.push t.free t.len).at i { t with free := [], len := 0, pc := .dead } else s.at i { t with pc := .dead })

/-- All runs of any number of threads; none goes on after a crash. -/
inductive Reach (oom : Bool) (max : Nat) : S → Prop
  | init : Reach oom max (.init max)
  | step {s s' : S} (h : Reach oom max s) (hc : s.crash = false) (hs : Step oom s s') : Reach oom max s'

end Verif.Pool.Objects
