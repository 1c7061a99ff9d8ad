import Verif.Common.Sum

/-!
# The memory pool of buffers

/repo/trpc/util/buffer/memory_pool/global_memory_pool.cc

* Blocks of the pool are numbers: block `k` of `BlockList` `l` (of all chunks, in order) is `32 * l + k`. Blocks of the system are other numbers, never used again (`allocate_func` returns memory that is not in use).
* A free list is a list of blocks and the number kept beside it; `next` of a block is only written when the block is put in front of a list. `free_block_vec[0 .. free_num)` is a list, the last one first.
* Each critical section is a step, and so is what a thread does alone between two of them. `crash`: written outside of a vector, or `next` of a null pointer read. `ex`: threads may exit.
* Blocks are given back by whoever has them, on any thread (`Deallocate` takes the pool of the thread). Statistics are left out, and so are calls after the pool of the thread is destroyed.
-/

namespace Verif.Pool.Global

inductive Blk where
  | pool (n : Nat)
  | sys (n : Nat)
deriving DecidableEq, Repr

/-- In `Allocate`: about to ask for a free list; to look at `block_list_`; to ask for a `BlockList`. In the destructor. Gone. -/
inductive Pc where
  | idle
  | a1
  | a2
  | a3
  | x
  | dead
deriving DecidableEq, Repr

/-- `LocalMemPool` (:250-286) -/
structure L where
  /-- `block_list_`: which one, and its `idx` -/
  blist : Option (Nat × Nat) := none
  free : List Blk := []
  len : Nat := 0
  pc : Pc := .idle
deriving DecidableEq, Repr

structure S where
  /-- `max_block_num_` -/
  max : Nat
  /-- `available_size`, and `idx` of the last chunk -/
  avail : Nat
  idx : Nat
  lists : List (List Blk × Nat)
  th : List L
  /-- blocks that were handed out -/
  user : List Blk
  /-- blocks of the system so far -/
  nsys : Nat
  crash : Bool
deriving DecidableEq, Repr

/-- The constructor (:138-156): one chunk, no thread. -/
def S.init (max : Nat) : S := ⟨max, 1, 0, [], [], [], 0, false⟩

/-- The sizes of the two vectors (:141-148). -/
def S.vec (s : S) : Nat := (s.max + 31) / 32 * 2
def S.chunks (s : S) : Nat := (s.max + 1023) / 1024 * 2

/-- `PushFreeBlockList` (:171-180) -/
def S.push (s : S) (l : List Blk) (n : Nat) : S :=
  if s.lists.length < s.vec then { s with lists := (l, n) :: s.lists } else { s with crash := true }

def S.at (s : S) (i : Nat) (t : L) : S := { s with th := s.th.set i t }

/-- `PopBlockList` with `NewBlockChunk` (:195-248): the new state and the number of the list. -/
def S.popBlocks (s : S) : S × Option Nat :=
  if s.idx < 32 then ({ s with idx := s.idx + 1 }, some (32 * (s.avail - 1) + s.idx))
  else if s.max ≤ 1024 * s.avail then (s, none)
  else if s.chunks ≤ s.avail then ({ s with crash := true }, none)
  else ({ s with avail := s.avail + 1, idx := 1 }, some (32 * s.avail))

/-- The pool block `k` of list `l`. -/
def blk (l k : Nat) : Blk := .pool (32 * l + k)

inductive Step (ex : Bool) : S → S → Prop
  | spawn {s : S} : Step ex s { s with th := s.th ++ [{}] }
  /-- `Allocate` (:310-364, :182-193): from the list of the thread -/
  | take {s : S} (i : Nat) (t : L) (b : Blk) (r : List Blk) (h : s.th[i]? = some t) (hp : t.pc = .idle) (hf : t.free = b :: r) :
      Step ex s { (s.at i { t with free := r, len := t.len - 1 }) with user := b :: s.user }
  | ask {s : S} (i : Nat) (t : L) (h : s.th[i]? = some t) (hp : t.pc = .idle) (hf : t.free = []) : Step ex s (s.at i { t with pc := .a1 })
  /-- from a free list of the global pool -/
  | popped {s : S} (i : Nat) (t : L) (l : List Blk) (n : Nat) (ls : List (List Blk × Nat)) (h : s.th[i]? = some t) (hp : t.pc = .a1) (hl : s.lists = (l, n) :: ls) :
      Step ex s (match l with
        | [] => { s with crash := true }
        | b :: r => { (s.at i { t with free := r, len := n - 1, pc := .idle }) with user := b :: s.user, lists := ls })
  | empty {s : S} (i : Nat) (t : L) (h : s.th[i]? = some t) (hp : t.pc = .a1) (hl : s.lists = []) : Step ex s (s.at i { t with pc := .a2 })
  /-- from the `BlockList` of the thread -/
  | block {s : S} (i : Nat) (t : L) (l k : Nat) (h : s.th[i]? = some t) (hp : t.pc = .a2) (hb : t.blist = some (l, k)) (hk : k < 32) :
      Step ex s { (s.at i { t with blist := some (l, k + 1), pc := .idle }) with user := blk l k :: s.user }
  | used {s : S} (i : Nat) (t : L) (h : s.th[i]? = some t) (hp : t.pc = .a2) (hb : ∀ l k : Nat, t.blist = some (l, k) → ¬ k < 32) : Step ex s (s.at i { t with pc := .a3 })
  /-- from a new one -/
  | fresh {s s1 : S} (i l : Nat) (t : L) (h : s.th[i]? = some t) (hp : t.pc = .a3) (hb : s.popBlocks = (s1, some l)) :
      Step ex s { (s1.at i { t with blist := some (l, 1), pc := .idle }) with user := blk l 0 :: s1.user }
  /-- from the system, which may have none -/
  | system {s s1 : S} (i : Nat) (t : L) (ok : Bool) (h : s.th[i]? = some t) (hp : t.pc = .a3) (hb : s.popBlocks = (s1, none)) :
      Step ex s { (s1.at i { t with blist := none, pc := .idle }) with user := if ok then .sys s1.nsys :: s1.user else s1.user, nsys := if ok then s1.nsys + 1 else s1.nsys }
  /-- `Deallocate` (:366-386) -/
  | freeSys {s : S} (i : Nat) (t : L) (n : Nat) (h : s.th[i]? = some t) (hp : t.pc = .idle) (hu : Blk.sys n ∈ s.user) : Step ex s { s with user := s.user.erase (.sys n) }
  | free {s : S} (i : Nat) (t : L) (n : Nat) (h : s.th[i]? = some t) (hp : t.pc = .idle) (hu : Blk.pool n ∈ s.user) :
      Step ex s (if t.len = 32 then { ((s.push t.free t.len).at i { t with free := [.pool n], len := 1 }) with user := s.user.erase (.pool n) }
        else { (s.at i { t with free := .pool n :: t.free, len := t.len + 1 }) with user := s.user.erase (.pool n) })
  /-- the destructor (:288-308) -/
  | exit {s : S} (i : Nat) (t : L) (h : s.th[i]? = some t) (hp : t.pc = .idle) (he : ex = true) : Step ex s (s.at i { t with pc := .x })
  | unload {s : S} (i : Nat) (t : L) (l k : Nat) (h : s.th[i]? = some t) (hp : t.pc = .x) (hb : t.blist = some (l, k)) (hk : k < 32) :
      Step ex s (if t.len = 32 then (s.push t.free t.len).at i { t with free := [blk l k], len := 1, blist := some (l, k + 1) }
        else s.at i { t with free := blk l k :: t.free, len := t.len + 1, blist := some (l, k + 1) })
  | gone {s : S} (i : Nat) (t : L) (h : s.th[i]? = some t) (hp : t.pc = .x) (hb : ∀ l k : Nat, t.blist = some (l, k) → ¬ k < 32) :
      Step ex s (if 0 < t.len then (s.push t.free t.len).at i { t with free := [], len := 0, pc := .dead } else s.at i { t with pc := .dead })

/-- All runs of any number of threads; none goes on after a crash. -/
inductive Reach (ex : Bool) (max : Nat) : S → Prop
  | init : Reach ex max (.init max)
  | step {s s' : S} (h : Reach ex max s) (hc : s.crash = false) (hs : Step ex s s') : Reach ex max s'

end Verif.Pool.Global
