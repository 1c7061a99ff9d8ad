import Verif.Common.Sum

/-!
# The memory pool with one pool for each thread

/repo/trpc/util/buffer/memory_pool/shared_nothing_memory_pool.{h,cc} (built with TRPC_SHARED_NOTHING_MEM_POOL)

* `GetSharedNothingMemPool` (.cc:326-334) returns the pool of the calling thread, whatever number it is given. So everything but the size of the pool is private to a thread: what a thread does between two accesses to the size is one step.
* Block `k` of chunk `c` of thread `i` is `pool i c k`. Blocks of the system are other numbers, never used again. `cpu_id` of a block is kept beside it while it is handed out (it is written by `Allocate` and read by `Deallocate`).
* Linked lists are lists; `length` is their length. The free blocks of all chunks are one list, `back`: those of chunk `c` are the ones with this `chunk_id`, in the same order. The destructor puts them in front and not at the end, only their number is used after that. Chunks that have free blocks are linked by `next_id`: a list.
* `crash`: an assertion fails, a vector is read outside of its bounds, or a null pointer is followed. Statistics, and calls after the pool of a thread is destroyed, are left out. `x`: threads may give back blocks that others allocated. `ex`: threads may end. `oom`: the system may have no memory.
-/

namespace Verif.Pool.Shared

inductive Blk where
  | pool (i c k : Nat)
  | sys (n : Nat)
deriving DecidableEq, Repr

/-- `chunk_id` (.h:41) -/
def Blk.ch : Blk → Nat
  | .pool _ c _ => c
  | .sys _ => 0

/-- In `Allocate`: about to look at the size of the pool; to add a chunk; to ask the system. In the destructor. Gone. -/
inductive Pc where
  | idle
  | need
  | grow
  | sys
  | x
  | dead
deriving DecidableEq, Repr

/-- `SharedNothingMemPoolImp` (.h:107-145) -/
structure L where
  free : List Blk := []
  xcpu : List Blk := []
  back : List Blk := []
  front : List Nat := []
  /-- `chunk_id_`, and the size of `block_chunks_` (the constructor calls `DoResize(100)`) -/
  cid : Nat := 0
  size : Nat := 200
  pc : Pc := .idle
deriving DecidableEq, Repr

structure S where
  /-- `GetMemPoolThreshold()` and `chunk_mem_size_` -/
  thr : Nat
  cm : Nat
  /-- chunks that the pools have (`s_current_pool_size` is 32 bits of their size) -/
  n : Nat
  th : List L
  /-- blocks that were handed out, with their `cpu_id` -/
  user : List (Blk × Nat)
  /-- chunks that were given back to the system -/
  freed : List (Nat × Nat)
  nsys : Nat
  crash : Bool
deriving DecidableEq, Repr

def S.init (thr cm : Nat) : S := ⟨thr, cm, 0, [], [], [], 0, false⟩

def S.at (s : S) (i : Nat) (t : L) : S := { s with th := s.th.set i t }

/-- `s_current_pool_size >= GetMemPoolThreshold()` (.cc:154-158) -/
def S.full (s : S) : Prop := s.thr ≤ s.n * s.cm % 2 ^ 32

/-- `DoResize` (.cc:83-89) -/
def resize (size c : Nat) : Nat := if size ≤ c then max (size * 2) (c + 100) else size

/-- `DrainCrossCpuFreelist` (.cc:303-324) -/
def L.drain (t : L) : L := { t with free := t.xcpu.reverse ++ t.free, xcpu := [] }

/-- A block goes to its chunk, which goes in front if it had none (.cc:268-284, :114-125). -/
def L.put (t : L) (b : Blk) : L :=
  { t with back := t.back ++ [b], front := if t.back.any (fun a => a.ch == b.ch) then t.front else b.ch :: t.front }

/-- The first `n` free blocks go to their chunks. -/
def L.trim (t : L) : Nat → L
  | 0 => t
  | n + 1 => match t.free with
    | [] => t
    | b :: r => L.trim (L.put { t with free := r } b) n

/-- `GetBlockChunk` and `PushFront` (.cc:78-81, :91-95) for the first `n` free blocks. -/
def L.bad (t : L) (n : Nat) : Bool := (t.free.take n).any (fun b => decide (t.size ≤ b.ch))

/-- The loop over the chunks (.cc:199-212) -/
def L.gather (t : L) : List Nat → L
  | [] => t
  | c :: f => if t.free.length < 24 then
      L.gather { t with free := t.back.filter (fun b => b.ch == c) ++ t.free, back := t.back.filter (fun b => b.ch != c), front := f } f
    else t

/-- The blocks of a chunk, the last one first (.cc:173-187). -/
def blocks (i c : Nat) : List Blk := ((List.range 32).map (fun k => Blk.pool i c k)).reverse

/-- `NewBlockChunk` after the memory was allocated (.cc:169-191) -/
def L.chunk (t : L) (i : Nat) : L := { t with cid := t.cid + 1, size := resize t.size (t.cid + 1), free := blocks i (t.cid + 1) ++ t.free }

/-- The lists after `Allocate` looked for free blocks (.cc:195-213). -/
def L.find (t : L) : L := if t.drain.free = [] then t.drain.gather t.drain.front else t.drain

/-- Does it ask for a chunk (.cc:197, :215)? -/
def L.short (t : L) : Prop := t.drain.free = [] ∧ t.find.free.length < 24

def L.to (t : L) (p : Pc) : L := { t with pc := p }

/-- The list after the first block was taken. -/
def L.hand (t : L) (r : List Blk) : L := { t with free := r, pc := .idle }

/-- The first free block is handed out (.cc:225-231, :342-343). -/
def S.give (s : S) (i : Nat) (t : L) (b : Blk) (r : List Blk) : S := { (s.at i (t.hand r)) with user := (b, i) :: s.user }

inductive Step (x ex oom : Bool) : S → S → Prop
  /-- A thread uses the pool for the first time, `GetCpuId` (.cc:43-53). -/
  | spawn {s : S} : Step x ex oom s (if s.th.length < 1024 then { s with th := s.th ++ [{}] } else { s with crash := true })
  /-- `Allocate` (.cc:194-253, :338-344) -/
  | take {s : S} (i : Nat) (t : L) (b : Blk) (r : List Blk) (h : s.th[i]? = some t) (hp : t.pc = .idle) (hs : ¬ t.short) (hf : t.find.free = b :: r) : Step x ex oom s (s.give i t.find b r)
  | look {s : S} (i : Nat) (t : L) (h : s.th[i]? = some t) (hp : t.pc = .idle) (hs : t.short) : Step x ex oom s (s.at i (t.find.to .need))
  | below {s : S} (i : Nat) (t : L) (h : s.th[i]? = some t) (hp : t.pc = .need) (hn : ¬ s.full) : Step x ex oom s (s.at i (t.to .grow))
  | full {s : S} (i : Nat) (t : L) (h : s.th[i]? = some t) (hp : t.pc = .need) (hn : s.full ∨ oom = true) :
      Step x ex oom s (match t.free with
        | [] => s.at i (t.to .sys)
        | b :: r => s.give i t b r)
  | grow {s : S} (i : Nat) (t : L) (b : Blk) (r : List Blk) (h : s.th[i]? = some t) (hp : t.pc = .grow) (hf : (t.chunk i).free = b :: r) : Step x ex oom s { (s.give i (t.chunk i) b r) with n := s.n + 1 }
  | system {s : S} (i : Nat) (t : L) (h : s.th[i]? = some t) (hp : t.pc = .sys) : Step x ex oom s { (s.at i (t.to .idle)) with user := (.sys s.nsys, i) :: s.user, nsys := s.nsys + 1 }
  | none {s : S} (i : Nat) (t : L) (h : s.th[i]? = some t) (hp : t.pc = .sys) (ho : oom = true) : Step x ex oom s { s with crash := true }
  /-- `Deallocate` (.cc:346-360, :55-68, :255-301) -/
  | freeSys {s : S} (i j n : Nat) (t : L) (h : s.th[i]? = some t) (hp : t.pc = .idle) (hu : (Blk.sys n, j) ∈ s.user) (hx : i = j ∨ x = true) : Step x ex oom s { s with user := s.user.erase (.sys n, j) }
  | free {s : S} (i j c k : Nat) (t t' : L) (h : s.th[i]? = some t) (hp : t.pc = .idle) (hu : (Blk.pool j c k, i) ∈ s.user) (ht : t' = { t with free := .pool j c k :: t.free }) :
      Step x ex oom s (if t'.bad (t'.free.length - 24) then { s with crash := true } else { (s.at i (t'.trim (t'.free.length - 24))) with user := s.user.erase (.pool j c k, i) })
  | cross {s : S} (i j c k o : Nat) (t : L) (h : s.th[i]? = some t) (hp : t.pc = .idle) (hu : (Blk.pool j c k, o) ∈ s.user) (ho : o ≠ i) (hx : x = true) :
      Step x ex oom s { (s.at i { t with xcpu := .pool j c k :: t.xcpu }) with user := s.user.erase (.pool j c k, o) }
  /-- the destructor (.cc:108-151) -/
  | exit {s : S} (i : Nat) (t : L) (h : s.th[i]? = some t) (hp : t.pc = .idle) (he : ex = true) :
      Step x ex oom s (if t.drain.bad t.drain.free.length then { s with crash := true } else s.at i ((t.drain.trim t.drain.free.length).to .x))
  | release {s : S} (i c : Nat) (f : List Nat) (t : L) (h : s.th[i]? = some t) (hp : t.pc = .x) (hf : t.front = c :: f) :
      Step x ex oom s (if (t.back.filter (fun b => b.ch == c)).length = 32 then { (s.at i { t with front := f }) with freed := (i, c) :: s.freed, n := s.n - 1 } else s.at i { t with front := f })
  | gone {s : S} (i : Nat) (t : L) (h : s.th[i]? = some t) (hp : t.pc = .x) (hf : t.front = []) : Step x ex oom s (s.at i (t.to .dead))

/-- All runs of any number of threads; none goes on after a crash. -/
inductive Reach (x ex oom : Bool) (thr cm : Nat) : S → Prop
  | init : Reach x ex oom thr cm (.init thr cm)
  | step {s s' : S} (h : Reach x ex oom thr cm s) (hc : s.crash = false) (hs : Step x ex oom s s') : Reach x ex oom thr cm s'

end Verif.Pool.Shared
