import Verif.Common.Upd

/-!
# The object pool with one pool for each thread

/repo/trpc/util/object_pool/shared_nothing.h (`ObjectPoolType::kSharedNothing`)

* Slot `k` of chunk `c` of thread `i` is `slot i c k`; chunks begin with 1. Objects of the system are other numbers, never used again. `cpu_id` of an object is kept beside it while it is handed out (it is written by `New` and read by `Delete`).
* Linked lists are lists, `length` is their length. The free slots of all chunks are one list, `back`: those of chunk `c` are the ones with this `chunk_id`, in the same order. The destructor puts them in front and not at the end; only their number is used after that. Chunks that have free slots are linked by `link.next`: a list.
* The list for other threads is changed by compare-and-swap of its head: a call has loaded the head and written it into `next`; it succeeds if the head is the same one, whatever happened in between.
* The parts of `New` are steps of their own which may be taken at any time that their conditions hold; a chunk may be added when less than `goal` slots are free (the limit is left out). A thread that gives back an object of another one may do other calls before that call is done. Both are more than the code does.
* `crash`: a vector is read outside of its bounds, a null pointer is followed, or the pool of a thread is used after the thread has ended. `ex`: threads may end. `oom`: the system may have no memory. Statistics, and the number of threads (at most 1024), are left out.
-/

namespace Verif.Pool.ObjectsShared

inductive Blk where
  | slot (i c k : Nat)
  | sys (n : Nat)
deriving DecidableEq, Repr

/-- `chunk_id` (:80) -/
def Blk.ch : Blk → Nat
  | .slot _ c _ => c
  | .sys _ => 0

/-- The sizes (:196-208): `chunk_size_`, `goal_num_`, `max_free_num_` -/
structure P where
  cs : Nat
  goal : Nat
  maxf : Nat

/-- `SharedNothingPoolImp` (:151-190) -/
structure O where
  free : List Blk := []
  back : List Blk := []
  xcpu : List Blk := []
  front : List Nat := []
  /-- `chunk_id_` -/
  cid : Nat := 0

/-- `DrainCrossCpuFreelist` (:376-397) -/
def O.drain (o : O) : O := { o with free := o.xcpu.reverse ++ o.free, xcpu := [] }

/-- A slot goes to its chunk, which goes in front if it had none (:345-355, :218-224). -/
def O.put (o : O) (b : Blk) : O :=
  { o with back := o.back ++ [b], front := if o.back.any (fun a => a.ch == b.ch) then o.front else b.ch :: o.front }

/-- The first `n` free slots go to their chunks. -/
def O.trim (o : O) : Nat → O
  | 0 => o
  | n + 1 => match o.free with
    | [] => o
    | b :: r => O.trim (O.put { o with free := r } b) n

/-- `GetSlotChunk` (:117-120) outside of the vector, for the first `n` free slots; `DoResize` has made it long enough for `chunk_id_` chunks. -/
def O.bad (o : O) (n : Nat) : Bool := (o.free.take n).any (fun b => decide (b.ch = 0) || decide (o.cid < b.ch))

/-- The loop over the chunks (:254-267) -/
def O.gather (o : O) (goal : Nat) : List Nat → O
  | [] => o
  | c :: f => if o.free.length < goal then
      O.gather { o with free := o.back.filter (fun b => b.ch == c) ++ o.free, back := o.back.filter (fun b => b.ch != c), front := f } goal f
    else o

/-- The slots of a chunk, the last one first (:283-292). -/
def blocks (cs i c : Nat) : List Blk := ((List.range cs).map (fun k => Blk.slot i c k)).reverse

/-- A new chunk (:271-297) -/
def O.chunk (o : O) (cs i : Nat) : O := { o with cid := o.cid + 1, free := blocks cs i (o.cid + 1) ++ o.free }

/-- How many slots go to their chunks after `Delete` (:338-339) -/
def O.over (o : O) (p : P) : Nat := if p.maxf < o.free.length then o.free.length - p.goal else 0

structure S where
  own : Nat → O
  gone : Nat → Bool
  /-- objects that were handed out, with their `cpu_id` -/
  user : List (Blk × Nat)
  /-- calls of `DeleteCrossCpu`: the object, the pool, and `old` -/
  pend : List (Blk × Nat × Option Blk)
  /-- chunks that were given back to the system -/
  freed : List (Nat × Nat)
  nsys : Nat
  crash : Bool

def S.init : S := ⟨fun _ => {}, fun _ => false, [], [], [], 0, false⟩

def S.at (s : S) (i : Nat) (o : O) : S := { s with own := upd s.own i o }

/-- The destructor (:210-225): all free slots go to their chunks, but not those that came from other threads. -/
def O.final (o : O) : O := o.trim o.free.length

/-- The chunks that it gives back (:229-240) -/
def O.whole (o : O) (cs : Nat) : List Nat := o.front.filter fun c => (o.back.filter fun b => b.ch == c).length == cs

inductive Step (ex oom : Bool) (p : P) : S → S → Prop
  | drain {s : S} (i : Nat) (hg : s.gone i = false) : Step ex oom p s (s.at i (s.own i).drain)
  | refill {s : S} (i : Nat) (hg : s.gone i = false) (hf : (s.own i).free = []) : Step ex oom p s (s.at i ((s.own i).gather p.goal (s.own i).front))
  | chunk {s : S} (i : Nat) (hg : s.gone i = false) (hl : (s.own i).free.length < p.goal) : Step ex oom p s (s.at i ((s.own i).chunk p.cs i))
  /-- `New` returns a slot (:313-321, :424-432) -/
  | take {s : S} (i : Nat) (b : Blk) (r : List Blk) (hg : s.gone i = false) (hf : (s.own i).free = b :: r) :
      Step ex oom p s { (s.at i { s.own i with free := r }) with user := (b, i) :: s.user }
  /-- or memory of the system (:302-309) -/
  | system {s : S} (i : Nat) (hg : s.gone i = false) (hf : (s.own i).free = []) : Step ex oom p s { s with user := (.sys s.nsys, i) :: s.user, nsys := s.nsys + 1 }
  /-- without memory `cpu_id` of a null pointer is written (:310, :430) -/
  | none {s : S} (i : Nat) (hg : s.gone i = false) (hf : (s.own i).free = []) (ho : oom = true) : Step ex oom p s { s with crash := true }
  /-- `Delete` (:434-449, :323-358, :399-408) -/
  | freeSys {s : S} (i n : Nat) (hu : (Blk.sys n, i) ∈ s.user) : Step ex oom p s { s with user := s.user.erase (.sys n, i) }
  | free {s : S} (i j c k : Nat) (o : O) (hg : s.gone i = false) (hu : (Blk.slot j c k, i) ∈ s.user) (ho : o = { s.own i with free := .slot j c k :: (s.own i).free }) :
      Step ex oom p s (if o.bad (o.over p) then { s with crash := true } else { (s.at i (o.trim (o.over p))) with user := s.user.erase (.slot j c k, i) })
  /-- on another thread (:360-374): the head is loaded -/
  | cross {s : S} (i j c k : Nat) (hu : (Blk.slot j c k, i) ∈ s.user) :
      Step ex oom p s (if s.gone i then { s with crash := true } else { s with user := s.user.erase (.slot j c k, i), pend := (.slot j c k, i, (s.own i).xcpu.head?) :: s.pend })
  /-- and swapped -/
  | swap {s : S} (b : Blk) (i : Nat) (old : Option Blk) (hm : (b, i, old) ∈ s.pend) (hg : s.gone i = false) (hh : (s.own i).xcpu.head? = old) :
      Step ex oom p s { (s.at i { s.own i with xcpu := b :: (s.own i).xcpu }) with pend := s.pend.erase (b, i, old) }
  | retry {s : S} (b : Blk) (i : Nat) (old : Option Blk) (hm : (b, i, old) ∈ s.pend) (hg : s.gone i = false) :
      Step ex oom p s { s with pend := (b, i, (s.own i).xcpu.head?) :: s.pend.erase (b, i, old) }
  | late {s : S} (b : Blk) (i : Nat) (old : Option Blk) (hm : (b, i, old) ∈ s.pend) (hg : s.gone i = true) : Step ex oom p s { s with crash := true }
  | exit {s : S} (i : Nat) (hg : s.gone i = false) (he : ex = true) :
      Step ex oom p s (if (s.own i).bad (s.own i).free.length then { s with crash := true }
        else { (s.at i (s.own i).final) with gone := upd s.gone i true, freed := ((s.own i).final.whole p.cs).map (fun c => (i, c)) ++ s.freed })

/-- All runs; none goes on after a crash. -/
inductive Reach (ex oom : Bool) (p : P) : S → Prop
  | init : Reach ex oom p .init
  | step {s s' : S} (h : Reach ex oom p s) (hc : s.crash = false) (hs : Step ex oom p s s') : Reach ex oom p s'

end Verif.Pool.ObjectsShared
