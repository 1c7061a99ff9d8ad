/-!
# Sequence lock of fibers

/repo/trpc/coroutine/fiber_seqlock.h, /repo/trpc/coroutine/fiber_seqlock.cc

* `lock` is a mutex (C55): at most one writer is between `WriteSeqLock` and `WriteSeqUnlock`. The number is incremented after the lock is taken and before it is released.
* Every load and store of a cell of the protected data and of the number is one step, in program order (`MemoryBarrier`). In C++ these are plain loads and stores, that is, data races; this is not modelled.
* `sequence` is an `unsigned`: numbers modulo 2^32. It has no initialiser, nor has any of the objects around it (:66-73, :116): `s0` is what it happens to be.
-/

namespace Verif.Sync.SeqLock

def M : Nat := 4294967296

/-- A reader. -/
inductive R where
  | idle
  /-- read the number `seq` when it had been incremented `t0` times (ghost), and read these cells since -/
  | reading (seq t0 : Nat) (got : List (Nat × Nat))
deriving DecidableEq

structure S where
  cells : Nat → Nat
  seq : Nat
  writing : Bool
  rd : List R
  /-- ghost: how often the number was incremented; what the data were whenever no writer was at work -/
  t : Nat
  hist : List (Nat → Nat)

def S.init (c0 : Nat → Nat) (s0 n : Nat) : S := ⟨c0, s0, false, List.replicate n .idle, 0, [c0]⟩

inductive Step : S → S → Prop
  /-- `WriteSeqLock` (fiber_seqlock.cc:24-27, fiber_seqlock.h:147-150) -/
  | lock {s : S} (h : s.writing = false) : Step s { s with seq := (s.seq + 1) % M, writing := true, t := s.t + 1 }
  /-- the writer stores a value -/
  | store {s : S} (c v : Nat) (h : s.writing = true) : Step s { s with cells := fun k => if k = c then v else s.cells k }
  /-- `WriteSeqUnlock` (fiber_seqlock.cc:29-32, fiber_seqlock.h:152-155) -/
  | unlock {s : S} (h : s.writing = true) : Step s { s with seq := (s.seq + 1) % M, writing := false, t := s.t + 1, hist := s.hist ++ [s.cells] }
  /-- `ReadSeqBegin` (fiber_seqlock.h:119-136): the number is even; while it is odd it loops -/
  | start {s : S} (i : Nat) (h : s.rd[i]? = some .idle) (he : s.seq % 2 = 0) : Step s { s with rd := s.rd.set i (.reading s.seq s.t []) }
  /-- the reader loads a value -/
  | load {s : S} (i c : Nat) {q t0 : Nat} {got : List (Nat × Nat)} (h : s.rd[i]? = some (.reading q t0 got)) : Step s { s with rd := s.rd.set i (.reading q t0 (got ++ [(c, s.cells c)])) }
  /-- `ReadSeqRetry` (fiber_seqlock.h:138-145): the number is another one -/
  | retry {s : S} (i : Nat) {q t0 : Nat} {got : List (Nat × Nat)} (h : s.rd[i]? = some (.reading q t0 got)) (hn : s.seq ≠ q) : Step s { s with rd := s.rd.set i .idle }

/-- `ReadSeqRetry` returns 0 to this reader, which goes on with what it read. -/
def S.accepts (s : S) (i t0 : Nat) (got : List (Nat × Nat)) : Prop := ∃ q, s.rd[i]? = some (.reading q t0 got) ∧ s.seq = q

/-- All runs of `n` readers and any number of writers. -/
inductive Reach (c0 : Nat → Nat) (s0 n : Nat) : S → Prop
  | init : Reach c0 s0 n (.init c0 s0 n)
  | step {s s' : S} (h : Reach c0 s0 n s) (hs : Step s s') : Reach c0 s0 n s'

end Verif.Sync.SeqLock
