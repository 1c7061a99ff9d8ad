import Verif.Common.Upd
/-!
# `SQThreadPool` (`trpc/util/thread/sq_thread_pool.cc`) and `FutexNotifier` (`trpc/util/thread/futex_notifier.h`)

Any number of worker threads (`SQThreadPool::Run`, :72-93) and any number of threads calling `AddTask` (:46-57) and `Stop`
(:59).  A step is one access to shared memory or one system call; memory is sequentially consistent.

Simplified: the queue (`BoundedMPMCQueue`) is a bounded first-in-first-out queue with atomic `Push` and `Pop`; `FUTEX_WAKE`
of up to 10000 threads in `Stop` wakes all of them; the return value of the system calls is ignored, as in the code.
Not modelled: `Start`, `Join`, binding threads to cores, tasks that throw.
-/

namespace Verif.Thread.SqPool

/-- Where a worker is. -/
inductive WPc
  /-- :75 -/
  | pop
  /-- :76, running a task -/
  | busy
  /-- :78 -/
  | check
  /-- :82, before the system call, with the state `st` -/
  | wait (st : Nat)
  /-- Sleeping in `FUTEX_WAIT`. -/
  | asleep
  /-- :87 -/
  | drain
  /-- :88, running a task -/
  | drainBusy
  | exited
deriving DecidableEq, Repr

/-- Where a caller is. -/
inductive CPc
  | idle
  /-- :47 -/
  | check (t : Nat)
  /-- :51 -/
  | push (t : Nat)
  /-- :52, futex_notifier.h:45 -/
  | count (t : Nat)
  /-- :52, futex_notifier.h:46 -/
  | wake (t : Nat)
  /-- `Stop`, futex_notifier.h:108 -/
  | stop
  /-- `Stop`, futex_notifier.h:109 -/
  | stopWake
deriving DecidableEq, Repr

inductive Ev
  /-- Worker `i` starts task `t`. -/
  | ran (i t : Nat)
  /-- Task `t` is in the queue. -/
  | queued (t : Nat)
  /-- `AddTask` for task `t` returns. -/
  | returned (c t : Nat) (ok : Bool)
deriving DecidableEq, Repr

structure St where
  /-- Number of workers. -/
  n : Nat
  /-- Capacity of the queue. -/
  cap : Nat
  queue : List Nat
  /-- `pending_wake_`, as an unsigned number. -/
  word : Nat
  w : Nat → WPc
  c : Nat → CPc

def init (n cap : Nat) : St := ⟨n, cap, [], 0, fun _ => .pop, fun _ => .idle⟩

inductive Act
  /-- Worker `i` does a step. -/
  | worker (i : Nat)
  /-- Thread `c` calls `AddTask` with task `t`. -/
  | add (c t : Nat)
  /-- Thread `c` calls `Stop`. -/
  | stop (c : Nat)
  /-- Thread `c` does a step; if this wakes a worker, it is worker `i`. -/
  | client (c i : Nat)
  /-- `FUTEX_WAIT` returns for another reason. -/
  | spurious (i : Nat)

def St.toW (s : St) (i : Nat) (p : WPc) : St := { s with w := upd s.w i p }
def St.toC (s : St) (c : Nat) (p : CPc) : St := { s with c := upd s.c c p }

/-- `State::Stopped`, futex_notifier.h:33. -/
def stopped (word : Nat) : Bool := word % 2 == 1

/-- `fetch_add(1 << 1)`, futex_notifier.h:45. -/
def count (word : Nat) : Nat := (word + 2) % 2 ^ 32

/-- `fetch_or(1)`, futex_notifier.h:108. -/
def setStop (word : Nat) : Nat := if stopped word then word else word + 1

/-- `SQThreadPool::Run`, :72-93. -/
def workerStep (s : St) (i : Nat) : St × List Ev :=
  match s.w i with
  | .pop =>
    match s.queue with
    | [] => (s.toW i .check, [])
    | t :: q => ({ s.toW i .busy with queue := q }, [.ran i t])
  | .busy => (s.toW i .pop, [])
  | .check => (s.toW i (if stopped s.word then .drain else .wait s.word), [])
  | .wait st => (s.toW i (if s.word = st then .asleep else .pop), [])
  | .asleep => (s, [])
  | .drain =>
    match s.queue with
    | [] => (s.toW i .exited, [])
    | t :: q => ({ s.toW i .drainBusy with queue := q }, [.ran i t])
  | .drainBusy => (s.toW i .drain, [])
  | .exited => (s, [])

/-- Somebody sleeps. -/
def St.sleeper (s : St) : Bool := (List.range s.n).any (fun i => decide (s.w i = .asleep))

/-- `AddTask`, :46-57, and `Stop`, :59. -/
def clientStep (s : St) (c i : Nat) : St × List Ev :=
  match s.c c with
  | .idle => (s, [])
  | .check t => if stopped s.word then (s.toC c .idle, [.returned c t false]) else (s.toC c (.push t), [])
  | .push t =>
    if s.queue.length < s.cap then ({ s.toC c (.count t) with queue := s.queue ++ [t] }, [.queued t])
    else (s.toC c .idle, [.returned c t false])
  | .count t => ({ s.toC c (.wake t) with word := count s.word }, [])
  | .wake t =>
    if i < s.n ∧ s.w i = .asleep then ((s.toC c .idle).toW i .pop, [.returned c t true])
    else if s.sleeper then (s, []) else (s.toC c .idle, [.returned c t true])
  | .stop => ({ s.toC c .stopWake with word := setStop s.word }, [])
  | .stopWake => ({ s.toC c .idle with w := fun i => if s.w i = .asleep then .pop else s.w i }, [])

def step (s : St) : Act → St × List Ev
  | .worker i => if i < s.n then workerStep s i else (s, [])
  | .add c t => if s.c c = .idle then (s.toC c (.check t), []) else (s, [])
  | .stop c => if s.c c = .idle then (s.toC c .stop, []) else (s, [])
  | .client c i => clientStep s c i
  | .spurious i => if s.w i = .asleep then (s.toW i .pop, []) else (s, [])

def run : St → List Ev → List Act → St × List Ev
  | s, tr, [] => (s, tr)
  | s, tr, a :: as => run (step s a).1 (tr ++ (step s a).2) as

end Verif.Thread.SqPool
