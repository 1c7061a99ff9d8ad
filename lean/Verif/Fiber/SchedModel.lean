import Verif.Common.Upd
/-!
# The fiber scheduler: how workers look for fibers, sleep and are woken

`trpc/runtime/threadmodel/fiber/detail/scheduling/v1/scheduling_impl.cc`.  There are `n` workers and any number of other
threads.  A step is one atomic operation, one operation of the run queue, or one system call; memory is sequentially
consistent (the code uses `memory_order_relaxed`).

Simplified: the run queue is a bounded first-in-first-out queue with atomic operations (C23); what a running fiber does to the
scheduler (`StartFiber`, `Resume`, ...) is done by the other threads, of which any may do anything at any time; the slot counters
are integers without overflow; time is replaced by a free choice.
Not modelled: fiber objects, their states and contexts, signals (`FUTEX_WAIT` returning `EINTR` is a failed check, :50),
statistics, the order in which foreign groups are visited.
-/

namespace Verif.Fiber.Sched

/-- A thread: a worker of the group, or another one. -/
inductive Thr
  | worker (i : Nat)
  | client (i : Nat)
deriving DecidableEq, Repr

/-- Where a thread is in `WakeUpOneWorker`, `WakeUpWorkers` and what they call. -/
inductive K
  /-- `WakeUpOneSpinningWorker`, :520 -/
  | spinLoad
  /-- :524, `last_spinning` is `i` -/
  | spinClaim (i : Nat)
  /-- `WakeUpOneDeepSleepingWorker`, :602 -/
  | deepLoad
  /-- :609, `last_sleeping` is `i` -/
  | deepClaim (i : Nat)
  /-- `WaitSlot::Wake` of slot `i`, :39; then those of `rest` -/
  | add (i : Nat) (rest : List Nat)
  /-- :40 -/
  | futex (i : Nat) (rest : List Nat)
  /-- :43 -/
  | chk (i : Nat) (rest : List Nat)
  /-- `WakeUpWorkers` with `n ≥ 2`, :547 -/
  | batch (n : Nat)
  /-- :554 -/
  | all
  /-- :562 -/
  | load (n : Nat)
  /-- :574, with `sleeping_mask_was` and `mask_to` -/
  | cas (n : Nat) (was to : BitVec 64)
deriving DecidableEq, Repr

/-- Which call of `AcquireFiber`: :126, :209, :233, :267, :289. -/
inductive Site
  | main | spin | final | pre | post
deriving DecidableEq, Repr

/-- A result of `AcquireFiber` other than `nullptr`: a fiber, or `kSchedulingGroupShuttingDown` (`none`). -/
abbrev Got := Option Nat

inductive WPc
  /-- `AcquireFiber`, :157 -/
  | pop (a : Site)
  /-- `AcquireFiber`, :173 -/
  | stopChk (a : Site)
  /-- :143 -/
  | run
  /-- :184 -/
  | spinLoad
  /-- :191-197, with the local variable `spinning` -/
  | spinTry (r : BitVec 64)
  /-- :214-224 -/
  | spinPause
  /-- :225 -/
  | spinCheck
  /-- :205, having found `g` -/
  | spinEnd (g : Option Got)
  /-- :241 -/
  | pend (g : Got)
  /-- :242 -/
  | pendSet (g : Got)
  /-- `StealFiberFromForeignSchedulingGroup`, :131 -/
  | steal
  /-- `WaitForFiber`, :260 -/
  | wait0
  /-- :276 -/
  | waitClr (g : Got)
  /-- :258, on the way to the next round or with a result -/
  | deferClr (g : Option Got)
  /-- `WaitSlot::Wait`, :47 -/
  | sub
  /-- :49 -/
  | futex
  /-- Sleeping in `FUTEX_WAIT`. -/
  | asleep
  /-- :51 -/
  | reload
  /-- :53 -/
  | chk
  | exited
deriving DecidableEq, Repr

inductive CPc
  | idle
  /-- `QueueRunnableEntity`, :365 -/
  | push (f : Nat)
  /-- `StartFibers`, :343 -/
  | batch (fs : List Nat)
  /-- `Stop`, :509 -/
  | stop (i : Nat)
  /-- `PersistentWake`, :59 -/
  | stopFutex (i : Nat)
deriving DecidableEq, Repr

inductive Ev
  /-- The fiber is in the run queue. -/
  | pushed (f : Nat)
  /-- A worker of the group takes the fiber, to run it. -/
  | taken (i f : Nat)
  /-- A worker of another group takes the fiber. -/
  | stolen (f : Nat)
  /-- `PersistentWake` stores. -/
  | persist (i : Nat)
  /-- A check fails. -/
  | crash
  /-- Undefined behaviour. -/
  | ub
deriving DecidableEq, Repr

structure St where
  /-- `group_size_`. -/
  n : Nat
  /-- The capacity of the run queue. -/
  cap : Nat
  stopped : Bool
  queue : List Nat
  /-- `spinning_workers_`. -/
  spin : BitVec 64
  /-- `sleeping_workers_`. -/
  sleep : BitVec 64
  /-- `pending_spinner_wakeup_`. -/
  pending : Bool
  /-- `wakeup_count_` of the slots. -/
  count : Nat → Int
  w : Nat → WPc
  c : Nat → CPc
  /-- What a thread is doing in a wake-up function, if anything. -/
  k : Thr → Option K

def init (n cap : Nat) : St :=
  ⟨n, cap, false, [], 0, 0, false, fun _ => 1, fun _ => .pop .main, fun _ => .idle, fun _ => none⟩

inductive Act
  /-- Thread `c` calls `StartFiber` (or `Resume`, `PostResume`, `Yield`, ...). -/
  | push (c f : Nat)
  /-- Thread `c` calls `StartFibers`. -/
  | batch (c : Nat) (fs : List Nat)
  /-- Thread `c` calls `Stop`. -/
  | stop (c : Nat)
  /-- Thread `c` does a step; `b` decides what is left open. -/
  | client (c : Nat) (b : Bool)
  /-- Worker `i` does a step; `b` decides what is left open. -/
  | worker (i : Nat) (b : Bool)
  /-- A worker of another group steals a fiber. -/
  | steal
  /-- `FUTEX_WAIT` returns for no reason. -/
  | spurious (i : Nat)

/-- `1ULL << i`. -/
def bit (i : Nat) : BitVec 64 := 1#64 <<< i

/-- `1 << i` (an `int`), converted to 64 bits; undefined for `i ≥ 32`. -/
def intBit (i : Nat) : Option (BitVec 64) := if i < 32 then some ((1#32 <<< i).signExtend 64) else none

/-- The position of the lowest bit, for masks other than 0. -/
def lowest (m : BitVec 64) : Nat := ((List.range 64).find? fun i => m.getLsbD i).getD 64

/-- `__builtin_ffsll`. -/
def ffs (m : BitVec 64) : Nat := if m = 0 then 0 else lowest m + 1

/-- `CountNonZeros`. -/
def bits (m : BitVec 64) : Nat := ((List.range 64).filter fun i => m.getLsbD i).length

def setK (s : St) (t : Thr) (k : Option K) : St := { s with k := fun t' => if t' = t then k else s.k t' }

/-- Wake the workers of a list, :555-559, :576-581. -/
def wakeAll : List Nat → Option K
  | [] => none
  | i :: rest => some (.add i rest)

/-- :566-569 -/
def clearLoop : Nat → BitVec 64 → Option (BitVec 64)
  | 0, m => some m
  | n + 1, m =>
    match intBit (ffs m) with
    | some b => clearLoop n (m &&& ~~~b)
    | none => none

/-- The workers the loops :555-559 and :576-581 wake, for this mask; `none`: undefined behaviour. -/
def chosen (n : Nat) (m : BitVec 64) : Option (List Nat) :=
  if n ≤ 32 then some ((List.range n).filter fun i => m &&& (intBit i).getD 0 ≠ 0) else none

/-- One step of the wake-up functions, :39-43, :515-622. -/
def kstep (s : St) (t : Thr) (b : Bool) : K → St × List Ev
  | .spinLoad => (setK s t (some (if s.spin = 0 then .deepLoad else .spinClaim (ffs s.spin - 1))), [])
  | .spinClaim i =>
    (setK { s with spin := s.spin &&& ~~~bit i } t (if s.spin &&& bit i ≠ 0 then none else some .spinLoad), [])
  | .deepLoad => (setK s t (if s.sleep = 0 then none else some (.deepClaim (ffs s.sleep - 1))), [])
  | .deepClaim i =>
    if s.sleep &&& bit i ≠ 0 then
      (setK { s with sleep := s.sleep &&& ~~~bit i } t (some (.add i [])), if i < s.n then [] else [.crash])
    else (setK s t (some .deepLoad), [])
  | .add i rest =>
    (setK { s with count := upd s.count i (s.count i + 1) } t (some (if s.count i = 0 then .futex i rest else .chk i rest)), [])
  | .futex i rest =>
    (setK { s with w := if s.w i = .asleep then upd s.w i .reload else s.w } t (some (.chk i rest)), [])
  | .chk i rest => (setK s t (wakeAll rest), if s.count i < 0 then [.crash] else [])
  | .batch n =>
    let woke := bits s.spin
    (setK { s with spin := 0 } t (if s.n ≤ n - woke then some .all else if 1 ≤ n - woke then some (.load (n - woke)) else none),
      if n < woke then [.crash] else [])
  | .all =>
    match chosen s.n s.sleep with
    | some l => (setK { s with sleep := 0 } t (wakeAll l), [])
    | none => (s, [.ub])
  | .load n =>
    if s.sleep = 0 then (setK s t none, [])
    else if bits s.sleep ≤ n then (setK s t (some (.cas n s.sleep 0)), [])
    else
      match clearLoop n s.sleep with
      | some m => (setK s t (some (.cas (2 ^ 64 - 1) s.sleep m)), [])
      | none => (s, [.ub])
  | .cas n was to =>
    if s.sleep = was ∧ b = false then
      match chosen s.n (was &&& ~~~to) with
      | some l => (setK { s with sleep := to } t (wakeAll l), [])
      | none => (s, [.ub])
    else (setK s t (some (.load n)), [])

def St.toW (s : St) (i : Nat) (p : WPc) : St := { s with w := upd s.w i p }
def St.toC (s : St) (c : Nat) (p : CPc) : St := { s with c := upd s.c c p }

/-- The worker has a result. -/
def go : Got → WPc
  | some _ => .run
  | none => .exited

/-- What follows an `AcquireFiber` that returns `g`. -/
def found (g : Got) : Site → WPc
  | .main => go g
  | .spin => .spinEnd (some g)
  | .final => .pend g
  | .pre => .waitClr g
  | .post => .deferClr (some g)

/-- What follows an `AcquireFiber` that returns `nullptr`. -/
def nothing : Site → WPc
  | .main => .spinLoad
  | .spin => .spinPause
  | .final => .steal
  | .pre => .sub
  | .post => .deferClr none

/-- `Schedule`, :121-148, `SpinningAcquireFiber`, :176-246, `WaitForFiber`, :248-293, `WaitSlot::Wait`, :46-54. -/
def workerStep (s : St) (i : Nat) (b : Bool) : St × List Ev :=
  match s.w i with
  | .pop a =>
    match s.queue with
    | f :: q => ({ s.toW i (found (some f) a) with queue := q }, [.taken i f])
    | [] => (s.toW i (.stopChk a), [])
  | .stopChk a => (s.toW i (if s.stopped then found none a else nothing a), [])
  | .run =>
    -- a fiber that is suspended takes the next one itself, :421
    match b, s.queue with
    | true, f :: q => ({ s with queue := q }, [.taken i f])
    | _, _ => (s.toW i (.pop .main), [])
  | .spinLoad => (s.toW i (.spinTry s.spin), [])
  | .spinTry r =>
    if bits r < 2 then
      if s.spin = r ∧ b = false then ({ s.toW i (.pop .spin) with spin := s.spin ||| bit i }, [])
      else (s.toW i (.spinTry s.spin), [])
    else (s.toW i .steal, [])
  | .spinPause =>
    if b then
      if s.pending then (setK { s with pending := false } (.worker i) (some .deepLoad), []) else (s, [])
    else (s.toW i .spinCheck, [])
  | .spinCheck => (s.toW i (if b = false ∧ s.spin &&& bit i ≠ 0 then .pop .spin else .spinEnd none), [])
  | .spinEnd g =>
    ({ s.toW i (match g with | some g => .pend g | none => .pop .final) with spin := s.spin &&& ~~~bit i }, [])
  | .pend g => (s.toW i (if bits s.spin < 2 then .pendSet g else go g), [])
  | .pendSet g => ({ s.toW i (go g) with pending := true }, [])
  | .steal => (s.toW i (if b then .run else .wait0), [])
  | .wait0 =>
    ({ s.toW i (.pop .pre) with sleep := s.sleep ||| bit i }, if s.sleep &&& bit i ≠ 0 then [.crash] else [])
  | .waitClr g =>
    (setK { s.toW i (.deferClr (some g)) with sleep := s.sleep &&& ~~~bit i } (.worker i)
      (if s.sleep &&& bit i = 0 then some .spinLoad else none), [])
  | .deferClr g =>
    ({ s.toW i (match g with | some g => go g | none => .wait0) with sleep := s.sleep &&& ~~~bit i }, [])
  | .sub => ({ s.toW i (if s.count i = 1 then .futex else .chk) with count := upd s.count i (s.count i - 1) }, [])
  | .futex => (s.toW i (if s.count i = 0 then .asleep else .reload), [])
  | .asleep => (s, [])
  | .reload => (s.toW i (if s.count i = 0 then .futex else .chk), [])
  | .chk => (s.toW i (.pop .post), if s.count i > 0 then [] else [.crash])
  | .exited => (s, [])

/-- `QueueRunnableEntity`, :359-386, `StartFibers`, :327-357, `Stop`, :506-511. -/
def clientStep (s : St) (c : Nat) (b : Bool) : St × List Ev :=
  match s.c c with
  | .idle => (s, [])
  | .push f =>
    if s.queue.length < s.cap then
      (setK { s.toC c .idle with queue := s.queue ++ [f] } (.client c) (some .spinLoad), [.pushed f])
    else (s.toC c (if b then .idle else .push f), [])
  | .batch fs =>
    if s.queue.length + fs.length ≤ s.cap then
      (setK { s.toC c .idle with queue := s.queue ++ fs } (.client c)
        (if fs.length = 0 then none else if fs.length = 1 then some .spinLoad else some (.batch fs.length)), fs.map .pushed)
    else (s, [])
  | .stop i =>
    if i < s.n then ({ s.toC c (.stopFutex i) with count := upd s.count i (2 ^ 30) }, [.persist i])
    else (s.toC c .idle, [])
  | .stopFutex i => ({ s.toC c (.stop (i + 1)) with w := if s.w i = .asleep then upd s.w i .reload else s.w }, [])

def step (s : St) : Act → St × List Ev
  | .push c f => if s.c c = .idle ∧ s.k (.client c) = none then (s.toC c (.push f), []) else (s, [])
  | .batch c fs => if s.c c = .idle ∧ s.k (.client c) = none then (s.toC c (.batch fs), []) else (s, [])
  | .stop c => if s.c c = .idle ∧ s.k (.client c) = none then ({ s.toC c (.stop 0) with stopped := true }, []) else (s, [])
  | .client c b =>
    match s.k (.client c) with
    | some k => kstep s (.client c) b k
    | none => clientStep s c b
  | .worker i b =>
    if i < s.n then
      match s.k (.worker i) with
      | some k => kstep s (.worker i) b k
      | none => workerStep s i b
    else (s, [])
  | .steal =>
    match s.queue with
    | f :: q => ({ s with queue := q }, [.stolen f])
    | [] => (s, [])
  | .spurious i => if s.w i = .asleep then (s.toW i .reload, []) else (s, [])

def run : St → List Ev → List Act → St × List Ev
  | s, tr, [] => (s, tr)
  | s, tr, a :: as => run (step s a).1 (tr ++ (step s a).2) as

end Verif.Fiber.Sched
