import Verif.Fiber.HeapModel
/-!
# `TimerWorker` (`trpc/runtime/threadmodel/fiber/detail/timer_worker.cc`)

One timer thread and `np` threads with a thread-local queue (the fiber workers and the timer thread itself, which may add
timers in callbacks).  A step is one access to memory shared by threads, or one critical section; memory is sequentially
consistent.  Timers are numbered instead of addressed.

Simplified: times are natural numbers (nanoseconds), `expires_at + interval` does not overflow; the callback is called and
returns in separate steps, and what it does is done by the other threads (any thread may act at any time, so in particular
the timer thread's own queue may change at any time, not only during callbacks).
Callers are assumed to enable a timer at most once (:258 checks this in debug builds) and not to enable a removed timer.
Not modelled: reference counts, `DetachTimer` (which only drops a reference), thread creation, affinity, `EnterGroup`.
-/

namespace Verif.Fiber.Timer

/-- `steady_clock::duration::max()`. -/
def inf : Nat := 2 ^ 63 - 1

/-- `TimerWorker::Entry`, :70-80. -/
structure Entry where
  created : Bool
  enabled : Bool
  cancelled : Bool
  /-- `cb` is not empty. -/
  cb : Bool
  /-- `interval`, for `periodic` timers. -/
  interval : Option Nat
  /-- The argument of `CreateTimer` (not in the code). -/
  first : Nat
  expires : Nat

/-- Where a thread is in `AddTimer` (:254-270), `WakeWorkerIfNeeded` (:339-369). -/
inductive CPc
  | idle
  /-- :342 -/
  | load (e t : Nat)
  /-- :344-366 with the local variable `r` -/
  | try (e t r : Nat)
deriving DecidableEq, Repr

/-- Where the timer thread is. -/
inductive WPc
  /-- :213 -/
  | loop
  /-- :223 -/
  | reset
  /-- :278-280, for producer `p` -/
  | reap (p : Nat)
  /-- :282-291, for producer `p` -/
  | collect (p : Nat) (t : List Nat)
  /-- :296 -/
  | fire
  /-- :297-305 -/
  | fireLoop (now : Nat)
  /-- :309-312 -/
  | take (now e : Nat)
  /-- :314, the callback is running -/
  | calling (now e : Nat)
  /-- :324-329 -/
  | relock (now e : Nat)
  /-- :332 -/
  | noCb (now e : Nat)
  /-- :232 -/
  | after
  /-- :236, :342 -/
  | load (t : Nat)
  /-- :236, :344-366 -/
  | try (t r : Nat)
  /-- :240-242 -/
  | toSleep
  /-- Sleeping in `wait_until`, with the local variable `expected`. -/
  | asleep (x deadline : Nat)
  | exited
deriving DecidableEq, Repr

inductive Ev
  /-- `CreateTimer` with these arguments returned this timer. -/
  | created (e expires : Nat) (interval : Option Nat)
  /-- `EnableTimer` begins. -/
  | enabled (e : Nat)
  /-- `RemoveTimer` takes effect. -/
  | removed (e : Nat)
  /-- The timer thread takes the callback at this time, to call it. -/
  | fired (e clock : Nat)
  /-- A `TRPC_CHECK` fails. -/
  | crash
deriving DecidableEq, Repr

structure St where
  /-- `producers_.size()`. -/
  np : Nat
  clock : Nat
  stopped : Bool
  /-- `next_expires_at_`. -/
  next : Nat
  /-- A notification of `cv_` is on its way to the sleeping timer thread. -/
  notified : Bool
  ent : Nat → Entry
  /-- `ThreadLocalQueue::timers`. -/
  q : Nat → List Nat
  /-- `ThreadLocalQueue::earliest`. -/
  earliest : Nat → Nat
  /-- `timers_`. -/
  heap : Heap
  pc : WPc
  c : Nat → CPc

def init (np : Nat) : St :=
  ⟨np, 0, false, inf, false, fun _ => ⟨false, false, false, false, none, 0, 0⟩, fun _ => [], fun _ => inf, Heap.empty, .loop,
    fun _ => .idle⟩

inductive Act
  /-- Time passes. -/
  | tick (d : Nat)
  | create (e expires : Nat) (interval : Option Nat)
  /-- Thread `p` calls `EnableTimer`. -/
  | enable (p e : Nat)
  | remove (e : Nat)
  | stop
  /-- Thread `p` does a step; `weak`: `compare_exchange_weak` fails for no reason. -/
  | client (p : Nat) (weak : Bool)
  /-- The timer thread does a step. -/
  | worker (weak : Bool)

def St.key (s : St) (e : Nat) : Nat := (s.ent e).expires

def St.goto (s : St) (p : WPc) : St := { s with pc := p }
def St.toC (s : St) (p : Nat) (x : CPc) : St := { s with c := upd s.c p x }
def St.setEnt (s : St) (e : Nat) (x : Entry) : St := { s with ent := upd s.ent e x }

/-- `RemoveTimer`, :151-163. -/
def remove (s : St) (e : Nat) : St × List Ev :=
  (s.setEnt e { s.ent e with cancelled := true, cb := false }, [.removed e])

/-- `EnableTimer`, :145-149, and `AddTimer`, :254-270. -/
def enable (s : St) (p e : Nat) : St × List Ev :=
  let t := (s.ent e).expires
  let s' := { s.setEnt e { s.ent e with enabled := true } with q := upd s.q p (s.q p ++ [e]) }
  if t < s.earliest p then ({ s'.toC p (.load e t) with earliest := upd s.earliest p t }, [.enabled e])
  else (s', [.enabled e])

/-- `WakeWorkerIfNeeded`, :339-369. -/
def clientStep (s : St) (p : Nat) (weak : Bool) : St :=
  match s.c p with
  | .idle => s
  | .load e t => s.toC p (.try e t s.next)
  | .try e t r =>
    if r ≤ t then s.toC p .idle
    else if s.next = r ∧ weak = false then { s.toC p .idle with next := t, notified := true }
    else s.toC p (.try e t s.next)

/-- `WorkerProc`, :209-252. -/
def workerStep (s : St) (weak : Bool) : St × List Ev :=
  match s.pc with
  | .loop => (s.goto (if s.stopped then .exited else .reset), [])
  | .reset => ({ s.goto (.reap 0) with next := inf }, [])
  | .reap p =>
    if p < s.np then ({ s.goto (.collect p (s.q p)) with q := upd s.q p [], earliest := upd s.earliest p inf }, [])
    else (s.goto .fire, [])
  | .collect p [] => (s.goto (.reap (p + 1)), [])
  | .collect p (e :: t) =>
    if (s.ent e).cancelled then (s.goto (.collect p t), [])
    else ({ s.goto (.collect p t) with heap := s.heap.push s.key e }, [])
  | .fire => (s.goto (.fireLoop s.clock), [])
  | .fireLoop now =>
    if s.heap.n = 0 then (s.goto .after, [])
    else if (s.ent s.heap.top).cancelled then ({ s with heap := s.heap.pop s.key }, [])
    else if now < s.key s.heap.top then (s.goto .after, [])
    else (s.goto (.take now s.heap.top), [])
  | .take now e =>
    if (s.ent e).cb then ((s.setEnt e { s.ent e with cb := false }).goto (.calling now e), [.fired e s.clock])
    else if (s.ent e).interval.isSome then (s.goto (.noCb now e), [])
    else ({ s.goto (.fireLoop now) with heap := s.heap.pop s.key }, [])
  | .calling now e =>
    if (s.ent e).interval.isSome then (s.goto (.relock now e), [])
    else ({ s.goto (.fireLoop now) with heap := s.heap.pop s.key }, [])
  | .relock now e =>
    if (s.ent e).cancelled then ({ s.goto (.fireLoop now) with heap := s.heap.pop s.key }, [])
    else
      let s' := s.setEnt e { s.ent e with expires := (s.ent e).expires + (s.ent e).interval.getD 0, cb := true }
      ({ s'.goto (.fireLoop now) with heap := (s.heap.push s'.key e).pop s'.key }, [])
  | .noCb now e =>
    if (s.ent e).cancelled then ({ s.goto (.fireLoop now) with heap := s.heap.pop s.key }, [])
    else (s.goto .exited, [.crash])
  | .after => (s.goto (if s.heap.n = 0 then .toSleep else .load (s.key s.heap.top)), [])
  | .load t => (s.goto (.try t s.next), [])
  | .try t r =>
    if r ≤ t then (s.goto .toSleep, [])
    else if s.next = r ∧ weak = false then ({ s.goto .toSleep with next := t }, [])
    else (s.goto (.try t s.next), [])
  | .toSleep =>
    if s.stopped then (s.goto .loop, [])
    else ({ s.goto (.asleep s.next (if s.next = inf then s.clock + 10000 * 10 ^ 9 else s.next)) with notified := false }, [])
  | .asleep x deadline =>
    if s.next ≠ x ∨ s.stopped ∨ deadline ≤ s.clock then (s.goto .loop, []) else ({ s with notified := false }, [])
  | .exited => (s, [])

def step (s : St) : Act → St × List Ev
  | .tick d => ({ s with clock := s.clock + d }, [])
  | .create e expires interval =>
    if (s.ent e).created ∨ interval = some 0 then (s, [])
    else (s.setEnt e ⟨true, false, false, true, interval, expires, expires⟩, [.created e expires interval])
  | .enable p e =>
    if p < s.np ∧ s.c p = .idle ∧ (s.ent e).created ∧ (s.ent e).enabled = false ∧ (s.ent e).cancelled = false then enable s p e
    else (s, [])
  | .remove e => if (s.ent e).created ∧ (s.ent e).cancelled = false then remove s e else (s, [])
  | .stop => ({ s with stopped := true, notified := true }, [])
  | .client p weak => (clientStep s p weak, [])
  | .worker weak => workerStep s weak

def run : St → List Ev → List Act → St × List Ev
  | s, tr, [] => (s, tr)
  | s, tr, a :: as => run (step s a).1 (tr ++ (step s a).2) as

end Verif.Fiber.Timer
