import Verif.Fiber.HeapModel

/-!
# The timers of the default reactor

/repo/trpc/runtime/iomodel/reactor/default/timer_queue.{h,cc}; `GetEpollWaitTimeout` of reactor_impl.cc:95-98.

* Timers are numbers; `std::priority_queue` is the heap of Verif/Fiber/HeapModel.lean (libstdc++), whose keys change while elements are in it.
* Times do not overflow. Lifetimes are left out: a timer is used by its holder until it is cancelled or detached, once.
* `log` is a ghost.
-/

namespace Verif.Reactor.Timers

open Verif.Fiber

/-- What happened to a timer. -/
inductive Ev where
  | add (id due interval : Nat)
  /-- the executor is called: the timer was due at `due`, `RunExpiredTimers` was called with `now` -/
  | fire (id due now : Nat)
  /-- the timer was due but is paused -/
  | skip (id due now : Nat)
  | cancel (id : Nat)
  | pause (id : Nat)
  | resume (id : Nat)
deriving DecidableEq

structure Q where
  heap : Heap
  exp : Nat → Nat
  iv : Nat → Nat
  cancelled : Nat → Bool
  paused : Nat → Bool
  next : Nat
  log : List Ev

def Q.fresh : Q := ⟨.empty, fun _ => 0, fun _ => 0, fun _ => false, fun _ => false, 0, []⟩

/-- What users and executors do. `AddTimerAfter(d)` is `add (now + d)`. -/
inductive Op where
  | add (due interval : Nat)
  | cancel (id : Nat)
  | pause (id : Nat)
  | resume (id : Nat)

/-- `AddTimerAt`, `CancelTimer`, `PauseTimer`, `ResumeTimer` (timer_queue.cc:39-114). -/
def Q.op (q : Q) : Op → Q
  | .add due iv =>
    let exp := upd q.exp q.next due
    { q with heap := q.heap.push exp q.next, exp := exp, iv := upd q.iv q.next iv, cancelled := upd q.cancelled q.next false,
             paused := upd q.paused q.next false, next := q.next + 1, log := q.log ++ [.add q.next due iv] }
  | .cancel i => { q with cancelled := upd q.cancelled i true, log := q.log ++ [.cancel i] }
  | .pause i => { q with paused := upd q.paused i true, log := q.log ++ [.pause i] }
  | .resume i => { q with paused := upd q.paused i false, log := q.log ++ [.resume i] }

def Q.ops (q : Q) (l : List Op) : Q := l.foldl Q.op q

/-- What the executors do: it may depend on everything. -/
abbrev Exec := Q → Nat → List Op

/-- The executor of the timer at the top, if it is not paused (line 133-135). -/
def Q.call (q : Q) (E : Exec) (now : Nat) : Q :=
  let i := q.heap.top
  if q.paused i then { q with log := q.log ++ [.skip i (q.exp i) now] }
  else
    let q1 : Q := { q with log := q.log ++ [.fire i (q.exp i) now] }
    q1.ops (E q1 i)

/-- The end of an iteration for timer `i` (lines 137-142). -/
def Q.again (q : Q) (i : Nat) : Q :=
  if q.iv i ≠ 0 then
    let exp := upd q.exp i (q.exp i + q.iv i)
    { q with exp := exp, heap := (q.heap.push exp i).pop exp }
  else { q with heap := q.heap.pop q.exp }

/-- `RunExpiredTimers` (lines 116-144); `none`: it does not come to an end within `fuel` iterations. -/
def Q.run (E : Exec) (now : Nat) : Nat → Q → Option Q
  | 0, _ => none
  | fuel + 1, q =>
    if q.heap.n = 0 then some q
    else
      let i := q.heap.top
      if q.cancelled i then ({ q with heap := q.heap.pop q.exp } : Q).run E now fuel
      else if now < q.exp i then some q
      else ((q.call E now).again i).run E now fuel

/-- `NextExpiration` (lines 146-148). -/
def Q.nextExpiration (q : Q) : Nat := if q.heap.n = 0 then 2 ^ 64 - 1 else q.exp q.heap.top

/-- `GetEpollWaitTimeout` (reactor_impl.cc:95-98): for how long `epoll_wait` sleeps, in ms. -/
def Q.sleep (q : Q) (now : Nat) : Nat :=
  let t := (q.nextExpiration + 2 ^ 64 - now) % 2 ^ 64
  if t < 5 then t else 5

/-- Executors that run at `now` add no timers that were due before the one that runs. (`AddTimerAfter` adds timers that are due at `now` or later.) -/
def Tame (now : Nat) (E : Exec) : Prop := ∀ q i due iv, .add due iv ∈ E q i → q.exp i ≤ now → q.exp i ≤ due

/-- What is called from outside. -/
inductive Call where
  | op (o : Op)
  | run (E : Exec) (now : Nat)

inductive Reach (tame : Bool) : Q → Prop where
  | init : Reach tame .fresh
  | op {q : Q} (h : Reach tame q) (o : Op) : Reach tame (q.op o)
  | run {q q' : Q} (h : Reach tame q) (E : Exec) (now : Nat) (he : tame = true → Tame now E) (fuel : Nat) (hr : q.run E now fuel = some q') : Reach tame q'

end Verif.Reactor.Timers
