import Verif.Common.Upd

/-!
# The tasks of the default reactor

/repo/trpc/runtime/iomodel/reactor/default/reactor_impl.{h,cc}, with common/eventfd_notifier.cc and common/epoll_poller.cc.

* Tasks are numbers, queues 0 (lowest) to 3 (high) are the priorities.
* A queue is that of C37 (bounded_mpsc_queue.h): `Push` takes a place (from then on the task counts in `Size`) and later stores the task; `Pop` takes the oldest task if it is stored.
* Submissions take place at any time, also those that tasks, timers and handlers make on the thread of the reactor. (Those are complete before the reactor goes on, which is not used.)
* The eventfd is a counter (`cnt`: it is not zero) and its place in the list of ready files of the epoll instance (`rdy`), because the reactor uses edge triggers: a write makes
  it ready; `epoll_wait` takes it off the list and reports it if the counter is not zero.
* `epoll_wait` may return without it at any time, because of other events, signals or the timeout; its timeout is Verif/Reactor/Timers.lean. The handlers of other files, timers
  and the AsyncIO are left out.
* `SubmitTask2` (reactor_impl.cc:132-150) is `SubmitTask`, except that on the thread of the reactor it calls the task at once.
* `log` is a ghost.
-/

namespace Verif.Reactor.Tasks

inductive Ev where
  /-- `SubmitTask` has got a place in queue `p` -/
  | acc (p t : Nat)
  /-- `SubmitTask` returns false -/
  | full (p : Nat)
  /-- the task is stored in its place -/
  | pub (t : Nat)
  /-- `SubmitInnerTask` has put the task in the list -/
  | accI (t : Nat)
  /-- `SubmitTask` or `SubmitInnerTask` returns true -/
  | ret (t : Nat)
  /-- `HandleTask(clear)` begins -/
  | begin (clear : Bool)
  | runI (t : Nat)
  /-- `Pop` on queue `p` succeeds and the task is called -/
  | run (p t : Nat)
  /-- `Pop` on queue `p` fails -/
  | empty (p : Nat)
  /-- `HandleTask` returns `left` -/
  | fin (left : Bool)
deriving DecidableEq

inductive Stage where
  | none | claimed | pushed | waking | done
deriving DecidableEq

/-- Where the thread of the reactor is. -/
inductive Pc where
  /-- `while (!stopped_)` (reactor_impl.cc:103) -/
  | top
  /-- `HandleTask` (:189-193) -/
  | take (clear : Bool)
  /-- (:195-198): what is left of the local list -/
  | inner (clear : Bool) (l : List Nat)
  /-- (:200-221): `k` is the place in the two inner loops -/
  | poll (clear : Bool) (k idle count : Nat)
  /-- `TrySleep` (:224-227) -/
  | doze (left : Bool)
  /-- `CheckTask`: the list of inner tasks (:169-174) -/
  | check1
  /-- `CheckTask`: queue `i` (:176-181) -/
  | check2 (i : Nat)
  /-- (:228) -/
  | awake
  /-- in `epoll_wait` (:232-236), with a timeout of zero or not -/
  | wait (block : Bool)
  /-- `epoll_wait` has returned (epoll_poller.cc:20-21); was the eventfd reported? -/
  | woke (e : Bool)
  /-- the events are handled (epoll_poller.cc:23-33) -/
  | disp (e : Bool)
  /-- `Run` has returned -/
  | over
  /-- an assertion has failed (eventfd_notifier.cc:73-75) -/
  | failed
deriving DecidableEq

structure S where
  pc : Pc
  q : Nat → List Nat
  inner : List Nat
  stage : Nat → Stage
  next : Nat
  /-- the capacity of each queue -/
  cap : Nat
  polling : Bool
  cnt : Bool
  rdy : Bool
  stopped : Bool
  log : List Ev

def S.init (cap : Nat) : S := ⟨.top, fun _ => [], [], fun _ => .none, 0, cap, false, false, false, false, []⟩

/-- The queue that is looked at (reactor_impl.cc:203-205). -/
def tbl (k : Nat) : Nat := [3, 3, 2, 3, 2, 1, 3, 2, 1, 0].getD k 0

def S.say (s : S) (l : List Ev) : S := { s with log := s.log ++ l }

/-- `Pop` fails (reactor_impl.cc:214-218). -/
def S.miss (s : S) (c : Bool) (k idle count : Nat) : S :=
  if 10 ≤ idle + 1 then { s with pc := if c then .over else .doze false }.say [.empty (tbl k), .fin false]
  else { s with pc := .poll c ((k + 1) % 10) (idle + 1) count }.say [.empty (tbl k)]

/-- `Pop` succeeds (reactor_impl.cc:207-213). -/
def S.hit (s : S) (c : Bool) (k count : Nat) (t : Nat) (l : List Nat) : S :=
  if c = false ∧ 500 ≤ count + 1 then { s with q := upd s.q (tbl k) l, pc := .doze true }.say [.run (tbl k) t, .fin true]
  else { s with q := upd s.q (tbl k) l, pc := .poll c ((k + 1) % 10) 0 (if c then count else count + 1) }.say [.run (tbl k) t]

/-- One turn of the inner loops of `HandleTask` (reactor_impl.cc:205-219). -/
def S.poll (s : S) (c : Bool) (k idle count : Nat) : S :=
  match s.q (tbl k) with
  | t :: l => if s.stage t = .claimed then s.miss c k idle count else s.hit c k count t l
  | [] => s.miss c k idle count

/-- What the thread of the reactor does next, unless it is in `epoll_wait`. -/
def S.react (s : S) : S :=
  match s.pc with
  | .top => { s with pc := .take s.stopped }
  | .take c => { s with pc := .inner c s.inner, inner := [] }.say [.begin c]
  | .inner c (t :: l) => { s with pc := .inner c l }.say [.runI t]
  | .inner c [] => { s with pc := .poll c 0 0 0 }
  | .poll c k idle count => s.poll c k idle count
  | .doze left => { s with polling := false, pc := if left then .wait false else .check1 }
  | .check1 => { s with pc := if s.inner ≠ [] then .awake else .check2 0 }
  | .check2 i => { s with pc := if i = 4 then .wait true else if s.q i ≠ [] then .awake else .check2 (i + 1) }
  | .awake => { s with polling := true, pc := .top }
  | .wait _ => s
  | .woke e => { s with polling := true, pc := .disp e }
  | .disp e => if e then (if s.cnt then { s with cnt := false, pc := .top } else { s with pc := .failed }) else { s with pc := .top }
  | .over => s
  | .failed => s

inductive Step (s : S) : S → Prop
  /-- `Push` gets a place (bounded_mpsc_queue.h:54-66) -/
  | acc (p : Nat) (hp : p < 4) (h : (s.q p).length < s.cap) :
      Step s ({ s with q := upd s.q p (s.q p ++ [s.next]), stage := upd s.stage s.next .claimed, next := s.next + 1 }.say [.acc p s.next])
  /-- `Push` fails (:67-70) -/
  | full (p : Nat) (hp : p < 4) (h : s.cap ≤ (s.q p).length) : Step s (s.say [.full p])
  /-- `Push` stores the task (:76-77) -/
  | pub (t : Nat) (h : s.stage t = .claimed) : Step s ({ s with stage := upd s.stage t .pushed }.say [.pub t])
  /-- `SubmitInnerTask` (reactor_impl.cc:152-157) -/
  | accI : Step s ({ s with inner := s.inner ++ [s.next], stage := upd s.stage s.next .pushed, next := s.next + 1 }.say [.accI s.next])
  /-- `if (!is_polling_)` (:125-127, :159-161) -/
  | ret (t : Nat) (h : s.stage t = .pushed) (hp : s.polling = true) : Step s ({ s with stage := upd s.stage t .done }.say [.ret t])
  | see (t : Nat) (h : s.stage t = .pushed) (hp : s.polling = false) : Step s { s with stage := upd s.stage t .waking }
  /-- `WakeUp` (eventfd_notifier.cc:62-68) -/
  | wake (t : Nat) (h : s.stage t = .waking) : Step s ({ s with stage := upd s.stage t .done, cnt := true, rdy := true }.say [.ret t])
  /-- `Stop` -/
  | stop : Step s { s with stopped := true }
  | react : Step s s.react
  /-- `epoll_wait` reports the eventfd -/
  | report (b : Bool) (hp : s.pc = .wait b) (h : s.cnt = true ∧ s.rdy = true) : Step s { s with rdy := false, pc := .woke true }
  /-- `epoll_wait` returns without it -/
  | other (b : Bool) (hp : s.pc = .wait b) (h : ¬ (s.cnt = true ∧ s.rdy = true)) : Step s { s with rdy := false, pc := .woke false }

inductive Reach (cap : Nat) : S → Prop
  | init : Reach cap (.init cap)
  | step {s s' : S} (h : Reach cap s) (hs : Step s s') : Reach cap s'

end Verif.Reactor.Tasks
