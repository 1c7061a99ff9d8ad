import Verif.Common.Upd

/-!
# Tasks of the periphery scheduler

/repo/trpc/runtime/common/periphery_task_scheduler.{h,cc}

One task, from the moment at which `CreateAndSubmitTask` (.cc:238-254) has returned; any number of workers; the thread that has the id of the task and calls one function after the other with it; and the threads that stop the scheduler and wait for
its end. Other tasks have fields of their own and only make workers busy. Interleavings of single accesses, apart from those under the mutex of the task, or that of the queue.

* `ref` is the reference count (ref_ptr.h), `freed`: it has come to zero. `bad`: the task was accessed after that.
* `q`: how often the task is in the queue.
* `now` is the clock, `iv k` what `interval_gen_func` returns the `k`-th time.
* `hist` are the times at which the callback was started, `res` what the functions returned.
* `naive`: `JoinTask` is called also after a `StopTask` that returned false. `calm`: no call is under way when `Join` empties the queue.
* Left out: `clean_cb_`; the scheduler itself, which is destroyed after `Join`; sums of times that are too big.
-/

namespace Verif.Runtime.Periphery

inductive Call where
  | stop
  | remove
  | detach
  | join
deriving DecidableEq, Repr

/-- A worker: at the head of its loop; has seen that it need not stop; has taken the task; runs the callback; has run it; will push the task again; will drop it; has left. -/
inductive W where
  | loop
  | wait
  | got
  | run
  | ran
  | push
  | drop
  | off
deriving DecidableEq, Repr

def W.has : W → Bool
  | .loop => false
  | .wait => false
  | .off => false
  | _ => true

/-- The thread that has the id: has adopted the pointer and will look at the count; has found nothing; will lock and cancel; will lock, to wait; has a predicate that refers to the task; sleeps; has dropped that predicate; will drop the pointer. -/
inductive O where
  | idle
  | look (c : Call)
  | fail (c : Call)
  | cancel (c : Call)
  | enter
  | test
  | sleep
  | again
  | woken
  | fin (c : Call) (r : Bool)
deriving DecidableEq, Repr

/-- The id: not used yet; stopped; may not be used any more. -/
inductive Tok where
  | fresh
  | stopped
  | gone
deriving DecidableEq, Repr

/-- `Stop` and `Join` of the scheduler: the workers have ended; the task is at the head of the queue; it will be popped; the queue is empty. -/
inductive D where
  | run
  | head
  | pop
  | over
deriving DecidableEq, Repr

structure S where
  periodic : Bool
  cancelled : Bool
  running : Bool
  done : Bool
  at_ : Nat
  ref : Nat
  freed : Bool
  bad : Bool
  q : Nat
  wk : Nat → W
  o : O
  tok : Tok
  res : List (Call × Bool)
  exited : Bool
  d : D
  now : Nat
  hist : List Nat

/-- A task that was submitted at `t0`, and `n` workers. -/
def S.init (periodic : Bool) (t0 n : Nat) : S :=
  ⟨periodic, false, false, false, t0, 2, false, false, 1, fun i => if i < n then .loop else .off, .idle, .fresh, [], false, .run, t0, []⟩

def S.w (s : S) (i : Nat) (x : W) : S := { s with wk := upd s.wk i x }

def S.owner (s : S) (x : O) : S := { s with o := x }

/-- An access to the task. -/
def S.touch (s : S) : S := { s with bad := s.bad || s.freed }

/-- `Ref` -/
def S.up (s : S) : S := { s with ref := s.ref + 1, bad := s.bad || s.freed }

/-- `Deref` -/
def S.down (s : S) : S := { s with ref := s.ref - 1, freed := s.freed || s.ref == 1, bad := s.bad || s.freed }

/-- The function returns. -/
def S.ret (s : S) (c : Call) (r : Bool) (t : Tok) : S := { s with o := .idle, res := (c, r) :: s.res, tok := t }

/-- What the comments of the functions allow. -/
def allowed (naive : Bool) (s : S) (c : Call) : Prop :=
  s.tok = .fresh ∨ s.tok = .stopped ∧ c ≠ .stop ∨ naive = true ∧ c = .join ∧ s.res = [(.stop, false)]

/-- The condition of `JoinTaskImpl` (.cc:170-173) -/
def S.ended (s : S) : Bool := s.exited || s.done || (s.cancelled && !s.running)

inductive Step (iv : Nat → Nat) (naive calm : Bool) : S → S → Prop
  | tick {s : S} : Step iv naive calm s { s with now := s.now + 1 }
  /-- `Schedule` (.cc:178-207) -/
  | check {s : S} (i : Nat) (h : s.wk i = .loop) (he : s.exited = false) : Step iv naive calm s (s.w i .wait)
  | leave {s : S} (i : Nat) (h : s.wk i = .loop ∨ s.wk i = .wait) (he : s.exited = true) : Step iv naive calm s (s.w i .off)
  | nothing {s : S} (i : Nat) (h : s.wk i = .wait) : Step iv naive calm s (s.w i .loop)
  | take {s : S} (i : Nat) (h : s.wk i = .wait) (hq : 0 < s.q) (ht : s.at_ ≤ s.now) : Step iv naive calm s ({ s with q := s.q - 1 }.touch.w i .got)
  /-- `TaskProc` (.cc:209-236) -/
  | cancelled {s : S} (i : Nat) (h : s.wk i = .got) (hc : s.cancelled = true) : Step iv naive calm s ({ s with done := true }.touch.w i .drop)
  | begin {s : S} (i : Nat) (h : s.wk i = .got) (hc : s.cancelled = false) : Step iv naive calm s ({ s with running := true, hist := s.hist ++ [s.now] }.touch.w i .run)
  | finish {s : S} (i : Nat) (h : s.wk i = .run) : Step iv naive calm s (s.w i .ran)
  | last {s : S} (i : Nat) (h : s.wk i = .ran) (hc : s.periodic = false ∨ s.cancelled = true) : Step iv naive calm s ({ s with running := false, done := true }.touch.w i .drop)
  | next {s : S} (i : Nat) (h : s.wk i = .ran) (hp : s.periodic = true) (hc : s.cancelled = false) :
      Step iv naive calm s ({ s with running := false, at_ := s.at_ + iv (s.hist.length - 1) }.touch.w i .push)
  | push {s : S} (i : Nat) (h : s.wk i = .push) : Step iv naive calm s ({ s with q := s.q + 1 }.touch.w i .loop)
  | drop {s : S} (i : Nat) (h : s.wk i = .drop) : Step iv naive calm s (s.down.w i .loop)
  /-- after the end: .cc:117-120, 144-146, 157-160 -/
  | late {s : S} (c : Call) (h : s.o = .idle) (ha : allowed naive s c) (he : s.exited = true) : Step iv naive calm s (s.ret c false s.tok)
  | call {s : S} (c : Call) (h : s.o = .idle) (ha : allowed naive s c) (he : s.exited = false) : Step iv naive calm s (s.owner (.look c))
  /-- `GetTaskPtr` (.cc:104-114) -/
  | missing {s : S} (c : Call) (h : s.o = .look c) (hr : s.ref ≤ 1) : Step iv naive calm s (s.touch.owner (.fail c))
  | failed {s : S} (c : Call) (h : s.o = .fail c) : Step iv naive calm s (s.down.ret c false .gone)
  | found {s : S} (c : Call) (h : s.o = .look c) (hr : 1 < s.ref) :
      Step iv naive calm s (s.touch.owner (match c with | .stop => .cancel .stop | .remove => .cancel .remove | .detach => .fin .detach true | .join => .enter))
  /-- `StopAndDestroyTask` (.cc:127-132) -/
  | cancelStop {s : S} (h : s.o = .cancel .stop) : Step iv naive calm s ({ s with cancelled := true }.up.owner (.fin .stop true))
  | cancelRemove {s : S} (h : s.o = .cancel .remove) : Step iv naive calm s ({ s with cancelled := true }.touch.owner (.fin .remove true))
  /-- `JoinTaskImpl` (.cc:167-175); `wait_for` tests, sleeps until it is notified or the time is over, and tests again -/
  | enter {s : S} (h : s.o = .enter) : Step iv naive calm s (s.up.owner .test)
  | yes {s : S} (h : s.o = .test) (hc : s.ended = true) : Step iv naive calm s (s.touch.down.owner .woken)
  | no {s : S} (h : s.o = .test) (hc : s.ended = false) : Step iv naive calm s (s.touch.owner .sleep)
  | wake {s : S} (h : s.o = .sleep) : Step iv naive calm s (s.touch.owner .test)
  | timeout {s : S} (h : s.o = .sleep) (hc : s.ended = false) : Step iv naive calm s (s.touch.down.owner .again)
  | again {s : S} (h : s.o = .again) : Step iv naive calm s (s.up.owner .test)
  | unlock {s : S} (h : s.o = .woken) : Step iv naive calm s (s.touch.owner (.fin .join true))
  | fin {s : S} (c : Call) (r : Bool) (h : s.o = .fin c r) : Step iv naive calm s (s.down.ret c r (if c = .stop then .stopped else .gone))
  /-- `Stop`, `Join` (.cc:43-71) -/
  | exit {s : S} (h : s.exited = false) : Step iv naive calm s { s with exited := true }
  | joined {s : S} (h : s.d = .run) (he : s.exited = true) (hw : ∀ i, s.wk i = .off) (hc : calm = true → s.o = .idle) : Step iv naive calm s { s with d := .head }
  | more {s : S} (h : s.d = .head) (hq : 0 < s.q) (hr : 1 < s.ref) : Step iv naive calm s { s.touch.down with d := .pop, tok := .gone }
  | one {s : S} (h : s.d = .head) (hq : 0 < s.q) (hr : s.ref ≤ 1) : Step iv naive calm s { s.touch with d := .pop }
  | pop {s : S} (h : s.d = .pop) : Step iv naive calm s { s.down with d := .head, q := s.q - 1 }
  | over {s : S} (h : s.d = .head) (hq : s.q = 0) : Step iv naive calm s { s with d := .over }

inductive Reach (iv : Nat → Nat) (naive calm periodic : Bool) (t0 n : Nat) : S → Prop
  | init : Reach iv naive calm periodic t0 n (.init periodic t0 n)
  | step {s s' : S} (h : Reach iv naive calm periodic t0 n s) (hs : Step iv naive calm s s') : Reach iv naive calm periodic t0 n s'

inductive Steps (iv : Nat → Nat) (naive calm : Bool) : S → S → Prop
  | refl {s : S} : Steps iv naive calm s s
  | tail {s t u : S} (h : Steps iv naive calm s t) (hs : Step iv naive calm t u) : Steps iv naive calm s u

/-- The time of the `k`-th run, from 0. -/
def due (iv : Nat → Nat) (t0 : Nat) : Nat → Nat
  | 0 => t0
  | k + 1 => due iv t0 k + iv k

end Verif.Runtime.Periphery
