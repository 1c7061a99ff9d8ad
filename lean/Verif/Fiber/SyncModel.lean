import Verif.Common.Upd
/-!
# Mutex and condition variable of fibers and threads

`Mutex`, `ConditionVariable`, `Waitable` and `AsyncWaker` of `trpc/runtime/threadmodel/fiber/detail/waitable.{h,cc}`, on top of
`Suspend`, `Resume` of `scheduling/v1/scheduling_impl.cc:385-465` and `FutexNotifier` of `trpc/util/thread/futex_notifier.h`.
There is one mutex and one condition variable that is used with it, and any number of fibers and threads.  A step is one atomic
operation, one critical section of a `Waitable`, one spinlock operation, one system call or one context switch; memory is
sequentially consistent.

Simplified: a critical section of `Waitable::lock_` is one step; a lock step of a spinlock that is held does nothing (the caller
spins); the run queue is a set of fibers, of which any may be run next (the order is C52); of `Resume(self, to)` the part that
queues `self` may be done at any time after the switch; a timer may fire at any time after it was set (C50 says when it does).
The wait blocks are on the stack of their owner, so a block is named by its owner; a block that goes away while somebody else
still has to access it is undefined behaviour (`.ub`) at that moment.
Not modelled: scheduling groups (whether `unlock` switches to the next owner at once is a free choice), `satisfied` of a block
that waits for the mutex (a block is taken from the list only once), debug checks.
-/

namespace Verif.Fiber.Sync

/-- What `Mutex::lock` is called for: by the user, or at the end of `wait_until`, which is going to return `b` (waitable.cc:359,
    :374). -/
inductive K
  | user
  | back (b : Bool)
deriving DecidableEq, Repr

/-- What `Mutex::unlock` is called for: by the user, or in `wait_until` (waitable.cc:343, :370) of a fiber (with timer `g`, if
    `timed`) or of a thread (with the state `st` of the futex). -/
inductive U
  | user
  | wait (timed : Bool) (g st : Nat)
deriving DecidableEq, Repr

/-- Who calls `Resume`: `unlock` (`post` is the local variable `is_post`), `notify_one`, `notify_all`, the latter two by the owner
    of the mutex (`own`) or not. -/
inductive R
  | unlock (u : U) (post : Bool)
  | one (own : Bool)
  | all (own : Bool)
deriving DecidableEq, Repr

/-- What is waited for: the mutex, the condition variable, or to be run again after `Resume(self, to)`. -/
inductive W
  | mx (k : K)
  | cv (timed : Bool) (g : Nat)
  | dir (r : R)
deriving DecidableEq, Repr

/-- A thread that waits for the condition variable with a time limit. -/
def W.timed : W → Bool
  | .cv timed _ => timed
  | _ => false

/-- Where a thread is in waking another. -/
inductive Stage
  /-- waitable.cc:219, :381, :401 -/
  | look
  /-- `PostResume`, scheduling_impl.cc:457 -/
  | rlock
  /-- :459-462 -/
  | rset
  /-- :464 -/
  | rpush
  /-- `Resume(self, to)`, :440 -/
  | dlock
  /-- :441-443 -/
  | dset
  /-- :445 -/
  | dswap
  /-- `FutexNotifier::Wake`, futex_notifier.h:44 -/
  | fadd
  /-- :45 -/
  | fsys
deriving DecidableEq, Repr

inductive Pc
  /-- Not in a call; does not own the mutex. -/
  | out
  /-- Not in a call; owns the mutex. -/
  | own
  /-- `try_lock`, waitable.h:143; `always`: called by `lock` -/
  | try_ (always : Bool) (k : K)
  /-- `LockSlowFromFiber`, `LockSlowFromPthread`, waitable.cc:245, :284 -/
  | slow (k : K)
  /-- :248, :286 -/
  | add (k : K)
  /-- End of the scope, :252, :287 -/
  | free (k : K)
  /-- :257 -/
  | slk (k : K)
  /-- :259, :292 -/
  | enq (k : K)
  /-- :293 -/
  | st (k : K)
  /-- :266, :295 -/
  | rel (k : K) (st : Nat)
  /-- `Suspend`, scheduling_impl.cc:390-394 -/
  | susp (w : W)
  /-- :420, :423 -/
  | swap (w : W)
  /-- Not running. -/
  | parked (w : W)
  /-- :275 -/
  | check (k : K)
  /-- `FutexNotifier::Wait`, futex_notifier.h:78 -/
  | fwait (w : W) (st : Nat)
  /-- Sleeping in `FUTEX_WAIT`. -/
  | fasleep (w : W) (st : Nat)
  /-- :92 -/
  | fcheck (w : W) (st : Nat)
  /-- `unlock`, waitable.cc:198-199 -/
  | ul (u : U)
  /-- :201 -/
  | sub (u : U) (post : Bool)
  /-- :212 -/
  | usl (u : U) (post : Bool)
  /-- :213 -/
  | wake (u : U) (post : Bool)
  /-- :215 -/
  | urel (u : U) (post : Bool) (w : Nat)
  /-- `Resume` of `w` or `Wake` of its futex -/
  | res (g : Stage) (r : R) (w : Nat)
  /-- :446, after the switch -/
  | swapped (r : R)
  /-- `WakeOne` of the condition variable, waitable.cc:377, :394 -/
  | nwake (r : R)
  /-- `WaitUntilFromFiber`, :329 -/
  | cslk (timed : Bool)
  /-- :331 -/
  | cadd (timed : Bool)
  /-- :333-334 -/
  | ctimer
  /-- :338 -/
  | cpost (timed : Bool) (g : Nat)
  /-- :348 -/
  | crem (timed : Bool) (g : Nat)
  /-- :350-353, `RemoveTimer`, :72 -/
  | crm (g : Nat) (b : Bool)
  /-- :79-80 -/
  | cawake (g : Nat) (b : Bool)
  /-- `WaitUntilFromPthread`, :368 -/
  | padd (timed : Bool)
  /-- :369 -/
  | pst (timed : Bool)
  /-- :373 -/
  | prem (b : Bool)
deriving DecidableEq, Repr

/-- `FiberState`. -/
inductive FState
  | running | waiting | ready
deriving DecidableEq, Repr

/-- Where a timer of `AsyncWaker` is. -/
inductive TPc
  | unused
  | armed
  /-- Removed, or its function is done. -/
  | over
  /-- waitable.cc:42 -/
  | lock
  /-- :43 -/
  | look
  /-- :47 -/
  | exch
  /-- :51, `PostResume`, scheduling_impl.cc:457 -/
  | rlock
  /-- :459-462 -/
  | rset
  /-- :464 -/
  | rpush
  /-- waitable.cc:53 -/
  | unlock
deriving DecidableEq, Repr

/-- Who holds a spinlock or has a pointer to a wait block. -/
inductive Who
  | thr (t : Nat)
  | tim (g : Nat)
deriving DecidableEq, Repr

inductive Ev
  /-- `t` starts to wait for the mutex. -/
  | enq (t : Nat)
  /-- `t` owns the mutex. -/
  | acq (t : Nat)
  /-- `try_lock` of `t` returns `false`. -/
  | busy (t : Nat)
  /-- `t` gives the mutex up, by `unlock` or in `wait`. -/
  | rel (t : Nat)
  /-- `t` starts to wait for the condition variable. -/
  | wait (t : Nat)
  /-- A notification goes to `t`. -/
  | noted (t : Nat)
  /-- A notification finds nobody waiting. -/
  | nobody
  /-- The time of `t` is over. -/
  | tmo (t : Nat)
  /-- `wait` of `t` returns `b`; it owns the mutex. -/
  | back (t : Nat) (b : Bool)
  /-- A check fails. -/
  | crash
  /-- Undefined behaviour. -/
  | ub
deriving DecidableEq, Repr

structure St where
  /-- Which of the participants are fibers. -/
  fib : Nat → Bool
  /-- `Mutex::count_`. -/
  count : Nat
  /-- `Mutex::slow_path_lock_`: who holds it. -/
  slow : Option Nat
  /-- `Mutex::is_post_`. -/
  post : Bool
  /-- `Mutex::impl_.waiters_`. -/
  mq : List Nat
  /-- `ConditionVariable::impl_.waiters_`. -/
  cq : List Nat
  pc : Nat → Pc
  /-- `scheduler_lock`: who holds it. -/
  slk : Nat → Option Who
  /-- `FiberEntity::state`. -/
  fst : Nat → FState
  /-- The fiber is in the run queue. -/
  rdy : Nat → Bool
  /-- `WaitBlock::futex` of the block that waits for the mutex. -/
  mfut : Nat → Nat
  /-- `WaitBlock::futex` of the block that waits for the condition variable. -/
  cfut : Nat → Nat
  /-- `WaitBlock::satisfied` of the block that waits for the condition variable. -/
  sat : Nat → Bool
  /-- Who was given a pointer to the block that waits for the mutex, and has still to access it. -/
  mref : Nat → Option Who
  /-- Who was given a pointer to the block that waits for the condition variable, and has still to access it. -/
  cref : Nat → Option Who
  /-- The timers: where they are, whose they are, `WaitCb::lock`, `WaitCb::awake`. -/
  tm : Nat → TPc
  town : Nat → Nat
  tlock : Nat → Option Who
  tawake : Nat → Bool
  /-- The number of timers so far. -/
  ntm : Nat

def init (fib : Nat → Bool) : St :=
  { fib, count := 0, slow := none, post := false, mq := [], cq := [], pc := fun _ => .out, slk := fun _ => none,
    fst := fun _ => .running, rdy := fun _ => false, mfut := fun _ => 0, cfut := fun _ => 0, sat := fun _ => false,
    mref := fun _ => none, cref := fun _ => none, tm := fun _ => .unused, town := fun _ => 0, tlock := fun _ => none,
    tawake := fun _ => false, ntm := 0 }

def St.to (s : St) (t : Nat) (p : Pc) : St := { s with pc := upd s.pc t p }

/-- `lock` returns, `t` owns the mutex.  At the end of `wait_until` its block goes away. -/
def returned (s : St) (t : Nat) : K → St × List Ev
  | .user => (s.to t .own, [])
  | .back b => ({ s.to t .own with cref := upd s.cref t none }, (if s.cref t = none then [] else [.ub]) ++ [.back t b])

/-- `t` gets the mutex and `lock` returns. -/
def locked (s : St) (t : Nat) (k : K) : St × List Ev := ((returned s t k).1, .acq t :: (returned s t k).2)

/-- `LockSlowFromFiber`, `LockSlowFromPthread` return after a wait: the block goes away. -/
def lockedSlow (s : St) (t : Nat) (k : K) : St × List Ev :=
  ((locked { s with mref := upd s.mref t none } t k).1,
    (if s.mref t = none then [] else [.ub]) ++ (locked { s with mref := upd s.mref t none } t k).2)

/-- After `unlock`. -/
def unlocked (s : St) (t : Nat) : U → Pc
  | .user => .out
  | .wait timed g st => if s.fib t then .susp (.cv timed g) else .fwait (.cv timed g) st

/-- After `Resume` or `Wake`. -/
def resumed (s : St) (t : Nat) : R → Pc
  | .unlock u _ => unlocked s t u
  | .one own => if own then .own else .out
  | .all own => .nwake (.all own)

/-- What a wait continues with. -/
def after (s : St) (t : Nat) : W → Pc
  | .mx k => .check k
  | .cv timed g => .crem timed g
  | .dir r => resumed s t r

/-- `WakeOne` of the condition variable (waitable.cc:112-126): the blocks that are left, and the one that is taken. -/
def wakeOne (fib sat : Nat → Bool) : List Nat → List Nat × Option Nat
  | [] => ([], none)
  | w :: rest => if fib w && sat w then wakeOne fib sat rest else (rest, some w)

/-- `FutexNotifier::Wait` returns `b`. -/
def futexed (s : St) (t : Nat) (b : Bool) : W → St × List Ev
  | .mx k => lockedSlow s t k
  | .cv _ _ => (s.to t (.prem b), [])
  | .dir _ => (s, [])

/-- The state of the futex that is waited for. -/
def word (s : St) (t : Nat) : W → Nat
  | .mx _ => s.mfut t
  | _ => s.cfut t

/-- The fiber goes into the run queue; it must not be there yet. -/
def push (s : St) (w : Nat) : St × List Ev :=
  ({ s with rdy := upd s.rdy w true }, if s.rdy w then [.ub] else [])

/-- The next step of `t`.  `c` is a free choice where there is one. -/
def threadStep (s : St) (t : Nat) (c : Nat) : St × List Ev :=
  match s.pc t with
  | .out => (s, [])
  | .own => (s, [])
  | .try_ always k =>
    if s.count = 0 then locked { s with count := 1 } t k
    else if always then (s.to t (.slow k), []) else (s.to t .out, [.busy t])
  | .slow k => if s.slow = none then ({ s.to t (.add k) with slow := some t }, []) else (s, [])
  | .add k =>
    ({ s.to t (if s.count = 0 then .free k else if s.fib t then .slk k else .enq k) with
        count := (s.count + 1) % 2 ^ 32 }, [if s.count = 0 then .acq t else .enq t])
  | .free k => returned { s with slow := none } t k
  | .slk k => if s.slk t = none then ({ s.to t (.enq k) with slk := upd s.slk t (some (.thr t)) }, []) else (s, [])
  | .enq k =>
    ({ s.to t (if s.fib t then .rel k 0 else .st k) with mq := s.mq ++ [t], mfut := upd s.mfut t 0 }, [])
  | .st k => (s.to t (.rel k (s.mfut t)), [])
  | .rel k st => ({ s.to t (if s.fib t then .susp (.mx k) else .fwait (.mx k) st) with slow := none }, [])
  | .susp w =>
    if s.fst t = .running then ({ s.to t (.swap w) with fst := upd s.fst t .waiting }, []) else (s, [.crash])
  | .swap w => ({ s.to t (.parked w) with slk := upd s.slk t none }, [])
  | .parked _ => (s, [])
  | .check k => if t ∈ s.mq then (s, [.crash]) else lockedSlow s t k
  | .fwait w st =>
    if c = 2 ∧ w.timed = true then futexed s t false w
    else if word s t w = st then (s.to t (.fasleep w st), [])
    else futexed s t true w
  | .fasleep w st =>
    if c = 1 then (s.to t (.fwait w st), [])
    else if c = 2 ∧ w.timed = true then futexed s t false w
    else (s, [])
  | .fcheck w st =>
    if word s t w = st then (s.to t (.fwait w st), []) else futexed s t true w
  | .ul u => ({ s.to t (.sub u s.post) with post := false }, [])
  | .sub u post =>
    ({ s.to t (if s.count = 1 then unlocked s t u else .usl u post) with count := (s.count + (2 ^ 32 - 1)) % 2 ^ 32 },
      .rel t :: if s.count = 0 then [.crash] else [])
  | .usl u post => if s.slow = none then ({ s.to t (.wake u post) with slow := some t }, []) else (s, [])
  | .wake u post =>
    match s.mq with
    | [] => (s, [.crash])
    | w :: q => ({ s.to t (.urel u post w) with mq := q, mref := upd s.mref w (some (.thr t)) }, [])
  | .urel u post w => ({ s.to t (.res .look (.unlock u post) w) with slow := none }, [])
  | .res .look r w =>
    if s.fib w then
      match r with
      | .unlock _ post => (s.to t (if post = false ∧ s.fib t ∧ c = 1 then .res .dlock r w else .res .rlock r w), [])
      | _ => (s.to t (.res .rlock r w), [])
    else (s.to t (.res .fadd r w), [])
  | .res .rlock r w => if s.slk w = none then ({ s.to t (.res .rset r w) with slk := upd s.slk w (some (.thr t)) }, []) else (s, [])
  | .res .rset r w =>
    ({ s.to t (.res .rpush r w) with fst := upd s.fst w .ready, slk := upd s.slk w none }, [])
  | .res .rpush r w =>
    (({ (push s w).1 with
        mref := match r with | .unlock _ _ => upd s.mref w none | _ => s.mref,
        cref := match r with | .unlock _ _ => s.cref | _ => upd s.cref w none }).to t (resumed s t r), (push s w).2)
  | .res .dlock r w => if s.slk w = none then ({ s.to t (.res .dset r w) with slk := upd s.slk w (some (.thr t)) }, []) else (s, [])
  | .res .dset r w => ({ s.to t (.res .dswap r w) with fst := upd s.fst w .running, slk := upd s.slk w none }, [])
  | .res .dswap r w =>
    match s.pc w with
    | .parked x => ({ (s.to t (.swapped r)).to w (after s w x) with mref := upd s.mref w none }, [])
    | _ => (s, [.ub])
  | .swapped r =>
    if s.slk t = none then
      (({ (push s t).1 with fst := upd s.fst t .ready }).to t (.parked (.dir r)), (push s t).2)
    else (s, [])
  | .res .fadd r w =>
    (match r with
      | .unlock _ _ => { s.to t (.res .fsys r w) with mfut := upd s.mfut w (s.mfut w + 2), mref := upd s.mref w none }
      | _ => { s.to t (.res .fsys r w) with cfut := upd s.cfut w (s.cfut w + 2), cref := upd s.cref w none }, [])
  | .res .fsys r w =>
    (({ s with pc := match s.pc w with | .fasleep x st => upd s.pc w (.fcheck x st) | _ => s.pc }).to t (resumed s t r), [])
  | .nwake r =>
    match wakeOne s.fib s.sat s.cq with
    | (q, none) =>
      ({ s.to t (match r with | .one own => if own then .own else .out | .all own => if own then .own else .out
                              | .unlock _ _ => .out) with cq := q }, [.nobody])
    | (q, some w) =>
      ({ s.to t (.res .look r w) with cq := q, sat := (if s.fib w then upd s.sat w true else s.sat),
                                      cref := upd s.cref w (some (.thr t)) }, [.noted w])
  | .cslk timed =>
    if s.slk t = none then ({ s.to t (.cadd timed) with slk := upd s.slk t (some (.thr t)) }, []) else (s, [])
  | .cadd timed =>
    ({ s.to t (if timed then .ctimer else .cpost false 0) with cq := s.cq ++ [t], sat := upd s.sat t false,
                                                                cfut := upd s.cfut t 0 }, [.wait t])
  | .ctimer =>
    ({ s.to t (.cpost true s.ntm) with tm := upd s.tm s.ntm .armed, town := upd s.town s.ntm t, ntm := s.ntm + 1 }, [])
  | .cpost timed g => ({ s.to t (.ul (.wait timed g 0)) with post := true }, [])
  | .crem timed g =>
    let b := !decide (t ∈ s.cq)
    ({ s.to t (if timed then .crm g b else .try_ true (.back b)) with cq := s.cq.erase t }, [])
  | .crm g b => ({ s.to t (.cawake g b) with tm := if s.tm g = .armed then upd s.tm g .over else s.tm }, [])
  | .cawake g b =>
    if s.tlock g = none then ({ s.to t (.try_ true (.back b)) with tawake := upd s.tawake g true }, []) else (s, [])
  | .padd timed =>
    ({ s.to t (.pst timed) with cq := s.cq ++ [t], sat := upd s.sat t false, cfut := upd s.cfut t 0 }, [.wait t])
  | .pst timed => (s.to t (.ul (.wait timed 0 (s.cfut t))), [])
  | .prem b =>
    ({ s.to t (.try_ true (.back b)) with cq := s.cq.erase t }, if t ∈ s.cq then [.tmo t] else [])

/-- The next step of the function of a timer, waitable.cc:40-53. -/
def timerStep (s : St) (g : Nat) : St × List Ev :=
  let o := s.town g
  match s.tm g with
  | .unused => (s, [])
  | .armed => (s, [])
  | .over => (s, [])
  | .lock => if s.tlock g = none then ({ s with tm := upd s.tm g .look, tlock := upd s.tlock g (some (.tim g)) }, []) else (s, [])
  | .look => ({ s with tm := upd s.tm g (if s.tawake g then .unlock else .exch) }, [])
  | .exch =>
    if s.sat o then ({ s with tm := upd s.tm g .unlock }, if s.tawake g then [.ub] else [])
    else ({ s with tm := upd s.tm g .rlock, sat := upd s.sat o true, cref := upd s.cref o (some (.tim g)) },
          (if s.tawake g then [.ub] else []) ++ [.tmo o])
  | .rlock => if s.slk o = none then ({ s with tm := upd s.tm g .rset, slk := upd s.slk o (some (.tim g)) }, []) else (s, [])
  | .rset => ({ s with tm := upd s.tm g .rpush, fst := upd s.fst o .ready, slk := upd s.slk o none }, [])
  | .rpush => ({ (push s o).1 with tm := upd s.tm g .unlock, cref := upd s.cref o none }, (push s o).2)
  | .unlock => ({ s with tm := upd s.tm g .over, tlock := upd s.tlock g none }, [])

/-- A call by the user. -/
inductive Call
  | lock | tryLock | unlock | wait (timed : Bool) | one | all
deriving DecidableEq, Repr

/-- `t` calls a function: `lock`, `try_lock` only if it does not own the mutex, `unlock`, `wait` only if it does. -/
def callStep (s : St) (t : Nat) (c : Call) : St :=
  match s.pc t, c with
  | .out, .lock => s.to t (.try_ true .user)
  | .out, .tryLock => s.to t (.try_ false .user)
  | .out, .one => s.to t (.nwake (.one false))
  | .out, .all => s.to t (.nwake (.all false))
  | .own, .unlock => s.to t (.ul .user)
  | .own, .wait timed => s.to t (if s.fib t then .cslk timed else .padd timed)
  | .own, .one => s.to t (.nwake (.one true))
  | .own, .all => s.to t (.nwake (.all true))
  | _, _ => s

/-- A worker takes the fiber from the run queue and runs it (scheduling_impl.cc:409-420, also :135-143). -/
def runStep (s : St) (t : Nat) : St × List Ev :=
  if s.rdy t then
    if s.fst t = .ready then
      match s.pc t with
      | .parked w => ({ s.to t (after s t w) with rdy := upd s.rdy t false, fst := upd s.fst t .running }, [])
      | _ => (s, [.ub])
    else (s, [.crash])
  else (s, [])

inductive Act
  | call (t : Nat) (c : Call)
  | step (t c : Nat)
  | run (t : Nat)
  /-- The time of a timer is over. -/
  | fire (g : Nat)
  | timer (g : Nat)
deriving DecidableEq, Repr

def step (s : St) : Act → St × List Ev
  | .call t c => (callStep s t c, [])
  | .step t c => threadStep s t c
  | .run t => runStep s t
  | .fire g => ({ s with tm := if s.tm g = .armed then upd s.tm g .lock else s.tm }, [])
  | .timer g => timerStep s g

def run (s : St) (tr : List Ev) : List Act → St × List Ev
  | [] => (s, tr)
  | a :: rest => run (step s a).1 (tr ++ (step s a).2) rest

end Verif.Fiber.Sync
