/-!
# The asynchronous `Semaphore` and `RWLock` (`trpc/future/async_lock/semaphore.h`, `rwlock.h`)

Fulfilling a promise runs the callback attached to it at once (inline executor) or later, so user code can call the
semaphore from inside `Signal` and `Broke`.  A call of user code is an action; the state keeps the stack of library
calls whose callback is running.  `ret` returns from the innermost callback.  A callback that runs later (reactor
executor) is a `ret` followed by calls from the outside.  Every sequence of actions is a possible behaviour.

Not modelled: the check of the worker thread (all calls are on the owning thread; `Broke` has no such check), failure
of `new`, destruction of the semaphore from a callback.  `count_` has 64 bits; `doing_` and the list sizes are
unbounded.
-/

namespace Verif.Future.Sem

/-- A waiter: its number in order of arrival and the units it asked for (`entry`, semaphore.h:49-54). -/
structure Entry where
  id : Nat
  num : Nat
deriving DecidableEq, Repr

/-- A library call that is running a callback. -/
inductive Frame
  /-- `Signal` with the rest of its `ready_list`. -/
  | sig (ready : List Entry)
  /-- `Broke`, in the callback of the waiter it has just failed. -/
  | brk
deriving DecidableEq, Repr

structure St where
  count : Nat
  waiting : List Entry
  broken : Bool
  doing : Nat
  stack : List Frame
  /-- The promise of the first waiter has already been failed. -/
  frontSet : Bool
  /-- The program has crashed. -/
  dead : Bool
  /-- Number of waiters queued so far (numbering only). -/
  next : Nat
deriving DecidableEq, Repr

/-- What user code observes. -/
inductive Ev
  | granted (num : Nat)
  | queued (e : Entry)
  | refused
  | tried (num : Nat) (ok : Bool)
  | signalled (num : Nat) (ok : Bool)
  | resolved (e : Entry)
  | rejected (e : Entry)
  | broke
  | crash
deriving DecidableEq, Repr

inductive Act
  | wait (num : Nat)
  | tryWait (num : Nat)
  | signal (num : Nat)
  | broke
  | ret
deriving DecidableEq, Repr

/-- Constructor, semaphore.h:87-89. -/
def init (units : Nat) : St := ⟨units, [], false, 0, [], false, false, 0⟩

/-- `MayProceed`, :66-72. -/
def mayProceed (s : St) (num : Nat) : Bool := decide (num ≤ s.count) && s.waiting.isEmpty

/-- `Wait`, :104-131. -/
def wait (s : St) (num : Nat) : St × List Ev :=
  if mayProceed s num then ({ s with count := s.count - num }, [.granted num])
  else if s.broken then (s, [.refused])
  else ({ s with waiting := s.waiting ++ [⟨s.next, num⟩], next := s.next + 1 }, [.queued ⟨s.next, num⟩])

/-- `TryWait`, :179-189. -/
def tryWait (s : St) (num : Nat) : St × List Ev :=
  if mayProceed s num then ({ s with count := s.count - num }, [.tried num true]) else (s, [.tried num false])

/-- The scan of `Signal`, :154-158: what is left of the units, the ready list and the waiters kept. -/
def scan : Nat → List Entry → Nat × List Entry × List Entry
  | count, [] => (count, [], [])
  | count, e :: w =>
    if e.num ≤ count then ((scan (count - e.num) w).1, e :: (scan (count - e.num) w).2.1, (scan (count - e.num) w).2.2)
    else (count, [], e :: w)

/-- The second loop of `Signal`, :161-166, up to the next callback or the return. -/
def serve (s : St) : List Entry → St × List Ev
  | [] => (s, [])
  | e :: r => ({ s with doing := s.doing - 1, stack := .sig r :: s.stack }, [.resolved e])

/-- `Signal`, :139-173. -/
def signal (s : St) (num : Nat) : St × List Ev :=
  if s.broken then (s, [.signalled num false])
  else
    let s := { s with count := (s.count + num) % 2 ^ 64 }
    if s.doing > 0 then (s, [.signalled num true])
    else
      let r := scan s.count s.waiting
      let s := { s with count := r.1, waiting := r.2.2, doing := r.2.1.length }
      ((serve s r.2.1).1, .signalled num true :: (serve s r.2.1).2)

/-- The loop of `Broke`, :201-205, up to the next callback or the return.  A promise that is already failed
does not run its callback again (`future.h`:633-647). -/
def fail (s : St) : List Entry → St × List Ev
  | [] => ({ s with waiting := [] }, [])
  | e :: w =>
    if s.frontSet then
      match w with
      | [] => ({ s with waiting := [], frontSet := false }, [])
      | e' :: w' => ({ s with waiting := e' :: w', frontSet := true, stack := .brk :: s.stack }, [.rejected e'])
    else ({ s with waiting := e :: w, frontSet := true, stack := .brk :: s.stack }, [.rejected e])

/-- `Broke`, :194-207. -/
def broke (s : St) : St × List Ev :=
  let s := { s with broken := true, count := 0 }
  ((fail s s.waiting).1, .broke :: (fail s s.waiting).2)

/-- The innermost callback returns; `Broke` removes the first waiter, which crashes if there is none
(`singly_linked_list.h`:178-187). -/
def ret (s : St) : St × List Ev :=
  match s.stack with
  | [] => (s, [])
  | .sig r :: fs => serve { s with stack := fs } r
  | .brk :: fs =>
    match s.waiting with
    | [] => ({ s with dead := true }, [.crash])
    | _ :: w => fail { s with stack := fs, frontSet := false } w

def step (s : St) (a : Act) : St × List Ev :=
  if s.dead then (s, [])
  else match a with
    | .wait n => wait s n
    | .tryWait n => tryWait s n
    | .signal n => signal s n
    | .broke => broke s
    | .ret => ret s

/-- The state and the events after a sequence of actions. -/
def run : St → List Ev → List Act → St × List Ev
  | s, tr, [] => (s, tr)
  | s, tr, a :: as => run (step s a).1 (tr ++ (step s a).2) as

/-- `Waiters`, :211. -/
def waiters (s : St) : Nat := s.waiting.length

/-- `AvailableUnits`, :209. -/
def available (s : St) : Nat := s.count

/-! ## `RWLock` -/

/-- `max_ops_`, rwlock.h:83. -/
def maxOps : Nat := 2 ^ 64 - 1

inductive RWAct
  | readLock | readUnlock | writeLock | writeUnlock | tryRead | tryWrite | ret
deriving DecidableEq, Repr

/-- rwlock.h:47-76. -/
def RWAct.act : RWAct → Act
  | .readLock => .wait 1
  | .readUnlock => .signal 1
  | .writeLock => .wait maxOps
  | .writeUnlock => .signal maxOps
  | .tryRead => .tryWait 1
  | .tryWrite => .tryWait maxOps
  | .ret => .ret

/-- Constructor, rwlock.h:28. -/
def rwInit : St := init maxOps

end Verif.Future.Sem
