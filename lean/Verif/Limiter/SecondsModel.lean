import Verif.Common.Upd
/-!
# Per-second limiter (`trpc/overload_control/flow_control/seconds_limiter.{h,cc}`)

`CheckLimit` is called concurrently; its atomic actions are modelled one by one.  The clock is part
of the state.  64-bit overflow of the counters is not modelled (`Nat`).  The reporting of the result
(`seconds_limiter.cc:54-63`) is not modelled.
-/

namespace Verif.Limiter.Seconds

/-- `SecondsCounter` (seconds_limiter.h, struct in the private section): counter and the second it is
for. -/
structure Bucket where
  counter : Nat
  ts : Nat
deriving Repr, DecidableEq

/-- Where a thread is inside `CheckLimit`, with the second it read on entry (`nows`). -/
inductive PC
  | idle
  | entered (nows : Nat)   -- after line 39
  | wantLock (nows : Nat)  -- line 43 saw another second
  | locked (nows : Nat)    -- after line 45
  | reset (nows : Nat)     -- line 47 still saw another second
  | stamp (nows : Nat)     -- after line 48
  | unlock (nows : Nat)    -- end of the critical section
  | add (nows : Nat)       -- before line 52
deriving Repr, DecidableEq

/-- The second a running call works for. -/
def PC.second : PC → Option Nat
  | .idle => none
  | .entered n | .wantLock n | .locked n | .reset n | .stamp n | .unlock n | .add n => some n

/-- One decided request: the second it carries and whether it was admitted. -/
structure Decision where
  second : Nat
  admitted : Bool
deriving Repr, DecidableEq

/-- Shared state, clock (milliseconds), position of every thread, and the decisions taken so far in
the order of the counter increments. -/
structure Conf where
  clockMs : Nat
  lock : Option Nat
  bucket : Nat → Bucket
  pc : Nat → PC
  log : List Decision

/-- Constructor, seconds_limiter.cc:26-35. -/
def init (clockMs : Nat) : Conf :=
  { clockMs, lock := none, bucket := fun _ => ⟨0, 0⟩, pc := fun _ => .idle, log := [] }

/-- seconds_limiter.cc:26-27: the ring size in use for a configured `window_size`. -/
def ringSize (windowSize : Int) : Nat := if windowSize ≤ 0 then 10 else windowSize.toNat

/-- seconds_limiter.cc:52-53: the admission test applied to the value the increment returned
(`CheckLimit` returns "limited"; here: admitted). -/
def admits (limit : Int) (old : Nat) : Bool := !decide ((old : Int) + 1 > limit)

/-- One atomic step of thread `t` inside `CheckLimit`, seconds_limiter.cc:37-53.  `none`: not
enabled (waiting for the mutex). -/
def threadStep (w : Nat) (limit : Int) (c : Conf) (t : Nat) : Option Conf :=
  match c.pc t with
  | .idle => some { c with pc := upd c.pc t (.entered (c.clockMs / 1000)) }            -- :39
  | .entered n =>                                                                      -- :41-43
    some { c with pc := upd c.pc t (if (c.bucket (n % w)).ts ≠ n then .wantLock n else .add n) }
  | .wantLock n =>                                                                     -- :45
    if c.lock = none then some { c with lock := some t, pc := upd c.pc t (.locked n) } else none
  | .locked n =>                                                                       -- :46-47
    some { c with pc := upd c.pc t (if (c.bucket (n % w)).ts ≠ n then .reset n else .unlock n) }
  | .reset n =>                                                                        -- :48
    some { c with bucket := upd c.bucket (n % w) ⟨0, (c.bucket (n % w)).ts⟩,
                  pc := upd c.pc t (.stamp n) }
  | .stamp n =>                                                                        -- :49
    some { c with bucket := upd c.bucket (n % w) ⟨(c.bucket (n % w)).counter, n⟩,
                  pc := upd c.pc t (.unlock n) }
  | .unlock n => some { c with lock := none, pc := upd c.pc t (.add n) }               -- :51
  | .add n =>                                                                          -- :52-53
    some { c with
      bucket := upd c.bucket (n % w)
        ⟨(c.bucket (n % w)).counter + 1, (c.bucket (n % w)).ts⟩,
      pc := upd c.pc t .idle,
      log := c.log ++ [⟨n, admits limit (c.bucket (n % w)).counter⟩] }

/-- What can happen: the clock advances, or a thread makes a step. -/
inductive Act
  | tick (ms : Nat)
  | thread (t : Nat)
deriving Repr, DecidableEq

def step (w : Nat) (limit : Int) (c : Conf) : Act → Option Conf
  | .tick ms => some { c with clockMs := c.clockMs + ms }
  | .thread t => threadStep w limit c t

/-- A schedule. -/
def run (w : Nat) (limit : Int) (c : Conf) : List Act → Option Conf
  | [] => some c
  | a :: as => (step w limit c a).bind (fun c' => run w limit c' as)

/-- `GetCurrCounter`, seconds_limiter.cc:68-76 (executed without interruption). -/
def getCurrCounter (w : Nat) (c : Conf) : Nat :=
  let nows := c.clockMs / 1000
  if (c.bucket (nows % w)).ts ≠ nows then 0 else (c.bucket (nows % w)).counter

end Verif.Limiter.Seconds
