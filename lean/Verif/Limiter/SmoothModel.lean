import Verif.Common.Upd
/-!
# Sliding window limiter (`trpc/overload_control/flow_control/{hit_queue,smooth_limiter}.{h,cc}`)

Calls are atomic in this file (requests and timer ticks interleave at call granularity).  64-bit
overflow of the counters is not modelled.
-/

namespace Verif.Limiter.Smooth

/-- `HitQueue`: `n` is the window size; the array has `n + 1` slots (hit_queue.h:60-71). -/
structure HitQueue where
  n : Nat
  hits : Nat → Nat
  begin : Nat

/-- hit_queue.h:63 `NextIndex`. -/
def HitQueue.nextIndex (q : HitQueue) (i : Nat) : Nat := (i + 1) % (q.n + 1)

/-- hit_queue.cc:24-28 constructor. -/
def HitQueue.init (n : Nat) : HitQueue := { n, hits := fun _ => 0, begin := 0 }

/-- hit_queue.cc:32-39 `NextFrame`. -/
def HitQueue.nextFrame (q : HitQueue) : HitQueue :=
  let e := (q.begin + q.n) % (q.n + 1)
  { q with hits := upd q.hits e 0, begin := q.nextIndex q.begin }

/-- hit_queue.cc:49-57 the summation loop; `fuel` bounds the number of iterations, `none` when it does
not suffice (the loop would not have ended). -/
def HitQueue.sumLoop (q : HitQueue) : Nat → Nat → Nat → Nat → Option Nat
  | 0, i, e, acc => if i ≠ e then none else some acc
  | fuel + 1, i, e, acc => if i ≠ e then q.sumLoop fuel (q.nextIndex i) e (acc + q.hits i) else some acc

/-- hit_queue.cc:49-57 `ActiveSum`. -/
def HitQueue.activeSum (q : HitQueue) : Option Nat :=
  q.sumLoop (q.n + 1) q.begin ((q.begin + q.n) % (q.n + 1)) 0

/-- hit_queue.cc:41-47 `AddHit`. -/
def HitQueue.addHit (q : HitQueue) : HitQueue × Option Nat :=
  let cur := (q.begin + q.n - 1) % (q.n + 1)
  let q' := { q with hits := upd q.hits cur (q.hits cur + 1) }
  (q', q'.activeSum)

/-- smooth_limiter.cc:28-31: the number of frames in use for a configured `window_size`. -/
def frames (windowSize : Int) : Nat := if windowSize ≤ 0 then 100 else windowSize.toNat

/-- smooth_limiter.cc:40-51 `CheckLimit`; the result is "admitted" (the negation of what the function
returns), `none` if a loop does not end. -/
def checkLimit (limit : Int) (q : HitQueue) : Option (HitQueue × Bool) :=
  match q.activeSum with
  | none => none
  | some s =>
    if (s : Int) ≥ limit then some (q, false)
    else
      match q.addHit with
      | (q', some h) => some (q', !decide ((h : Int) > limit))
      | (_, none) => none

/-- What happens to a limiter: a request arrives, or the timer fires (tick_timer.cc:37-45). -/
inductive Op
  | request
  | tick
deriving Repr, DecidableEq

/-- One event and its observable result (`none` for a tick). -/
def step (limit : Int) (q : HitQueue) : Op → Option (HitQueue × Option Bool)
  | .request => (checkLimit limit q).map (fun r => (r.1, some r.2))
  | .tick => some (q.nextFrame, none)

/-- A history: the observable results in order. -/
def run (limit : Int) (q : HitQueue) : List Op → Option (HitQueue × List (Option Bool))
  | [] => some (q, [])
  | o :: os =>
    match step limit q o with
    | none => none
    | some (q', r) => (run limit q' os).map (fun x => (x.1, r :: x.2))

end Verif.Limiter.Smooth
