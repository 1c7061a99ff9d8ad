import Verif.Overload.Priority

/-!
# The throttler of clients

/repo/trpc/overload_control/throttler/: throttler_ema.cc, throttler.cc, throttler_priority_impl.cc, throttler_overload_controller.cc, throttler_client_filter.cc.

* Doubles are rational numbers without rounding, times are integers (nanoseconds).
* What is done under the spin lock is one step; when `try_lock` fails, `OnRequest` uses the totals as they are and `OnResponse` does nothing (`lock = false`).
* The tokens are a machine: every `fetch_add` and `fetch_sub` is a step, `undo` counts the calls between the two.
-/

namespace Verif.Overload

/-! ## `ThrottlerEma` (throttler_ema.cc) -/

structure EmaCfg where
  factor : Rat
  interval : Int
  reset : Int

structure Ema where
  last : Int
  total : Rat
deriving DecidableEq

/-- The loop of `Advance` (:45-48); `none`: still running after `fuel` rounds. -/
def Ema.loop (c : EmaCfg) (now : Int) : Nat → Ema → Option Ema
  | 0, e => if c.interval < now - e.last then none else some e
  | n + 1, e => if c.interval < now - e.last then Ema.loop c now n ⟨e.last + c.interval, e.total * c.factor⟩ else some e

/-- `Advance` (:37-49). -/
def Ema.advance (c : EmaCfg) (now : Int) (fuel : Nat) (e : Ema) : Option Ema :=
  if c.reset < now - e.last then some ⟨now, 0⟩ else e.loop c now fuel

/-- `Add` (:23-26). -/
def Ema.add (c : EmaCfg) (now : Int) (fuel : Nat) (e : Ema) (v : Rat) : Option Ema := (e.advance c now fuel).map fun e => { e with total := e.total + v }

/-! ## `Throttler` (throttler.cc) -/

structure ThrCfg where
  ratio : Rat
  padding : Rat
  maxP : Rat
  ema : EmaCfg

structure Thr where
  acc : Ema
  thr : Ema
deriving DecidableEq

/-- The probability of a refusal (:43-52). -/
def prob (c : ThrCfg) (accepts throttles : Rat) : Rat :=
  let requests := accepts + throttles
  min ((requests - accepts * c.ratio) / (requests + c.padding)) c.maxP

/-- `OnRequest` (:27-55): `u` is the random number. -/
def Thr.onRequest (c : ThrCfg) (t : Thr) (now : Int) (fuel : Nat) (lock : Bool) (u : Rat) : Option (Thr × Bool) :=
  if lock then
    match t.acc.advance c.ema now fuel, t.thr.advance c.ema now fuel with
    | some a, some b => some (⟨a, b⟩, decide (prob c a.total b.total < u))
    | _, _ => none
  else some (t, decide (prob c t.acc.total t.thr.total < u))

/-- `OnResponse` (:57-70). -/
def Thr.onResponse (c : ThrCfg) (t : Thr) (now : Int) (fuel : Nat) (lock throttled : Bool) : Option Thr :=
  if lock then
    if throttled then (t.thr.add c.ema now fuel 1).map fun e => { t with thr := e }
    else (t.acc.add c.ema now fuel 1).map fun e => { t with acc := e }
  else some t

/-! ## `ThrottlerPriorityImpl` (throttler_priority_impl.cc) -/

structure Tok where
  avail : Int
  /-- calls that have added a token and will take it back -/
  undo : Nat
  /-- ghosts: tokens borrowed by requests of a high priority, paid back by normal ones, filled by those of a low one -/
  borrowed : Nat
  repaid : Nat
  filled : Nat
  /-- ghosts: requests that were let through although the throttler refused, requests that were refused although it did not -/
  forced : Nat
  dropped : Nat
deriving DecidableEq

def Tok.init : Tok := ⟨0, 0, 0, 0, 0, 0, 0⟩

inductive TStep : Tok → Tok → Prop
  /-- `MustOnRequest`, the throttler refuses (:23-31) -/
  | must {t : Tok} : TStep t { t with avail := t.avail - 1, borrowed := t.borrowed + 1, forced := t.forced + 1 }
  /-- `OnRequest`, the throttler agrees: `fetch_add` (:39) finds a debt, the request is refused -/
  | repay {t : Tok} (h : t.avail < 0) : TStep t { t with avail := t.avail + 1, repaid := t.repaid + 1, dropped := t.dropped + 1 }
  /-- or not, it passes -/
  | pass {t : Tok} (h : ¬ t.avail < 0) : TStep t { t with avail := t.avail + 1, undo := t.undo + 1 }
  /-- `FillToken` (:61-65): there is room -/
  | fill {t : Tok} (h : ¬ 30 < t.avail) : TStep t { t with avail := t.avail + 1, filled := t.filled + 1 }
  | full {t : Tok} (h : 30 < t.avail) : TStep t { t with avail := t.avail + 1, undo := t.undo + 1 }
  /-- `fetch_sub` (:46, :63) -/
  | undo {t : Tok} (h : 0 < t.undo) : TStep t { t with avail := t.avail - 1, undo := t.undo - 1 }

inductive TReach : Tok → Prop
  | init : TReach .init
  | step {t t' : Tok} (h : TReach t) (hs : TStep t t') : TReach t'

/-! ## The controller and the filter -/

inductive Call where
  | request | response (throttled : Bool)
deriving DecidableEq

/-- What the throttler is told about a request until its call ends (throttler_overload_controller.cc:36-88, throttler_client_filter.cc:66-98): `r` is the result of the adapter, `virt` the answer of
the throttler to the virtual request, `over` whether the call ends with an error of overload. -/
def calls (r : Result) (virt over : Bool) : List Call :=
  match r with
  | .lower => [.request, .response (!virt)]
  | .overload => [.request]
  | .ok => [.request, .response over]

end Verif.Overload
