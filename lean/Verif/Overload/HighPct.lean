import Verif.Overload.Priority

/-!
# Limits of concurrency by high percentiles

/repo/trpc/overload_control/high_percentile/: max_in_every_n.cc, high_avg.cc, high_avg_ema.cc, high_percentile_priority_impl.cc, high_percentile_server_filter.cc.

* Doubles are rational numbers without rounding, `int`s do not overflow.
* Requests are a machine: `OnRequest` reads the limit, then the strategy in effect, then the counter, then increments it; `OnSuccess` and `OnError` read the counter, then decrement it if it was
  positive. Each is a step of its own, and so are the two stores of an update (`in_effect_strategy_` in `ShiftCost`, then `max_concurrency_`).
* The filter gives a controller to a request that passes and takes it away when the response is counted (`SetFilterData`, `*controller = nullptr`): a request is counted at most once, and
  only if it passed.
-/

namespace Verif.Overload

/-! ## `MaxInEveryN` (max_in_every_n.cc) -/

structure MaxN where
  times : Nat
  max : Rat
deriving DecidableEq

def MaxN.init : MaxN := ⟨0, 0⟩

/-- `Sample` (:24-36), with the period `n`. -/
def MaxN.sample (n : Nat) (m : MaxN) (v : Rat) : MaxN × Bool × Rat :=
  let mx := if v < m.max then m.max else v
  if n ≤ m.times + 1 then (⟨0, 0⟩, true, mx) else (⟨m.times + 1, mx⟩, false, mx)

/-! ## `HighAvgEMA` (high_avg_ema.cc) -/

/-- `UpdateAndGet` (:28-39). -/
def emaUpdate (inc dec val x : Rat) : Rat :=
  let f := if val ≤ x then inc else dec
  x * f + val * (1 - f)

/-! ## The estimate (high_percentile_priority_impl.cc) -/

structure Strategy where
  expected : Rat
  measured : Rat

structure HCfg where
  /-- `min_concurrency_window_size` -/
  minWin : Nat
  /-- `min_max_concurrency` -/
  minMax : Nat
  report : Bool

structure H where
  /-- `in_effect_strategy_` -/
  eff : Option Nat
  /-- `max_concurrency_` -/
  max : Nat
  cost : Rat
  qps : Rat
deriving DecidableEq

/-- The loop of `ShiftCost` (:189-206): the largest quotient, at least 1/2, and the strategy that has it first. -/
def worst : Nat → Rat → Option Nat → List Strategy → Rat × Option Nat
  | _, best, crit, [] => (best, crit)
  | i, best, crit, s :: ss => if best < s.measured / s.expected then worst (i + 1) (s.measured / s.expected) (some i) ss else worst (i + 1) best crit ss

/-- (:208-214) -/
def newEff (old : Option Nat) (q : Rat) (crit : Option Nat) : Option Nat :=
  if q ≤ 1 / 2 then none else if 9 / 10 < q || old.isSome then crit else old

/-- (:216-223) -/
def shifted (cost q : Rat) : Rat := if q ≤ 1 then cost / q else cost / (1 + (q - 1) / 2)

inductive Win where
  /-- too few requests (:101-113) -/
  | few
  /-- the new state, the new interval in milliseconds, the new size -/
  | upd (h : H) (interval : Nat) (size : Rat)
  /-- `max_element` of an empty vector is read (:154) -/
  | ub

/-- `OnWindowExpires` (:98-187): `succeeded` requests took `costs` milliseconds together, the window was `secs` long. -/
def expire (c : HCfg) (h : H) (ss : List Strategy) (succeeded costs : Nat) (secs : Rat) : Win :=
  if succeeded < c.minWin then .few
  else
    let avg : Rat := (costs : Rat) / succeeded
    let qps : Rat := succeeded / secs
    let cost' := emaUpdate (1 / 100) (1 / 10) h.cost avg
    let qps' := emaUpdate (1 / 10) (1 / 100) h.qps qps
    let w := worst 0 (1 / 2) none ss
    let mx := max (shifted cost' w.1 / 1000 * qps').floor.toNat c.minMax
    if c.report && ss.isEmpty then .ub
    else
      let size := avg / 1000 * qps
      .upd ⟨newEff h.eff w.1 w.2, mx, cost', qps'⟩ (min 100 (max 1 (cost'.floor.toNat * 2))) (if size < c.minWin then (c.minWin : Rat) else size)

/-! ## The machine of requests -/

inductive Pc where
  | idle
  /-- the limit was read -/
  | lim (m : Nat)
  /-- a strategy is in effect; the counter is to be read -/
  | chk (m : Nat)
  /-- may pass; the counter is to be incremented -/
  | inc
  | running
  /-- the counter was positive -/
  | dec
  | refused
  | done
deriving DecidableEq

structure M where
  eff : Bool
  max : Nat
  cur : Int
  /-- the requests: `true` for a high priority -/
  pc : List (Bool × Pc)

def M.set (m : M) (i : Nat) (p : Pc) : M :=
  match m.pc[i]? with
  | none => m
  | some (b, _) => { m with pc := m.pc.set i (b, p) }

inductive MStep (c : HCfg) : M → M → Prop
  | new {m : M} (high : Bool) : MStep c m { m with pc := m.pc ++ [(high, .idle)] }
  /-- `max_concurrency_` or twice that (:48-56) -/
  | limit {m : M} (i : Nat) (high : Bool) (h : m.pc[i]? = some (high, .idle)) : MStep c m (m.set i (.lim (if high then m.max * 2 else m.max)))
  /-- (:81-88) -/
  | strategy {m : M} (i : Nat) (high : Bool) (k : Nat) (h : m.pc[i]? = some (high, .lim k)) : MStep c m (m.set i (if m.eff then .chk k else .inc))
  /-- (:91-94) -/
  | check {m : M} (i : Nat) (high : Bool) (k : Nat) (h : m.pc[i]? = some (high, .chk k)) : MStep c m (m.set i (if (k : Int) < m.cur then .refused else .inc))
  /-- (:96) -/
  | inc {m : M} (i : Nat) (high : Bool) (h : m.pc[i]? = some (high, .inc)) : MStep c m (({ m with cur := m.cur + 1 } : M).set i .running)
  /-- the response: the counter is read (:61, :77) -/
  | read {m : M} (i : Nat) (high : Bool) (h : m.pc[i]? = some (high, .running)) : MStep c m (m.set i (if 0 < m.cur then .dec else .done))
  | dec {m : M} (i : Nat) (high : Bool) (h : m.pc[i]? = some (high, .dec)) : MStep c m (({ m with cur := m.cur - 1 } : M).set i .done)
  /-- an update stores the strategy, then the limit -/
  | storeEff {m : M} (b : Bool) : MStep c m { m with eff := b }
  | storeMax {m : M} (k : Nat) (h : c.minMax ≤ k) : MStep c m { m with max := k }

inductive MReach (c : HCfg) (m0 : M) : M → Prop
  | init : MReach c m0 m0
  | step {m m' : M} (h : MReach c m0 m) (hs : MStep c m m') : MReach c m0 m'

/-- The constructor (:33-46). -/
def M.init : M := ⟨false, 0, 0, []⟩

end Verif.Overload
