/-!
# Token bucket (`trpc/overload_control/token_bucket_limiter/token_bucket_overload_controller.{h,cc}`)

All arithmetic is on `uint64_t` and modelled as such.  Calls are serialised by the mutex
(`token_bucket_overload_controller.cc:46`).  The clock reading is an argument.  Reporting (lines 59-74)
is not modelled.
-/

namespace Verif.Limiter.Token

/-- The controller's fields; `one` is `one_token_elapsed_`, `full` is `burst_elapsed_`. -/
structure TB where
  one : UInt64
  full : UInt64
  last : UInt64
deriving Repr, DecidableEq

/-- Constructor (:31-35) followed by `Init` (:37-40) at clock value `now`. -/
def TB.init (burst rate now : UInt64) : TB :=
  let rate := max rate 1
  let one := 1000000000 / rate
  { one, full := burst * one, last := now }

/-- `BeforeSchedule` (:42-57); the result is "admitted". -/
def TB.beforeSchedule (b : TB) (now : UInt64) : TB × Bool :=
  if b.last > now - b.one then (b, false)
  else if b.last < now - b.full then ({ b with last := now - b.full + b.one }, true)
  else ({ b with last := b.last + b.one }, true)

/-- A history of calls at the given clock values. -/
def TB.run (b : TB) : List UInt64 → TB × List Bool
  | [] => (b, [])
  | t :: ts =>
    let r := b.beforeSchedule t
    let rest := r.1.run ts
    (rest.1, r.2 :: rest.2)

end Verif.Limiter.Token
