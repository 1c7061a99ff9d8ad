/-!
# What a token bucket should do

The bucket holds an amount of credit, in nanoseconds of waiting.  It gains one unit per nanosecond up to
`full` (= burst × one).  A request is admitted when the credit suffices for one token, which is then
taken.
-/

namespace Verif.Limiter.Token.Spec

/-- Credit at the time `seen` of the latest arrival. -/
structure Bucket where
  one : Nat
  full : Nat
  credit : Nat
  seen : Nat
deriving Repr, DecidableEq

/-- Arrival at time `now`. -/
def Bucket.arrive (b : Bucket) (now : Nat) : Bucket × Bool :=
  let c := min (b.credit + (now - b.seen)) b.full
  if b.one ≤ c then ({ b with credit := c - b.one, seen := now }, true)
  else ({ b with credit := c, seen := now }, false)

def Bucket.run (b : Bucket) : List Nat → List Bool
  | [] => []
  | t :: ts => (b.arrive t).2 :: (b.arrive t).1.run ts

end Verif.Limiter.Token.Spec
