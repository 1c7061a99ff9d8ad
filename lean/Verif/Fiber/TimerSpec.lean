import Verif.Fiber.TimerModel
/-!
# What timers are supposed to do
-/

namespace Verif.Fiber.Timer

/-- The times at which timer `e` fired. -/
def fires (e : Nat) (tr : List Ev) : List Nat :=
  tr.filterMap fun | .fired e' t => if e' = e then some t else none | _ => none

/-- The time at which a timer created with these arguments should fire for the `k`-th time. -/
def due (expires : Nat) (interval : Option Nat) (k : Nat) : Nat := expires + k * interval.getD 0

/-- The timer is to fire (once more): it was enabled, not removed, and if it is not periodic, it has not fired. -/
def Live (tr : List Ev) (e : Nat) (interval : Option Nat) : Prop :=
  .enabled e ∈ tr ∧ .removed e ∉ tr ∧ (interval = none → fires e tr = [])

/-- No thread is still in the call that enabled the timer. -/
def Settled (s : St) (e : Nat) : Prop := ∀ p t r, s.c p ≠ .load e t ∧ s.c p ≠ .try e t r

end Verif.Fiber.Timer
