import Verif.Fiber.SchedModel
/-!
# What a scheduler is supposed to do
-/

namespace Verif.Fiber.Sched

/-- The fibers that became ready, in order. -/
def pushed (tr : List Ev) : List Nat := tr.filterMap fun | .pushed f => some f | _ => none

/-- The fibers that a worker took to run them, in order. -/
def gone (tr : List Ev) : List Nat := tr.filterMap fun | .taken _ f => some f | .stolen f => some f | _ => none

/-- No thread is in a call to the scheduler. -/
def Calm (s : St) : Prop := (∀ t, s.k t = none) ∧ ∀ c, s.c c = .idle

/-- The calls the code supports: `StartFibers` only works for groups of at most 32 workers (C54). -/
def Supported (n : Nat) : Act → Prop
  | .batch _ _ => n ≤ 32
  | _ => True

/-- The workers that are asleep. -/
def sleepers (s : St) : Nat := ((List.range s.n).filter fun i => s.w i = .asleep).length

end Verif.Fiber.Sched
