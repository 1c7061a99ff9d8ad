import Verif.Thread.SqPoolModel
/-!
# What a thread pool is supposed to do
-/

namespace Verif.Thread.SqPool

/-- The tasks that were started, in order. -/
def started (tr : List Ev) : List Nat := tr.filterMap fun | .ran _ t => some t | _ => none

/-- The tasks that entered the queue, in order. -/
def entered (tr : List Ev) : List Nat := tr.filterMap fun | .queued t => some t | _ => none

/-- The tasks `AddTask` returned `ok` for. -/
def answered (ok : Bool) (tr : List Ev) : List Nat :=
  tr.filterMap fun | .returned _ t b => if b = ok then some t else none | _ => none

/-- No call is in progress and no worker will do anything. -/
def Stuck (s : St) : Prop := (∀ c, s.c c = .idle) ∧ ∀ i, i < s.n → s.w i = .asleep ∨ s.w i = .exited

end Verif.Thread.SqPool
