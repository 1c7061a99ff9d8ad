import Verif.Queue.DequeModel
/-!
# Specification for C20, C21, C22: a double-ended queue with one owner

The list is the contents, oldest first.  `Push` and `Pop` work at the back, `Steal` at the front.  `Steal` may
report "nothing" at any time (a lost race).  `cap = none`: `Push` never fails.  `weakPush`: `Push` may fail at any
time (`BoundedSPMCQueue`).
-/

namespace Verif.Queue.Deque

def deque {V : Type} (cap : Option Nat) (weakPush : Bool) : Lin.Spec (Op V) (Res V) (List V) := fun q op r q' =>
  match op, r with
  | .push v, .ok => q' = q ++ [v] ∧ ∀ n, cap = some n → q.length < n
  | .push _, .full => (weakPush = true ∨ cap = some q.length) ∧ q' = q
  | .pop, .val v => q = q' ++ [v]
  | .pop, .null => q = [] ∧ q' = q
  | .steal, .val v => q = v :: q'
  | .steal, .null => q' = q
  | _, _ => False

end Verif.Queue.Deque
