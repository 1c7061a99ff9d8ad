import Verif.Queue.MpmcModel
/-!
# Specification for C19 (and C37): a bounded FIFO
-/

namespace Verif.Queue.Mpmc

/-- Bounded FIFO of capacity `cap`, oldest element first.  With `weakPop` a pop may also report "empty" on a
non-empty queue (the MPSC queue, see C37).  A blocking operation never fails. -/
def fifo {V : Type} (cap : Nat) (weakPop : Bool) : Lin.Spec (Op V) (Res V) (List V) := fun q op r q' =>
  match op, r with
  | .push v _, .ok => q.length < cap ∧ q' = q ++ [v]
  | .push _ b, .full => q.length = cap ∧ b = false ∧ q' = q
  | .pop _, .val v => q = v :: q'
  | .pop b, .empty => (weakPop = true ∨ (q = [] ∧ b = false)) ∧ q' = q
  | .size, .size n => n ≤ cap ∧ q' = q
  | _, _ => False

end Verif.Queue.Mpmc
