import Verif.Queue.RunQueueModel
/-!
# Specification for C23: a bounded FIFO of fibers with batch insertion and stealing
-/

namespace Verif.Queue.RunQ

/-- Oldest fiber first; each fiber carries whether it was pushed as unstealable.  A push may report "overrun" and a
pop or a steal may report "nothing" at any time (see `C23_quiescent` for when no other thread is active);
a batch is appended at once. -/
def fifo {V : Type} (cap : Nat) : Lin.Spec (Op V) (Res V) (List (V × Bool)) := fun q op r q' =>
  match op, r with
  | .push v f, .ok => q.length < cap ∧ q' = q ++ [(v, f)]
  | .batch vs f, .ok => (vs.length < cap ∧ q.length + vs.length ≤ cap) ∧ q' = q ++ vs.map (fun v => (v, f))
  | .push _ _, .full => q' = q
  | .batch _ _, .full => q' = q
  | .pop, .val v => ∃ f, q = (v, f) :: q'
  | .steal, .val v => q = (v, false) :: q'
  | .pop, .none => q' = q
  | .steal, .none => q' = q
  | .size _, .size n => n < cap ∧ q' = q
  | _, _ => False

end Verif.Queue.RunQ
