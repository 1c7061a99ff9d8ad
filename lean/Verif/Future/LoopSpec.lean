import Verif.Future.LoopModel
/-!
# What the loops are supposed to do
-/

namespace Verif.Future.Loop

variable {A E : Type}

/-- Call the function for each of `as`, one after the other, until the first failure or the end of the results known so far. -/
def ideal : List A → List (Option E) → List (Ev A E)
  | [], _ => [.finish none]
  | a :: _, [] => [.call a]
  | a :: _, some e :: _ => [.call a, .resolved (some e), .finish (some e)]
  | a :: as, none :: rs => .call a :: .resolved none :: ideal as rs

end Verif.Future.Loop
