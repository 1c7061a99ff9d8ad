import Verif.Future.WhenModel
/-!
# What the combinators are supposed to do
-/

namespace Verif.Future.When

open Core (Res)

variable {V E : Type}

/-- The promise is set. -/
def Ev.resolves : Ev V E → Bool
  | .all _ | .value _ _ | .failed _ => true
  | _ => false

def Ev.calls (i : Nat) : Ev V E → Bool
  | .called j _ => j = i
  | _ => false

/-- Everything that happened before callback `i` was called. -/
def before (i : Nat) (tr : List (Ev V E)) : List (Ev V E) := tr.takeWhile (fun e => !e.calls i)

/-- No callback is running. -/
def Quiet (s : St V E) : Prop := ∀ i, s.pc i = .idle ∨ s.pc i = .done

end Verif.Future.When
