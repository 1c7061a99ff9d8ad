import Verif.Container.BoundedQueueModel
/-!
# Specification for C24: a double-ended queue of at most `cap` items
-/

namespace Verif.Container.BQ

variable {T : Type}

/-- Top-most item first. -/
def spec (cap : Nat) (l : List T) : Op T → Res T × List T
  | .push x => if l.length < cap then (.bool true, l ++ [x]) else (.bool false, l)
  | .elimPush x => (.unit, if l.length < cap then l ++ [x] else l.tail ++ [x])
  | .pushTop x => if l.length < cap then (.bool true, x :: l) else (.bool false, l)
  | .pop => (.item l.head?, l.tail)
  | .popBottom => (.item l.getLast?, l.dropLast)
  | .clear => (.unit, [])
  | .top i => (.item l[i]?, l)
  | .bottom i => (.item l.reverse[i]?, l)
  | .top0 => (.item l.head?, l)
  | .bottom0 => (.item l.getLast?, l)
  | .size => (.num l.length, l)
  | .empty => (.bool l.isEmpty, l)
  | .full => (.bool (l.length == cap), l)

def specRun (cap : Nat) : List T → List (Op T) → List (Res T) × List T
  | l, [] => ([], l)
  | l, o :: os => ((spec cap l o).1 :: (specRun cap (spec cap l o).2 os).1, (specRun cap (spec cap l o).2 os).2)

end Verif.Container.BQ
