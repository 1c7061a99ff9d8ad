import Verif.Future.CoreModel
/-!
# What futures are supposed to do

The result of every future is determined by what user code did, recorded in the trace.
-/

namespace Verif.Future.Core

variable {V E : Type}

/-- Whether a callback of this kind is called for a result. -/
def calls : Kind → Res V E → Bool
  | .withValue, .exc _ => false
  | _, _ => true

/-- Future `i` has (or is due to have) the result `r`. -/
inductive Resolves (bp : E) (tr : List (Ev V E)) : Nat → Res V E → Prop
  /-- It was made with a result. -/
  | make {i r} : .make i r ∈ tr → Resolves bp tr i r
  /-- Its promise was set. -/
  | set {i r} : .set i r ∈ tr → Resolves bp tr i r
  /-- Its promise was abandoned. -/
  | broken {i} : .broken i ∈ tr → Resolves bp tr i (.exc bp)
  /-- It was returned by `Then` and the callback, which wants a value, is skipped. -/
  | skip {i p e} : .then_ i .withValue (some p) ∈ tr → Resolves bp tr i (.exc e) → Resolves bp tr p (.exc e)
  /-- It was returned by `Then` and the callback has returned future `k`. -/
  | chain {i kind p k r} : .then_ i kind (some p) ∈ tr → .returned i k ∈ tr → Resolves bp tr k r → Resolves bp tr p r

def Ev.isCalled (i : Nat) : Ev V E → Bool
  | .called j _ => j = i
  | _ => false

/-- No thread is inside a library function, no continuation is waiting in an executor and no callback is running. -/
def Quiet (s : St V E) : Prop :=
  ∀ i, ((s.fut i).prod = .unborn ∨ (s.fut i).prod = .user ∨ (s.fut i).prod = .held ∨ (s.fut i).prod = .done) ∧
    ((s.fut i).cons = .free ∨ (s.fut i).cons = .done) ∧ ((s.fut i).run = .none ∨ (s.fut i).run = .over)

/-- What `IsReady`/`GetConstValue` and `IsFailed`/`GetException` say about future `i`. -/
def reads (s : St V E) (i : Nat) : Option (Res V E) :=
  if (s.fut i).ready then (s.fut i).value.map .val else if (s.fut i).failed then (s.fut i).exc.map .exc else none

end Verif.Future.Core
