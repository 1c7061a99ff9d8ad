import Verif.Stream.FlowControlModel
/-!
# Specification for C27, C41
-/

namespace Verif.Stream.Flow

def Ev.sent? : Ev → Option Nat
  | .sent n => some n
  | _ => none

def Ev.fedBack? : Ev → Option Nat
  | .fedBack n => some n
  | _ => none

/-- The messages sent. -/
def sent (tr : List Ev) : List Nat := tr.filterMap Ev.sent?

/-- Bytes acknowledged to the sender. -/
def fedBack (tr : List Ev) : Nat := (tr.filterMap Ev.fedBack?).sum

/-- Bytes sent and not yet acknowledged. -/
def outstanding (tr : List Ev) : Nat := (sent tr).sum - fedBack tr

/-- The last message sent. -/
def lastSent (tr : List Ev) : Nat := (sent tr).getLast?.getD 0

/-- All messages fit into the 32-bit counter of the receiver. -/
def SizesOk (w : Nat) (tr : List Ev) : Prop := ∀ n ∈ sent tr, w / 4 + n < 2 ^ 32

end Verif.Stream.Flow
