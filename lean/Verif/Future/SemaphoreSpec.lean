import Verif.Future.SemaphoreModel
/-!
# Specification for C25, C26: what a trace of observations must satisfy
-/

namespace Verif.Future.Sem

/-- Units handed out by one event. -/
def Ev.out : Ev → Nat
  | .granted n => n
  | .tried n true => n
  | .resolved e => e.num
  | _ => 0

/-- Units deposited by one event. -/
def Ev.deposit : Ev → Nat
  | .signalled n true => n
  | _ => 0

def handedOut (tr : List Ev) : Nat := (tr.map Ev.out).sum
def deposited (tr : List Ev) : Nat := (tr.map Ev.deposit).sum

def Ev.queued? : Ev → Option Entry
  | .queued e => some e
  | _ => none

def Ev.resolved? : Ev → Option Entry
  | .resolved e => some e
  | _ => none

def Ev.rejected? : Ev → Option Entry
  | .rejected e => some e
  | _ => none

/-- The waiters in order of arrival. -/
def arrivals (tr : List Ev) : List Entry := tr.filterMap Ev.queued?
/-- The waiters in the order in which their futures became ready. -/
def served (tr : List Ev) : List Entry := tr.filterMap Ev.resolved?
/-- The waiters in the order in which their futures failed. -/
def failed (tr : List Ev) : List Entry := tr.filterMap Ev.rejected?

/-- All waiters so far have been answered, one way or the other. -/
def AllAnswered (tr : List Ev) : Prop := served tr ++ failed tr = arrivals tr

/-- Every `Signal` is called when no other `Signal` still has waiters to answer: from the outside, or from the
callback of the last waiter of a `Signal`. -/
def SignalsAtEnd : St → List Act → Prop
  | _, [] => True
  | s, a :: as => ((∃ n, a = .signal n) → ∀ r, .sig r ∈ s.stack → r = []) ∧ SignalsAtEnd (step s a).1 as

/-- `Broke` is not called from a callback run by `Broke`. -/
def BrokeNotNested : St → List Act → Prop
  | _, [] => True
  | s, a :: as => (a = .broke → .brk ∉ s.stack) ∧ BrokeNotNested (step s a).1 as

/-- The holders of a read-write lock, and for each waiter in order of arrival whether it is a writer. -/
structure Holders where
  readers : Nat
  writers : Nat
  roles : List Bool
deriving DecidableEq, Repr

def isWrite : RWAct → Bool
  | .writeLock | .writeUnlock | .tryWrite => true
  | _ => false

def Holders.add (h : Holders) (w : Bool) : Holders :=
  if w then { h with writers := h.writers + 1 } else { h with readers := h.readers + 1 }

def Holders.remove (h : Holders) (w : Bool) : Holders :=
  if w then { h with writers := h.writers - 1 } else { h with readers := h.readers - 1 }

/-- A lock is held from the moment its future is ready or the attempt succeeds until it is unlocked; what is locked
or unlocked is told by the function called. -/
def Holders.ev (a : RWAct) (h : Holders) : Ev → Holders
  | .granted _ => h.add (isWrite a)
  | .tried _ true => h.add (isWrite a)
  | .queued _ => { h with roles := h.roles ++ [isWrite a] }
  | .resolved e => h.add (h.roles.getD e.id false)
  | .signalled _ true => h.remove (isWrite a)
  | _ => h

/-- Only held locks are unlocked. -/
def mayUnlock (h : Holders) : RWAct → Prop
  | .readUnlock => 0 < h.readers
  | .writeUnlock => 0 < h.writers
  | _ => True

instance (h : Holders) (a : RWAct) : Decidable (mayUnlock h a) := by
  cases a <;> simp only [mayUnlock] <;> infer_instance

/-- State, observations and holders after a sequence of calls; `none` if something is unlocked that is not held. -/
def rwRun : St → List Ev → Holders → List RWAct → Option (St × List Ev × Holders)
  | s, tr, h, [] => some (s, tr, h)
  | s, tr, h, a :: as =>
    if mayUnlock h a then
      rwRun (step s a.act).1 (tr ++ (step s a.act).2) ((step s a.act).2.foldl (Holders.ev a) h) as
    else none

end Verif.Future.Sem
