import Verif.Fiber.SyncModel
/-!
# What is expected of the mutex and the condition variable

Stated over what happens in the course of a run, not over the variables of the program.
-/

namespace Verif.Fiber.Sync

/-- A fair mutex: who owns it, and who waits for it, in order. -/
structure Lk where
  owner : Option Nat
  queue : List Nat
deriving DecidableEq, Repr

/-- What a fair mutex allows: nobody waits for a mutex that is free; the mutex goes to nobody but the first in the queue; only the
    owner gives it up; `try_lock` fails only if the mutex is owned or waited for; who starts to wait for the condition variable and
    who comes back from there owns the mutex. -/
def Lk.next (l : Lk) : Ev → Option Lk
  | .enq t =>
    if l.owner ≠ some t ∧ t ∉ l.queue ∧ ¬(l.owner = none ∧ l.queue = []) then some { l with queue := l.queue ++ [t] } else none
  | .acq t =>
    if l.owner = none then
      match l.queue with
      | [] => some ⟨some t, []⟩
      | w :: q => if w = t then some ⟨some t, q⟩ else none
    else none
  | .rel t => if l.owner = some t then some { l with owner := none } else none
  | .busy _ => if l.owner = none ∧ l.queue = [] then none else some l
  | .wait t => if l.owner = some t then some l else none
  | .back t _ => if l.owner = some t then some l else none
  | _ => some l

def Lk.replay (l : Lk) : List Ev → Option Lk
  | [] => some l
  | e :: tr => match l.next e with
    | some l' => l'.replay tr
    | none => none

/-- Where a thread is with respect to the condition variable: not in `wait`; in `wait`, still owning the mutex; in `wait`, having
    given it up; notified (`early`: when it still owned the mutex); its time is over. -/
inductive Ph
  | no | entered | released
  | noted (early : Bool)
  | timedOut
deriving DecidableEq, Repr

/-- A condition variable: who waits for it, in order, and how each thread stands to it. -/
structure Cv where
  waiting : List Nat
  ph : Nat → Ph

/-- What a condition variable allows: a notification goes to the one that waits longest, and gets lost only if nobody waits; `wait`
    returns only after a notification or after its time is over, and returns `false` only in the latter case. -/
def Cv.next (v : Cv) : Ev → Option Cv
  | .wait t => if v.ph t = .no then some ⟨v.waiting ++ [t], upd v.ph t .entered⟩ else none
  | .rel t => some { v with ph := if v.ph t = .entered then upd v.ph t .released else v.ph }
  | .noted t =>
    match v.waiting with
    | [] => none
    | w :: q => if w = t then some ⟨q, upd v.ph t (.noted (v.ph t = .entered))⟩ else none
  | .nobody => if v.waiting = [] then some v else none
  | .tmo t => if t ∈ v.waiting then some ⟨v.waiting.erase t, upd v.ph t .timedOut⟩ else none
  | .back t b =>
    match v.ph t with
    | .noted _ => if b then some { v with ph := upd v.ph t .no } else none
    | .timedOut => some { v with ph := upd v.ph t .no }
    | _ => none
  | _ => some v

def Cv.replay (v : Cv) : List Ev → Option Cv
  | [] => some v
  | e :: tr => match v.next e with
    | some v' => v'.replay tr
    | none => none

def lk0 : Lk := ⟨none, []⟩
def cv0 : Cv := ⟨[], fun _ => .no⟩

/-- Participants are numbered below 2^32 - 1 (`count_` has 32 bits), and only fibers wait with a time limit (see `C57`). -/
def Supported (fib : Nat → Bool) : Act → Prop
  | .call t c => t < 2 ^ 32 - 1 ∧ (c = .wait true → fib t = true)
  | _ => True

/-- Nothing happens any more unless somebody calls a function, a timer fires or a signal arrives. -/
def Quiet (s : St) : Prop :=
  (∀ t, (threadStep s t 0).1 = s) ∧ (∀ t, (runStep s t).1 = s) ∧ ∀ g, (timerStep s g).1 = s

theorem Lk.replay_append (l : Lk) (a b : List Ev) :
    l.replay (a ++ b) = (l.replay a).bind fun l' => l'.replay b := by
  induction a generalizing l with
  | nil => rfl
  | cons e a ih =>
    simp only [List.cons_append, Lk.replay]
    cases l.next e with
    | none => rfl
    | some l' => exact ih l'

theorem Cv.replay_append (v : Cv) (a b : List Ev) :
    v.replay (a ++ b) = (v.replay a).bind fun v' => v'.replay b := by
  induction a generalizing v with
  | nil => rfl
  | cons e a ih =>
    simp only [List.cons_append, Cv.replay]
    cases v.next e with
    | none => rfl
    | some v' => exact ih v'

end Verif.Fiber.Sync
