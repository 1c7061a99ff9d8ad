import Verif.Common.Upd
import Verif.Future.CoreModel
/-!
# `WhenAll`, `WhenAny`, `WhenAnyWithoutException` (`trpc/future/future_utility.h`)

The functions attach one callback to each of `n` input futures.  The callbacks are modelled from the moment they are called,
each at most once and with any result, in any threads and order (this is what C44 says about callbacks).  A step is one
access to memory shared by the callbacks; memory is sequentially consistent.

`WhenAll` exists for tuples, :137-156 and :281-297, and for iterators, :304-331; both store the result, count, and set the
promise if the count is complete.  Not modelled: the loops that attach the callbacks (any callback may be called at any
time), `DoWith` (which keeps the array alive until the promise is set; a store after that is a crash here), the promise
itself (C44); setting it twice is a crash here.  Without any input futures all three return a ready future, which is not
modelled either.
-/

namespace Verif.Future.When

open Core (Res)

/-- Which of the functions. -/
inductive Mode
  | all
  | any
  | anyReady
deriving DecidableEq, Repr

/-- Where a callback is. -/
inductive Pc (V E : Type)
  | idle
  /-- Called with its future. -/
  | start (r : Res V E)
  /-- `WhenAll`: the result is stored. -/
  | stored
  /-- `WhenAll`: this callback is to set the promise. -/
  | setAll
  /-- The others: this callback is to set the promise, to its own result. -/
  | set (r : Res V E)
  | done
deriving DecidableEq, Repr

def Pc.isIdle {V E : Type} : Pc V E → Bool
  | .idle => true
  | _ => false

inductive Ev (V E : Type)
  /-- Callback `i` is called. -/
  | called (i : Nat) (r : Res V E)
  /-- Callback `i` returns. -/
  | finished (i : Nat)
  /-- `WhenAll`: the promise is set to these results. -/
  | all (rs : List (Option (Res V E)))
  /-- The promise is set to index and value. -/
  | value (i : Nat) (v : V)
  /-- The promise is set to an exception. -/
  | failed (e : E)
  | crash
deriving DecidableEq, Repr

structure St (V E : Type) where
  /-- The array, `none`: a future that was moved from or never assigned. -/
  result : Nat → Option (Res V E)
  /-- `atomic_uint32_t counter`. -/
  counter : Nat
  /-- `atomic_bool done`. -/
  flag : Bool
  pc : Nat → Pc V E
  /-- The promise has been set. -/
  resolved : Bool
  crashed : Bool

def init (V E : Type) : St V E := ⟨fun _ => none, 0, false, fun _ => .idle, false, false⟩

inductive Act (V E : Type)
  | call (i : Nat) (r : Res V E)
  | step (i : Nat)

variable {V E : Type}

def St.crash (s : St V E) : St V E × List (Ev V E) := ({ s with crashed := true }, [.crash])

def St.goto (s : St V E) (i : Nat) (p : Pc V E) : St V E := { s with pc := upd s.pc i p }

/-- `promise.SetValue`, `promise.SetException`, and the return from the callback. -/
def St.resolve (s : St V E) (i : Nat) (e : Ev V E) : St V E × List (Ev V E) :=
  if s.resolved then s.crash else ({ s.goto i .done with resolved := true }, [e, .finished i])

/-- `uint32_t` values. -/
def u32 (n : Nat) : Nat := n % 2 ^ 32

/-- `WhenAll`, :144-152, :318-326. -/
def allStep (n : Nat) (s : St V E) (i : Nat) : St V E × List (Ev V E) :=
  match s.pc i with
  | .start r => if s.resolved then s.crash else ({ s.goto i .stored with result := upd s.result i (some r) }, [])
  | .stored =>
    let s' := { s with counter := u32 (s.counter + 1) }
    if u32 (s.counter + 1) = u32 n then (s'.goto i .setAll, []) else (s'.goto i .done, [.finished i])
  | .setAll => { s with result := fun _ => none }.resolve i (.all ((List.range n).map s.result))
  | .idle | .set _ | .done => (s, [])

/-- `idx` of the callback and its result. -/
def own (i : Nat) : Res V E → Ev V E
  | .val v => .value (u32 i) v
  | .exc e => .failed e

/-- `WhenAny`, :355-366. -/
def anyStep (s : St V E) (i : Nat) : St V E × List (Ev V E) :=
  match s.pc i with
  | .start r => if s.flag then (s.goto i .done, [.finished i]) else ({ s.goto i (.set r) with flag := true }, [])
  | .set r => s.resolve i (own i r)
  | .idle | .stored | .setAll | .done => (s, [])

/-- `WhenAnyWithoutException`, :397-411.  `total` is a `size_t`. -/
def anyReadyStep (n : Nat) (s : St V E) (i : Nat) : St V E × List (Ev V E) :=
  match s.pc i with
  | .start (.val v) =>
    if s.flag then (s.goto i .done, [.finished i]) else ({ s.goto i (.set (.val v)) with flag := true }, [])
  | .start (.exc e) =>
    let s' := { s with counter := u32 (s.counter + 1) }
    if u32 (s.counter + 1) = n then (s'.goto i (.set (.exc e)), []) else (s'.goto i .done, [.finished i])
  | .set r => s.resolve i (own i r)
  | .idle | .stored | .setAll | .done => (s, [])

def cbStep (mode : Mode) (n : Nat) (s : St V E) (i : Nat) : St V E × List (Ev V E) :=
  match mode with
  | .all => allStep n s i
  | .any => anyStep s i
  | .anyReady => anyReadyStep n s i

def step (mode : Mode) (n : Nat) (s : St V E) (a : Act V E) : St V E × List (Ev V E) :=
  if s.crashed then (s, [])
  else
    match a with
    | .call i r => if i < n ∧ (s.pc i).isIdle then (s.goto i (.start r), [.called i r]) else (s, [])
    | .step i => cbStep mode n s i

def run (mode : Mode) (n : Nat) : St V E → List (Ev V E) → List (Act V E) → St V E × List (Ev V E)
  | s, tr, [] => (s, tr)
  | s, tr, a :: as => run mode n (step mode n s a).1 (tr ++ (step mode n s a).2) as

end Verif.Future.When
