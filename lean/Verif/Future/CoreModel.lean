import Verif.Common.Upd
/-!
# `Future` and `Promise` (`trpc/future/future.h`)

Any number of futures, promises and threads.  Every `FutureImpl` has at most one thread that sets its result (the owner
of the promise) and at most one that consumes it (the owner of the future), as the ownership rules of `Promise` and
`Future` (move only) and their documentation demand; the actions of user code that would break this (setting a promise
twice, a second `Then`) are not modelled and are ignored by `act`.  A program counter per future and role says where that
thread is.  The third role is the continuation, which runs in the executor: at once, later, or in another thread.

A step is one access to a field that another thread may access; the critical sections of `mtx` are single steps, all
others interleave freely.  Memory is sequentially consistent.  The variadic and the one-parameter versions of the classes
are textually the same.  Not modelled: reference counts, `Wait`, an executor that accepts a task and drops it.
-/

namespace Verif.Future.Core

/-- The result of a future. -/
inductive Res (V E : Type)
  | val (v : V)
  | exc (e : E)
deriving DecidableEq, Repr

/-- What the callback takes: the value, or the future. -/
inductive Kind
  | withValue
  | withFuture
deriving DecidableEq, Repr

/-- A continuation. -/
inductive Cont
  /-- `ContinuationWithValue`, `ContinuationWithFuture` with promise number `p`; `TerminalWithValue`,
  `TerminalWithFuture` (callbacks that return void) have none. -/
  | user (kind : Kind) (p : Option Nat)
  /-- The callback made by `ChainFuture`, :1342-1349, for promise `p`. -/
  | chain (p : Nat)
deriving DecidableEq, Repr

/-- Inside `TrySchedule`, :633-647, after the unlock. -/
inductive Sched
  /-- Before `IsReady()`, :636. -/
  | ready
  /-- Before `IsFailed()`, :641. -/
  | failed
  /-- Before `test_and_set`, :637. -/
  | flagV
  /-- Before `test_and_set`, :642. -/
  | flagE
  /-- Before :638-639. -/
  | takeV
  /-- Before :643-644. -/
  | takeE
deriving DecidableEq, Repr

/-- The thread that sets the result. -/
inductive Prod (V E : Type)
  /-- There is no such future yet. -/
  | unborn
  /-- User code holds the promise. -/
  | user
  /-- A continuation holds the promise. -/
  | held
  /-- In `SetValue`/`SetException`, before the result is written, :603, :613. -/
  | write (r : Res V E)
  /-- Before `ready`/`failed` is set, :604, :614. -/
  | mark (r : Res V E)
  /-- Before the critical section, :606-608. -/
  | lock
  | sched (x : Sched)
  | done
deriving DecidableEq, Repr

/-- The thread that consumes the future. -/
inductive Cons
  | free
  /-- In `SetCallback` and the like, before the callback is stored, :531-533. -/
  | store (c : Cont)
  /-- Before the critical section, :535-540. -/
  | lock
  | sched (x : Sched)
  /-- In `ChainFuture` for promise `p`, before `IsReady()`, :1334. -/
  | chainR (p : Nat)
  /-- Before :1335. -/
  | chainV (p : Nat)
  /-- Before `IsFailed()`, :1336. -/
  | chainF (p : Nat)
  /-- Before :1337. -/
  | chainE (p : Nat)
  | done
deriving DecidableEq, Repr

/-- The continuation. -/
inductive Run (V E : Type)
  | none
  /-- Given to the executor, `Run()` has not started. -/
  | queued (c : Cont) (r : Res V E)
  /-- The callback of the user is running. -/
  | user (p : Option Nat)
  | over
deriving DecidableEq, Repr

/-- `FutureStateBase` and `FutureState`, :86-141, and the three program counters.  `value` and `exc` are `none` before
they are written and after they have been moved out. -/
structure Fut (V E : Type) where
  value : Option V
  exc : Option E
  ready : Bool
  failed : Bool
  hasResult : Bool
  hasCallback : Bool
  flag : Bool
  callback : Option Cont
  prod : Prod V E
  cons : Cons
  run : Run V E
  /-- Ghost: the result given to `SetValue`/`SetException`. -/
  res : Option (Res V E)

def Fut.empty (V E : Type) : Fut V E :=
  ⟨none, none, false, false, false, false, false, none, .unborn, .free, .none, none⟩

structure St (V E : Type) where
  fut : Nat → Fut V E
  next : Nat
  crashed : Bool

def init (V E : Type) : St V E := ⟨fun _ => .empty V E, 0, false⟩

inductive Ev (V E : Type)
  /-- User code sets the promise of future `i`. -/
  | set (i : Nat) (r : Res V E)
  /-- The promise of future `i` is destroyed without having been set. -/
  | broken (i : Nat)
  /-- `MakeReadyFuture`, `MakeExceptionFuture`. -/
  | make (i : Nat) (r : Res V E)
  /-- `Then` on future `i`; `p` is the future it returns. -/
  | then_ (i : Nat) (kind : Kind) (p : Option Nat)
  /-- The callback attached to `i` is called with result `r`. -/
  | called (i : Nat) (r : Res V E)
  /-- The callback attached to `i` returns future `k`. -/
  | returned (i k : Nat)
  /-- User code reads the result of future `i`. -/
  | got (i : Nat) (r : Res V E)
  | crash
deriving DecidableEq, Repr

/-- What may happen next. -/
inductive Act (V E : Type)
  /-- `Promise<…> pr; pr.GetFuture()`. -/
  | promise
  /-- `MakeReadyFuture`, `MakeExceptionFuture`. -/
  | make (r : Res V E)
  /-- `pr.SetValue`, `pr.SetException`. -/
  | set (i : Nat) (r : Res V E)
  /-- The promise is destroyed. -/
  | drop (i : Nat)
  /-- `fut.Then`; `void`: the callback returns nothing. -/
  | then_ (i : Nat) (kind : Kind) (void : Bool)
  /-- `IsReady`/`IsFailed` and, if so, `GetValue`/`GetException`. -/
  | get (i : Nat)
  /-- The running callback attached to `i` returns future `k`. -/
  | ret (i k : Nat)
  /-- The thread setting `i` makes a step. -/
  | prod (i : Nat)
  /-- The thread consuming `i` makes a step. -/
  | cons (i : Nat)
  /-- The executor starts the continuation of `i`. -/
  | run (i : Nat)

variable {V E : Type}

def St.put (s : St V E) (i : Nat) (f : Fut V E) : St V E := { s with fut := upd s.fut i f }

def St.crash (s : St V E) : St V E × List (Ev V E) := ({ s with crashed := true }, [.crash])

/-- A continuation or `ChainFuture` calls `SetValue`/`SetException` on its promise `p`.  Anything but an unset promise
held by a continuation counts as a crash (two threads would be setting one `FutureImpl`). -/
def St.resolve (s : St V E) (p : Nat) (r : Res V E) : St V E × List (Ev V E) :=
  match (s.fut p).prod with
  | .held => (s.put p { s.fut p with prod := .write r, res := some r }, [])
  | _ => s.crash

/-- A step inside `TrySchedule`: the fields, and where the thread is afterwards (`none`: it has left the function).
`SubmitTask` on a continuation that has been submitted before is a crash: it deletes itself after running. -/
def schedStep (f : Fut V E) : Sched → Option (Fut V E × Option Sched)
  | .ready => some (f, some (if f.ready then .flagV else .failed))
  | .failed => some (f, if f.failed then some .flagE else none)
  | .flagV => some ({ f with flag := true }, if f.flag then none else some .takeV)
  | .flagE => some ({ f with flag := true }, if f.flag then none else some .takeE)
  | .takeV =>
    match f.run, f.callback, f.value with
    | .none, some c, some v => some ({ f with ready := false, value := none, run := .queued c (.val v) }, none)
    | _, _, _ => none
  | .takeE =>
    match f.run, f.callback, f.exc with
    | .none, some c, some e => some ({ f with failed := false, run := .queued c (.exc e) }, none)
    | _, _, _ => none

/-- `SetValue`, `SetException`, :602-628. -/
def prodStep (s : St V E) (i : Nat) : St V E × List (Ev V E) :=
  let f := s.fut i
  match f.prod with
  | .write (.val v) => (s.put i { f with value := some v, prod := .mark (.val v) }, [])
  | .write (.exc e) => (s.put i { f with exc := some e, prod := .mark (.exc e) }, [])
  | .mark (.val _) => (s.put i { f with ready := true, prod := .lock }, [])
  | .mark (.exc _) => (s.put i { f with failed := true, prod := .lock }, [])
  | .lock => (s.put i { f with hasResult := true, prod := if f.hasCallback then .sched .ready else .done }, [])
  | .sched x =>
    match schedStep f x with
    | none => s.crash
    | some (f', none) => (s.put i { f' with prod := .done }, [])
    | some (f', some y) => (s.put i { f' with prod := .sched y }, [])
  | .unborn | .user | .held | .done => (s, [])

/-- `SetCallback`, `SetTerminalCallback`, `SetCallbackWrapped`, `SetTerminalCallbackWrapped`, :530-599, and
`ChainFuture`, :1332-1351. -/
def consStep (s : St V E) (i : Nat) : St V E × List (Ev V E) :=
  let f := s.fut i
  match f.cons with
  | .store c => (s.put i { f with callback := some c, cons := .lock }, [])
  | .lock => (s.put i { f with hasCallback := true, cons := if f.hasResult then .sched .ready else .done }, [])
  | .sched x =>
    match schedStep f x with
    | none => s.crash
    | some (f', none) => (s.put i { f' with cons := .done }, [])
    | some (f', some y) => (s.put i { f' with cons := .sched y }, [])
  | .chainR p => (s.put i { f with cons := if f.ready then .chainV p else .chainF p }, [])
  | .chainF p => (s.put i { f with cons := if f.failed then .chainE p else .store (.chain p) }, [])
  | .chainV p =>
    match f.value with
    | some v => (s.put i { f with ready := false, value := none, cons := .done }).resolve p (.val v)
    | none => s.crash
  | .chainE p =>
    match f.exc with
    | some e => (s.put i { f with failed := false, cons := .done }).resolve p (.exc e)
    | none => s.crash
  | .free | .done => (s, [])

/-- `Run()` of the continuations, :252-261, :287-296, :321-328, :348-355, :376-388, :411-421, and of the callback of `ChainFuture`. -/
def runStep (s : St V E) (i : Nat) : St V E × List (Ev V E) :=
  let f := s.fut i
  match f.run with
  | .queued (.user .withValue none) (.exc _) => (s.put i { f with run := .over }, [])
  | .queued (.user .withValue (some p)) (.exc e) => (s.put i { f with run := .over }).resolve p (.exc e)
  | .queued (.user _ p) r => (s.put i { f with run := .user p }, [.called i r])
  | .queued (.chain p) r => (s.put i { f with run := .over }).resolve p r
  | .none | .user _ | .over => (s, [])

/-- All actions.  `bp` is the exception "Broken promise". -/
def act (bp : E) (s : St V E) : Act V E → St V E × List (Ev V E)
  | .promise => ({ s.put s.next { Fut.empty V E with prod := .user } with next := s.next + 1 }, [])
  | .make r =>
    -- :498-502, :860-868: the state is complete before anyone can see it
    let f : Fut V E :=
      match r with
      | .val v => { Fut.empty V E with value := some v, ready := true, hasResult := true, prod := .done, res := some r }
      | .exc e => { Fut.empty V E with exc := some e, failed := true, hasResult := true, prod := .done, res := some r }
    ({ s.put s.next f with next := s.next + 1 }, [.make s.next r])
  | .set i r =>
    match (s.fut i).prod with
    | .user => (s.put i { s.fut i with prod := .write r, res := some r }, [.set i r])
    | _ => (s, [])
  | .drop i =>
    -- `Promise::Detach`, :1231-1242
    match (s.fut i).prod with
    | .user => (s.put i { s.fut i with prod := .write (.exc bp), res := some (.exc bp) }, [.broken i])
    | _ => (s, [])
  | .then_ i kind void =>
    -- `InnerThen`, `InnerThenWrapped`, :957-993
    match (s.fut i).prod, (s.fut i).cons with
    | .unborn, _ => (s, [])
    | _, .free =>
      if void then (s.put i { s.fut i with cons := .store (.user kind none) }, [.then_ i kind none])
      else
        let s' := s.put i { s.fut i with cons := .store (.user kind (some s.next)) }
        ({ s'.put s.next { Fut.empty V E with prod := .held } with next := s.next + 1 }, [.then_ i kind (some s.next)])
    | _, _ => (s, [])
  | .get i =>
    let f := s.fut i
    match f.cons, f.ready, f.failed, f.value, f.exc with
    | .free, true, _, some v, _ => (s.put i { f with ready := false, value := none, cons := .done }, [.got i (.val v)])
    | .free, true, _, none, _ => s.crash
    | .free, false, true, _, some e => (s.put i { f with failed := false, cons := .done }, [.got i (.exc e)])
    | .free, false, true, _, none => s.crash
    | _, _, _, _, _ => (s, [])
  | .ret i k =>
    match (s.fut i).run, (s.fut k).prod, (s.fut k).cons with
    | .user none, _, _ => (s.put i { s.fut i with run := .over }, [])
    | .user (some _), .unborn, _ => (s, [])
    | .user (some p), _, .free =>
      let s' := s.put i { s.fut i with run := .over }
      (s'.put k { s'.fut k with cons := .chainR p }, [.returned i k])
    | _, _, _ => (s, [])
  | .prod i => prodStep s i
  | .cons i => consStep s i
  | .run i => runStep s i

/-- A crash ends the program. -/
def step (bp : E) (s : St V E) (a : Act V E) : St V E × List (Ev V E) := if s.crashed then (s, []) else act bp s a

def run (bp : E) : St V E → List (Ev V E) → List (Act V E) → St V E × List (Ev V E)
  | s, tr, [] => (s, tr)
  | s, tr, a :: as => run bp (step bp s a).1 (tr ++ (step bp s a).2) as

end Verif.Future.Core
