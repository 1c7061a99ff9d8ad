/-!
# The end of a fiber connection

/repo/trpc/runtime/iomodel/reactor/fiber/fiber_connection.cc: the counters of events, the fibers of `HandleReadEvent` (lines 82-129), `HandleWriteEvent` (131-161) and
`HandleCloseEvent` (163-189), the tasks of the reactor, `Kill` (312-332), `QueueCleanupCallbackCheck` (334-401) and references to the connection; of
fiber_tcp_connection.cc the mutex and `conn_unavailable_` in `Send` (lines 118-127) and `OnCleanup` (359-385).

Simplified: which results the callbacks return is arbitrary, except that `kLeaving` is returned only after `Kill` (the code checks this); events may come as long
as the connection is enabled, whatever is armed, so `RestartReadIn` and `RestartWriteIn` (whose tasks hold a reference) do nothing here; a `suppress` task may
or may not start a new event; memory is sequentially consistent.
-/

namespace Verif.Conn.Cleanup

inductive Dir where
  | read
  | write
  deriving DecidableEq

/-- The fiber of `HandleReadEvent` or `HandleWriteEvent`; `born`: it has not run yet and holds no reference. -/
inductive Fib where
  | none
  | born
  /-- in `OnReadable` or `OnWritable` -/
  | cb
  /-- before `fetch_sub` (lines 116, 151) -/
  | sub
  /-- before `Suppress...` (lines 109, 148) -/
  | brk
  /-- before `SubmitTask` (lines 103, 142) -/
  | lv
  deriving DecidableEq

/-- The fiber of `HandleCloseEvent`. -/
inductive EFib where
  | none
  | born
  | cb
  | sub
  deriving DecidableEq

/-- Where a thread is in `QueueCleanupCallbackCheck`: before the loads of `cleanup_pending_` and the counters (lines 348-353), before the `exchange` (355), behind it. -/
inductive Chk where
  | pending
  | read
  | write
  | error
  | take
  | submit
  deriving DecidableEq

/-- Tasks of the reactor: lines 318-330; 218-256 and 260-276; 103-106 and 142-145. The last ones hold no reference. -/
inductive Task where
  | kill
  | suppress (d : Dir)
  | reset (d : Dir)
  deriving DecidableEq

/-- What the reactor does for the connection; `ref`: the task holds a reference; `after`: the rest of a `suppress` task. -/
inductive RPc where
  | idle
  | chk (ref : Bool) (c : Chk) (after : Option Dir)
  | after (d : Dir)
  deriving DecidableEq

/-- `cleanup_task` (lines 363-390). -/
inductive Cl where
  | none
  | queued
  /-- `OnCleanup` has begun -/
  | running
  /-- the socket is closed (fiber_tcp_connection.cc:378-384) -/
  | closed
  | done
  deriving DecidableEq

structure State where
  events : Dir → Nat
  fib : Dir → Fib
  errEvents : Nat
  errSeen : Bool
  efib : EFib
  enabled : Bool
  /-- `cleanup_reason` is set -/
  killed : Bool
  /-- `Kill` is between the `compare_exchange` (line 317) and `SubmitTask` -/
  submitting : Bool
  /-- `cleanup_pending_` -/
  pending : Bool
  /-- `cleanup_queued` -/
  taken : Bool
  tasks : List Task
  reactor : RPc
  /-- fibers in `QueueCleanupCallbackCheck` -/
  checkers : List Chk
  cl : Cl
  unavailable : Bool
  /-- a sender has `mutex_` and writes -/
  writing : Bool
  /-- references of others -/
  ext : Nat
  /-- calls of `OnCleanup` -/
  cleanups : Nat

/-- Behind `AttachReactor`. -/
def State.init (ext : Nat) : State :=
  ⟨fun _ => 0, fun _ => .none, 0, false, .none, true, false, false, false, false, [], .idle, [], .none, false, false, ext, 0⟩

def upd {α : Type} (f : Dir → α) (d : Dir) (v : α) : Dir → α := fun x => if x = d then v else f x

def Fib.refs : Fib → Nat
  | .none => 0
  | .born => 0
  | _ => 1

def EFib.refs : EFib → Nat
  | .none => 0
  | .born => 0
  | _ => 1

def Task.refs : Task → Nat
  | .reset _ => 0
  | _ => 1

def RPc.refs : RPc → Nat
  | .idle => 0
  | .chk r _ _ => r.toNat
  | .after _ => 1

/-- The reference of the reactor is given up by `cleanup_task`, which has its own until it ends. -/
def Cl.refs : Cl → Nat
  | .done => 0
  | _ => 1

def State.refs (s : State) : Nat :=
  s.cl.refs + (s.fib .read).refs + (s.fib .write).refs + s.efib.refs + s.checkers.length + (s.tasks.map Task.refs).sum + s.reactor.refs + s.writing.toNat + s.ext

inductive Result where
  | ready
  | suppress
  | leaving
  deriving DecidableEq

inductive Act where
  /-- the reactor reports an event -/
  | event (d : Dir)
  /-- the reactor reports an error -/
  | close
  /-- the fiber begins -/
  | start (d : Dir)
  /-- the callback returns -/
  | ret (d : Dir) (r : Result)
  /-- the fiber goes on behind the callback -/
  | next (d : Dir)
  | errStart
  | errRet
  | errNext
  /-- the `k`-th fiber in `QueueCleanupCallbackCheck` takes a step -/
  | check (k : Nat)
  /-- someone calls `Kill` -/
  | kill
  | killSubmit
  /-- the reactor takes a task -/
  | task
  /-- the reactor goes on with it; `again`: a `suppress` task emulates an event -/
  | reactor (again : Bool)
  | cleanStart
  | cleanClose
  | cleanEnd
  /-- someone in `Send` gets `mutex_` -/
  | sendLock
  | sendUnlock
  deriving DecidableEq

/-- `fail`: a use of the connection after it is destroyed, or a failed check. -/
inductive Res where
  | ok (s : State)
  | fail
  | blocked

/-- Lines 82-84 and 131-133; two fibers are never in the loop at once. -/
def State.handle (s : State) (d : Dir) : Res :=
  if s.events d = 0 then
    if s.fib d = .none then .ok { s with events := upd s.events d 1, fib := upd s.fib d .born } else .fail
  else .ok { s with events := upd s.events d (s.events d + 1) }

/-- A step of `QueueCleanupCallbackCheck`, and where it is then (`none`: it returns). -/
inductive CRes where
  | ok (s : State) (c : Option Chk)
  | fail
  | blocked

def State.checkStep (s : State) : Chk → CRes
  | .pending => .ok s (if s.pending then some .read else none)
  | .read => .ok s (if s.events .read = 0 then some .write else none)
  | .write => .ok s (if s.events .write = 0 then some .error else none)
  | .error => .ok s (if s.errEvents = 0 then some .take else none)
  | .take => if s.taken then .ok s none else .ok { s with taken := true } (some .submit)
  | .submit => if s.writing then .blocked else if s.cl ≠ .none then .fail else .ok { s with unavailable := true, cl := .queued } none

/-- `keep`: `IsReactorKeepRunning`, then `cleanup_task` runs in a fiber of its own and not in the reactor (lines 392-398). -/
def State.exec (keep : Bool) (s : State) : Act → Res
  | .event d => if s.reactor = .idle ∧ s.enabled = true then s.handle d else .blocked
  | .close =>
    if s.reactor = .idle ∧ s.enabled = true then
      if s.errSeen then .ok s
      else if s.errEvents ≠ 0 ∨ s.efib ≠ .none then .fail
      else .ok { s with errSeen := true, errEvents := 1, efib := .born }
    else .blocked
  | .start d => if s.fib d = .born then .ok { s with fib := upd s.fib d .cb } else .blocked
  | .ret d r =>
    if s.fib d = .cb then
      match r with
      | .ready => .ok { s with fib := upd s.fib d .sub }
      | .suppress => .ok { s with fib := upd s.fib d .brk }
      | .leaving => if s.killed then .ok { s with fib := upd s.fib d .lv } else .blocked
    else .blocked
  | .next d =>
    match s.fib d with
    | .sub =>
      if s.events d = 0 then .fail
      else if s.events d = 1 then .ok { s with events := upd s.events d 0, fib := upd s.fib d .none, checkers := s.checkers ++ [.pending] }
      else .ok { s with events := upd s.events d (s.events d - 1), fib := upd s.fib d .cb }
    | .brk => .ok { s with fib := upd s.fib d .none, tasks := s.tasks ++ [.suppress d], checkers := s.checkers ++ [.pending] }
    | .lv => .ok { s with fib := upd s.fib d .none, tasks := s.tasks ++ [.reset d], checkers := s.checkers ++ [.pending] }
    | _ => .blocked
  | .errStart => if s.efib = .born then .ok { s with efib := .cb } else .blocked
  | .errRet => if s.efib = .cb ∧ s.killed = true then .ok { s with efib := .sub } else .blocked
  | .errNext =>
    if s.efib = .sub then
      if s.errEvents ≠ 1 then .fail else .ok { s with errEvents := 0, efib := .none, checkers := s.checkers ++ [.pending] }
    else .blocked
  | .check k =>
    match s.checkers[k]? with
    | none => .blocked
    | some c =>
      match s.checkStep c with
      | .ok s' (some c') => .ok { s' with checkers := s.checkers.set k c' }
      | .ok s' none => .ok { s' with checkers := s.checkers.eraseIdx k }
      | .fail => .fail
      | .blocked => .blocked
  | .kill => if s.killed then .ok s else .ok { s with killed := true, submitting := true }
  | .killSubmit => if s.submitting then .ok { s with submitting := false, tasks := s.tasks ++ [.kill] } else .blocked
  | .task =>
    if s.reactor = .idle then
      match s.tasks with
      | [] => .blocked
      | .kill :: ts =>
        if s.enabled then .ok { s with tasks := ts, enabled := false, pending := true, reactor := .chk true .pending none } else .fail
      | .suppress d :: ts => .ok { s with tasks := ts, events := upd s.events d 0, reactor := .chk true .pending (some d) }
      | .reset d :: ts => .ok { s with tasks := ts, events := upd s.events d 0, reactor := .chk false .pending none }
    else .blocked
  | .reactor again =>
    match s.reactor with
    | .idle => .blocked
    | .chk r c after =>
      match s.checkStep c with
      | .ok s' (some c') => .ok { s' with reactor := .chk r c' after }
      | .ok s' none => .ok { s' with reactor := match after with | none => .idle | some d => .after d }
      | .fail => .fail
      | .blocked => .blocked
    | .after d => if s.enabled && again then ({ s with reactor := .idle } : State).handle d else .ok { s with reactor := .idle }
  | .cleanStart =>
    if s.cl = .queued ∧ (keep = true ∨ s.reactor = .idle) then
      if s.events .read ≠ 0 ∨ s.events .write ≠ 0 ∨ s.errEvents ≠ 0 ∨ s.enabled = true then .fail
      else .ok { s with cl := .running, cleanups := s.cleanups + 1 }
    else .blocked
  | .cleanClose => if s.cl = .running ∧ s.writing = false then .ok { s with cl := .closed, unavailable := true } else .blocked
  | .cleanEnd => if s.cl = .closed then .ok { s with cl := .done } else .blocked
  | .sendLock => if s.writing then .blocked else if s.unavailable then .ok s else .ok { s with writing := true }
  | .sendUnlock => if s.writing then .ok { s with writing := false } else .blocked

/-- Callers of `Kill` and `Send` hold a reference. -/
def Act.outside : Act → Bool
  | .kill => true
  | .sendLock => true
  | _ => false

def State.step (keep : Bool) (s : State) (a : Act) : Res :=
  if s.refs = 0 then
    if a.outside then .blocked else match s.exec keep a with | .blocked => .blocked | _ => .fail
  else s.exec keep a

inductive Reach (keep : Bool) (ext : Nat) : List Act → State → Prop where
  | init : Reach keep ext [] (.init ext)
  | step {l s a s'} : Reach keep ext l s → s.step keep a = .ok s' → Reach keep ext (l ++ [a]) s'

end Verif.Conn.Cleanup
