/-!
# Completion of calls on a shared connection

`FiberTcpConnComplexConnector`, `trpc/transport/client/fiber/conn_complex/fiber_tcp_conn_complex_connector.cc`; the UDP
connector (fiber_udp_io_complex_connector.cc) has the same structure without the health check.

The connector is used by the fibers making calls (`SaveCallContext`), the fiber handling responses, the timer thread and
the fibers closing the connection.  The model interleaves the steps of all of them.  A step is one access to something
shared: the call map (atomic, C28), the lock of the context, the context itself, a timer.  The three writes that fill the
context are one step; a reader that comes too early is reported as a crash.  Not modelled: the decoding of responses,
filters, the backup request, the reference count of the connector.
-/

namespace Verif.Transport.Connector

/-- Why a call is completed: `on_completion_function(ret, …)`. -/
inductive Why
  | ok
  | timeout
  | network
deriving DecidableEq, Repr

/-- Where a calling fiber is. -/
inductive Pc
  | idle
  /-- After `IsHealthy`, :266. -/
  | checked
  /-- After `AllocateContext`, :272; the context is in the map and locked. -/
  | inserted
  /-- The fields are written, :274-278. -/
  | filled
  /-- The timer is enabled, :280-281. -/
  | armed
  /-- The lock is released, `SaveCallContext` has returned true. -/
  | saved
  /-- The request has been given to the connection (`SendReqMsg`). -/
  | sent
  /-- `SaveCallContext` has returned false. -/
  | rejected
deriving DecidableEq, Repr

inductive Timer
  | none
  | armed
  /-- The callback has been started. -/
  | fired
  | killed
deriving DecidableEq, Repr

/-- The activities that complete calls. -/
inductive Disp
  /-- `DispatchException(id, …)`, :297: about to call `TryReclaimContext`. -/
  | reclaim (id : Nat) (why : Why)
  /-- :303-306, waiting for the lock of the context. -/
  | lock (c : Nat) (why : Why)
  /-- `MessageHandleFunction`, :234, about to call `TryReclaimContext` for a response. -/
  | response (id : Nat)
  /-- :242-247, about to use the fields of the context. -/
  | use (c : Nat)
  /-- :308-310 or :330-332, about to kill the timer. -/
  | kill (c : Nat) (why : Why)
  /-- :318 or :339, about to call the completion function; the context is destroyed afterwards. -/
  | complete (c : Nat) (why : Why)
deriving DecidableEq, Repr

structure St where
  healthy : Bool
  /-- The call map: request id to context.  Contexts are named by their calls. -/
  map : Nat → Option Nat
  pc : Nat → Pc
  timer : Nat → Timer
  disp : List Disp
  crashed : Bool

inductive Ev
  /-- The completion function of call `c` is called. -/
  | done (c : Nat) (why : Why)
  /-- The timer of call `c` fires. -/
  | fired (c : Nat)
  /-- The request of call `c` is given to the connection. -/
  | sent (c : Nat)
  /-- A response with request id `id` has been received. -/
  | responded (id : Nat)
  /-- The connection is found to be broken or is closed. -/
  | closed
  /-- The requests of a closed connection are cleared, among them request `id`. -/
  | swept (id : Nat)
  /-- The process aborts or accesses memory illegally. -/
  | crash
deriving DecidableEq, Repr

inductive Act
  /-- The fiber of call `c` makes its next step. -/
  | call (c : Nat)
  /-- The timer of call `c` expires. -/
  | fire (c : Nat)
  /-- A response with request id `id` arrives. -/
  | response (id : Nat)
  /-- The connector becomes unhealthy. -/
  | close
  /-- `ClearReqMsg`, :175-183, starts `DispatchException(id, …)`. -/
  | sweep (id : Nat)
  /-- The `i`-th activity makes its next step. -/
  | disp (i : Nat)
deriving DecidableEq, Repr

def init : St := ⟨true, fun _ => none, fun _ => .idle, fun _ => .none, [], false⟩

def upd {β : Type} (f : Nat → β) (k : Nat) (v : β) : Nat → β := fun x => if x = k then v else f x

/-- The lock of a context is held from its allocation to the end of `SaveCallContext`. -/
def St.locked (s : St) (c : Nat) : Bool :=
  match s.pc c with
  | .inserted | .filled | .armed => true
  | _ => false

def St.crash (s : St) : St × List Ev := ({ s with crashed := true }, [.crash])

/-- `SaveCallContext`, :264-284, and `SendReqMsg`.  `rid` gives the request ids. -/
def callStep (rid : Nat → Nat) (s : St) (c : Nat) : St × List Ev :=
  match s.pc c with
  | .idle =>
    if s.healthy then ({ s with pc := upd s.pc c .checked }, [])
    else ({ s with pc := upd s.pc c .rejected }, [.done c .network])
  | .checked =>
    match s.map (rid c) with
    | some _ => s.crash
    | none => ({ s with map := upd s.map (rid c) (some c), pc := upd s.pc c .inserted }, [])
  | .inserted => ({ s with pc := upd s.pc c .filled }, [])
  | .filled => ({ s with pc := upd s.pc c .armed, timer := upd s.timer c .armed }, [])
  | .armed => ({ s with pc := upd s.pc c .saved }, [])
  | .saved => ({ s with pc := upd s.pc c .sent }, [.sent c])
  | .sent | .rejected => (s, [])

/-- One step of an activity: what happens, and the activity that remains. -/
def dispStep (s : St) : Disp → (St × List Ev) × Option Disp
  | .reclaim id why =>
    match s.map id with
    | none => ((s, []), none)
    | some c => (({ s with map := upd s.map id none }, []), some (.lock c why))
  | .lock c why => if s.locked c then ((s, []), some (.lock c why)) else ((s, []), some (.kill c why))
  | .response id =>
    match s.map id with
    | none => ((s, []), none)
    | some c => (({ s with map := upd s.map id none }, []), some (.use c))
  | .use c => if s.pc c = .inserted then (s.crash, none) else ((s, []), some (.kill c .ok))
  | .kill c why =>
    if s.timer c = .armed then (({ s with timer := upd s.timer c .killed }, []), some (.complete c why))
    else ((s, []), some (.complete c why))
  | .complete c why =>
    -- The context is destroyed although `SaveCallContext` still uses it.
    if s.locked c then (({ s with crashed := true }, [.done c why, .crash]), none)
    else ((s, [.done c why]), none)

def step (rid : Nat → Nat) (s : St) (a : Act) : St × List Ev :=
  if s.crashed then (s, []) else
  match a with
  | .call c => callStep rid s c
  | .fire c =>
    if s.timer c = .armed then
      ({ s with timer := upd s.timer c .fired, disp := s.disp ++ [.reclaim (rid c) .timeout] }, [.fired c])
    else (s, [])
  | .response id => ({ s with disp := s.disp ++ [.response id] }, [.responded id])
  | .close => ({ s with healthy := false }, [.closed])
  | .sweep id => ({ s with disp := s.disp ++ [.reclaim id .network] }, [.swept id])
  | .disp i =>
    match s.disp[i]? with
    | none => (s, [])
    | some d =>
      let r := dispStep s d
      ({ r.1.1 with disp := s.disp.take i ++ r.2.toList ++ s.disp.drop (i + 1) }, r.1.2)

def run (rid : Nat → Nat) : St → List Ev → List Act → St × List Ev
  | s, tr, [] => (s, tr)
  | s, tr, a :: as => run rid (step rid s a).1 (tr ++ (step rid s a).2) as

end Verif.Transport.Connector
