/-!
# The connection pool of the future client transport (TCP)

/repo/trpc/transport/client/future/conn_pool: conn_pool.h, future_tcp_conn_pool_connector_group.cc, future_tcp_conn_pool_connector.cc, future_conn_pool_connection_handler.cc,
future_conn_pool_message_timeout_handler.cc; `TcpConnection::HandleClose` with `destroy`, tcp_connection.cc:340-371.

* A group of connectors is used by one reactor thread; each event below is one task or event of the reactor.
* Requests are numbers, all different (no conflict of request ids). Timeouts may come at any time for any request that waits (Verif/Transport/Wheel.lean is about when they come).
* Responses are handed to other threads (`rsp_dispatch_function`); user code does not run inside an event.
* `out` is a ghost: the requests that were written to the connection and that the peer has not answered. The peer answers each request at most once, in order; one answer per read event.
* Left out: streams on pooled connections, backup requests, `Stop`/`Destroy`.
-/

namespace Verif.Transport.Pool

/-- What the caller of a request gets: the answer of the peer to request `x`, or an error. -/
inductive Res where
  | rsp (x : Nat)
  | decode | network | timeout | overload
deriving DecidableEq

structure Conn where
  /-- `is_fixed_connection` -/
  fixed : Bool
  out : List Nat
deriving DecidableEq

structure P where
  max : Nat
  /-- `free_`, its back first, and `is_in_` -/
  free : List Nat
  isIn : Nat → Bool
  /-- `connectors_` -/
  conn : Nat → Option Conn
  /-- the shared send queue -/
  sendq : Nat → Option Nat
  /-- the pending queue of a connector -/
  own : Nat → List Nat
  /-- the pending queue of the pool -/
  pend : List Nat
  /-- the connector ids that users hold, with the number of the connection -/
  handle : Nat → Option Nat
  /-- `allow_reconnect` -/
  reconnect : Bool
  /-- requests that were released by the caller while they are in a queue -/
  freed : List Nat
  /-- all requests that were given to the group, and the results that were dispatched -/
  asked : List Nat
  done : List (Nat × Res)

/-- `ConnPool` (conn_pool.h:125-155). -/
def P.fresh (max : Nat) (reconnect : Bool) : P :=
  ⟨max, (List.range max).reverse, fun i => decide (i < max), fun _ => none, fun _ => none, fun _ => [], [], fun _ => none, reconnect, [], [], []⟩

def upd {α : Type} (f : Nat → α) (i : Nat) (v : α) : Nat → α := fun j => if j = i then v else f j

/-- `GenAvailConnectorId` (conn_pool.h:157-171). -/
def P.gen (p : P) : Option (Nat × P) :=
  match p.free with
  | [] => none
  | i :: l => some (i, { p with free := l, isIn := upd p.isIn i false })

/-- `RecycleConnectorId` (lines 173-180). -/
def P.recycle (p : P) (i : Nat) : P := if p.isIn i then p else { p with isIn := upd p.isIn i true, free := i :: p.free }

/-- `DispatchException`, `DispatchResponse`. -/
def P.finish (p : P) (r : Nat) (res : Res) : P := { p with done := p.done ++ [(r, res)] }

/-- `PopFromSendQueue` and, if there was a request, what the caller gets. -/
def P.failSend (p : P) (i : Nat) (res : Res) : P :=
  match p.sendq i with
  | none => p
  | some r => ({ p with sendq := upd p.sendq i none } : P).finish r res

/-- `HandleClose(true)` with `CleanResource` (future_conn_pool_connection_handler.cc:76-102); nothing if the connection is closed already. -/
def P.close (p : P) (i : Nat) : P :=
  match p.conn i with
  | none => p
  | some _ =>
    let p1 := p.failSend i .network
    let p2 : P := { p1 with done := p1.done ++ (p1.own i).map (fun r => (r, .network)), own := upd p1.own i [] }
    { p2.recycle i with conn := upd p2.conn i none }

/-- `ConnPool::PushToPendingQueue` (conn_pool.h:216-242). -/
def P.pushPend (p : P) (r : Nat) : P := if p.pend.length > 10000 then p.finish r .overload else { p with pend := p.pend ++ [r] }

/-- `FutureConnPoolMessageTimeoutHandler::PushToPendingQueue` (lines 88-112). -/
def P.pushOwn (p : P) (i r : Nat) : P := if (p.own i).length > 5000 then p.finish r .overload else { p with own := upd p.own i (p.own i ++ [r]) }

/-- What `Send` of the connection does: it takes the message; it does not and leaves the connection (the queue of a connecting connection is full, or the encoding of a stream message
failed); it does not and closes the connection. -/
inductive Sent where
  | ok | full | broken
deriving DecidableEq

/-- `PushToSendQueue` and `SendTcpMsg`, with what follows a failure (future_tcp_conn_pool_connector.cc:112-123, future_conn_pool_connection_handler.cc:114-127); whether it was sent.
`none`: the check that the send queue of the connection is empty failed. -/
def P.write (p : P) (i r : Nat) (s : Sent) : Option (P × Bool) :=
  match p.sendq i with
  | some _ => none
  | none =>
    let p1 : P := { p with sendq := upd p.sendq i (some r) }
    match s with
    | .ok => some ({ p1 with conn := upd p1.conn i ((p1.conn i).map fun c => { c with out := c.out ++ [r] }) }, true)
    | .full => some (p1.failSend i .network, false)
    | .broken => some ((p1.close i).failSend i .network, false)

/-- `FutureTcpConnPoolConnector::SendReqMsg` (lines 55-64, 99-124); `stale`: the connection has been connecting for more than 2 s. -/
def P.sendOn (p : P) (i r : Nat) (fixed stale : Bool) (s : Sent) : Option P :=
  match p.sendq i with
  | some _ => some (p.pushOwn i r)
  | none =>
    if stale then some ((if fixed then p.pushOwn i r else p.pushPend r).close i)
    else (p.write i r s).map (·.1)

/-- `GetOrCreateConnector` (future_tcp_conn_pool_connector_group.cc:67-96); `ok`: a connection can be made. -/
def P.getOrCreate (p : P) (i : Nat) (ok : Bool) : Option P :=
  match p.conn i with
  | some _ => some p
  | none => if ok then some { p with conn := upd p.conn i (some ⟨false, []⟩) } else none

inductive Event where
  /-- a request without a fixed connection -/
  | send (r : Nat) (ok stale : Bool) (s : Sent)
  /-- a one-way request without a fixed connection -/
  | oneway (ok : Bool) (s : Sent)
  /-- the peer answers on this connection; `pick`: the pending request that `Pop()` would take -/
  | answer (i : Nat) (decoded reusable : Bool) (pick : Nat) (s : Sent)
  /-- timeouts in the send queue, the queue of the pool, the queue of a connector -/
  | lateSend (i : Nat)
  | latePend (r : Nat)
  | lateOwn (i r : Nat)
  /-- the connection is closed, for an error or because it was idle -/
  | lost (i : Nat)
  /-- a user takes a fixed connection, uses it, and gives it back -/
  | fix (h : Nat) (ok : Bool)
  | sendFixed (h r : Nat) (ok stale : Bool) (s : Sent)
  | onewayFixed (h r : Nat) (ok stale : Bool) (s : Sent)
  | release (h : Nat)

/-- `SendPendingMsg` (future_conn_pool_connection_handler.cc:111-131): first the requests of the connector, then those of the pool. -/
def P.sendPending (p : P) (i pick : Nat) (s : Sent) : Option (P × Bool) :=
  if pick ∈ p.own i then ({ p with own := upd p.own i ((p.own i).erase pick) } : P).write i pick s
  else if p.own i = [] ∧ pick ∈ p.pend then ({ p with pend := p.pend.erase pick } : P).write i pick s
  else some (p, false)

/-- Whether `pick` is a request that `Pop()` may take, or there is none. -/
def P.mayPick (p : P) (i pick : Nat) : Prop := if p.own i ≠ [] then pick ∈ p.own i else p.pend ≠ [] → pick ∈ p.pend

/-- `HandleMessage` with one answer, and what the connection does with the result (lines 25-74; tcp_connection.cc:186-210). -/
def P.answered (p : P) (i : Nat) (c : Conn) (x : Nat) (decoded reusable : Bool) (pick : Nat) (s : Sent) : Option P :=
  if !decoded then some ((p.failSend i .decode).close i)
  else match (p.failSend i (.rsp x)).sendPending i pick s with
    | none => none
    | some (p2, sent) =>
      let p3 := if !sent && !c.fixed then p2.recycle i else p2
      some (if reusable then p3 else p3.close i)

/-- The connection of a fixed connector id (future_tcp_conn_pool_connector_group.cc:198-215). -/
def P.fixedConn (p : P) (i : Nat) (ok : Bool) : Option P :=
  if p.reconnect then (p.getOrCreate i ok).map fun p' => { p' with conn := upd p'.conn i ((p'.conn i).map fun c => { c with fixed := true }) }
  else match p.conn i with
    | some c => if c.fixed then some p else none
    | none => none

/-- One event; `none`: it cannot happen, or a check fails. -/
inductive Step (p : P) : Event → P → Prop where
  /-- `SendReqMsg` (lines 142-170) -/
  | sendPend {r ok stale s} (hr : r ∉ p.asked) (hg : p.gen = none) :
      Step p (.send r ok stale s) (({ p with asked := p.asked ++ [r] } : P).pushPend r)
  | sendFail {r stale s i p1} (hr : r ∉ p.asked) (hg : p.gen = some (i, p1)) (hc : p1.getOrCreate i false = none) :
      Step p (.send r false stale s) ((({ p1 with asked := p1.asked ++ [r] } : P).recycle i).finish r .network)
  | send {r ok stale s i p1 p2 p3} (hr : r ∉ p.asked) (hg : p.gen = some (i, p1)) (hc : p1.getOrCreate i ok = some p2)
      (hs : ({ p2 with asked := p2.asked ++ [r] } : P).sendOn i r ((p2.conn i).any Conn.fixed) stale s = some p3) : Step p (.send r ok stale s) p3
  /-- `SendOnly` (lines 172-196, future_tcp_conn_pool_connector.cc:66-75) -/
  | oneway {ok s i p1 p2} (hg : p.gen = some (i, p1)) (hc : p1.getOrCreate i ok = some p2) :
      Step p (.oneway ok s) (if (p2.conn i).any Conn.fixed then (if s = .broken then p2.close i else p2) else (if s = .broken then p2.close i else p2).recycle i)
  | onewayFail {s i p1} (hg : p.gen = some (i, p1)) (hc : p1.getOrCreate i false = none) : Step p (.oneway false s) (p1.recycle i)
  | answer {i decoded reusable pick s c x l p1} (hc : p.conn i = some c) (ho : c.out = x :: l) (hp : p.mayPick i pick)
      (ha : ({ p with conn := upd p.conn i (some { c with out := l }) } : P).answered i c x decoded reusable pick s = some p1) :
      Step p (.answer i decoded reusable pick s) p1
  | lateSend {i r} (hs : p.sendq i = some r) : Step p (.lateSend i) ((p.failSend i .timeout).close i)
  | latePend {r} (hr : r ∈ p.pend) : Step p (.latePend r) (({ p with pend := p.pend.erase r } : P).finish r .timeout)
  | lateOwn {i r} (hr : r ∈ p.own i) : Step p (.lateOwn i r) (({ p with own := upd p.own i ((p.own i).erase r) } : P).finish r .timeout)
  | lost {i c} (hc : p.conn i = some c) : Step p (.lost i) (p.close i)
  /-- `GetOrCreateConnector` (lines 120-140) -/
  | fix {h ok i p1 p2} (hh : p.handle h = none) (hg : p.gen = some (i, p1)) (hc : p1.getOrCreate i ok = some p2) :
      Step p (.fix h ok) { p2 with conn := upd p2.conn i ((p2.conn i).map fun c => { c with fixed := true }), handle := upd p2.handle h (some i) }
  | fixFail {h i p1} (hg : p.gen = some (i, p1)) (hc : p1.getOrCreate i false = none) : Step p (.fix h false) (p1.recycle i)
  | sendFixed {h r ok stale s i p1 p2} (hr : r ∉ p.asked) (hh : p.handle h = some i) (hc : p.fixedConn i ok = some p1)
      (hs : ({ p1 with asked := p1.asked ++ [r] } : P).sendOn i r true stale s = some p2) : Step p (.sendFixed h r ok stale s) p2
  | sendFixedFail {h r ok stale s i} (hr : r ∉ p.asked) (hh : p.handle h = some i) (hc : p.fixedConn i ok = none) :
      Step p (.sendFixed h r ok stale s) (({ p with asked := p.asked ++ [r] } : P).finish r .network)
  /-- `SendOnly` with a fixed connection calls `SendReqMsg` (line 176), and then the request is released (future_transport.cc:511-514) -/
  | onewayFixed {h r ok stale s i p1 p2} (hr : r ∉ p.asked) (hh : p.handle h = some i) (hc : p.fixedConn i ok = some p1)
      (hs : ({ p1 with asked := p1.asked ++ [r] } : P).sendOn i r true stale s = some p2) :
      Step p (.onewayFixed h r ok stale s) { p2 with freed := p2.freed ++ [r] }
  /-- `ReleaseConnector` (lines 98-118) -/
  | releaseNone {h i} (hh : p.handle h = some i) (hc : p.conn i = none) : Step p (.release h) { p with handle := upd p.handle h none }
  | release {h i c} (hh : p.handle h = some i) (hc : p.conn i = some c) (hs : p.sendq i = none) (ho : p.own i = []) :
      Step p (.release h) (({ p with conn := upd p.conn i (some { c with fixed := false }), handle := upd p.handle h none } : P).recycle i)

def Event.isOnewayFixed : Event → Bool
  | .onewayFixed .. => true
  | _ => false

/-- Reachable by events, with or without one-way requests on fixed connections. -/
inductive Reach (max : Nat) (rc ow : Bool) : P → Prop where
  | init : Reach max rc ow (.fresh max rc)
  | step {p p' : P} {e : Event} (h : Reach max rc ow p) (he : e.isOnewayFixed = true → ow = true) (hs : Step p e p') : Reach max rc ow p'

end Verif.Transport.Pool
