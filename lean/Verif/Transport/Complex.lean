import Verif.Common.Upd

/-!
# Multiplexed connections of the future client transport

/repo/trpc/transport/client/future/conn_complex/: future_conn_complex_message_timeout_handler.cc, future_conn_complex_connection_handler.cc, future_tcp_conn_complex_connector.cc,
future_udp_io_complex_connector.cc; backup requests of ../future_transport.cc; `Disconnect` of ../future_tcp_connector_group_manager.cc.

* All TCP connections of a thread share one queue of waiting requests, keyed by the request id. It is that of C92: a map with due times; `DoTimeout(now)` hands out the entries that are due
  (`fire`, one by one, in any order). Its limit is an input (`over`).
* Messages are numbers. `Cfg` gives the call of a message, its request id, the time-out of a call and, for backup requests, the delay. The messages of a call share its context and so its
  request id and its time-out (`tmo`, a uint32_t, changed by the code). `prom m`: the message holds the promise that starts the backup requests, as the first message of such a call does.
* A connection is that of C100: `Send` succeeds or fails, and a connection that closes reports the ids of the messages it has not written (an arbitrary list).
* The continuation that sends the backup requests is a task of the same reactor (future.h:81-84, 167-180): it runs after the handler that starts it (`resend`).
* `done`, `sent`, `late` are ghosts: the results in order, when a message was sent, by how much its first time-out was late.
-/

namespace Verif.Transport.Complex

inductive Res where
  | answer (conn : Nat)
  | timeout
  | network
  | overload
  /-- the request id is in use -/
  | conflict
  | connect
  /-- a backup request whose call still waits: its answer will be given to the first message -/
  | merged
deriving DecidableEq

structure Cfg where
  call : Nat → Nat
  rid : Nat → Nat
  /-- the time-out of a call -/
  time : Nat → Nat
  /-- the delay of a call with backup requests -/
  delay : Nat → Option Nat
  /-- the first message of its call -/
  first : Nat → Bool

structure S where
  /-- request id → message, due time -/
  q : Nat → Option (Nat × Nat)
  tmo : Nat → Nat
  prom : Nat → Bool
  /-- calls whose backup requests are to be sent -/
  todo : List Nat
  /-- calls whose backup requests have been created -/
  going : Nat → Bool
  done : List (Nat × Res)
  sent : Nat → Option Nat
  late : Nat → Nat
  /-- a failed assertion or a null pointer -/
  crash : Bool

def S.init (c : Cfg) : S :=
  ⟨fun _ => none, fun k => c.time k, fun m => c.first m && (c.delay (c.call m)).isSome, [], fun _ => false, [], fun _ => none, fun _ => 0, false⟩

def Res.isAnswer : Res → Bool
  | .answer _ => true
  | _ => false

/-- `DispatchResponse` and `DispatchException` (../common/utils.cc:58-118): the promise of the message is set; if it holds the promise of the backup requests, they are sent unless there is
an answer. -/
def S.finish (s : S) (c : Cfg) (m : Nat) (r : Res) : S :=
  { s with done := s.done ++ [(m, r)], prom := upd s.prom m false, todo := if s.prom m && !r.isAnswer then s.todo ++ [c.call m] else s.todo }

inductive PushRes where
  | ok | existed | error
deriving DecidableEq

/-- `Push` (future_conn_complex_message_timeout_handler.cc:67-103). -/
def S.push (s : S) (c : Cfg) (m now : Nat) (over : Bool) : S × PushRes :=
  if over then (s.finish c m .overload, .error)
  else
    match s.q (c.rid m) with
    | some _ => if (c.delay (c.call m)).isSome then (s, .existed) else (s.finish c m .conflict, .error)
    | none =>
      let t := if s.prom m then (c.delay (c.call m)).getD 0 else s.tmo (c.call m)
      ({ s with q := upd s.q (c.rid m) (some (m, now + t)) }, .ok)

/-- `Pop`, then `DispatchResponse` or `DispatchException`, if there is such a request. -/
def S.pop (s : S) (c : Cfg) (id : Nat) (r : Res) : S :=
  match s.q id with
  | none => s
  | some (m, _) => ({ s with q := upd s.q id none } : S).finish c m r

/-- `NotifyMessageFailed` for each message of a connection that is closed (future_conn_complex_connection_handler.cc:83-102). -/
def S.fail (s : S) (c : Cfg) (ids : List Nat) : S := ids.foldl (fun s id => s.pop c id .network) s

/-- What happens on the connection. -/
inductive Net where
  /-- there is no connection, and none can be made -/
  | none
  /-- the message is taken -/
  | ok
  /-- `Send` fails; the connection reports these ids -/
  | bad (ids : List Nat)

/-- `SendReqMsg` (future_tcp_conn_complex_connector.cc:92-121, 155-194). -/
def S.send (s : S) (c : Cfg) (m now : Nat) (over : Bool) (net : Net) : S :=
  match net with
  | .none => s.finish c m .connect
  | .ok =>
    match s.push c m now over with
    | (s1, .ok) => s1
    | (s1, .existed) => s1.finish c m .merged
    | (s1, .error) => s1
  | .bad ids =>
    match s.push c m now over with
    | (s1, .ok) => (s1.fail c ids).pop c (c.rid m) .network
    | (s1, .existed) => (s1.fail c ids).finish c m .merged
    | (s1, .error) => s1

/-- `SendReqMsgImpl` of UDP (future_udp_io_complex_connector.cc:100-119). -/
def S.sendUdp (s : S) (c : Cfg) (m now : Nat) (over : Bool) (net : Net) : S :=
  match net with
  | .none => s.finish c m .connect
  | .ok => (s.push c m now over).1
  | .bad ids =>
    match s.push c m now over with
    | (s1, .ok) => (s1.fail c ids).pop c (c.rid m) .network
    | (s1, _) => s1

/-- `HandleMessage` of TCP for one response (future_conn_complex_connection_handler.cc:27-69). -/
def S.answer (s : S) (c : Cfg) (conn id : Nat) : S := s.pop c id (.answer conn)

/-- `HandleMessage` of UDP for one response (:104-133): the request is used without a test. -/
def S.answerUdp (s : S) (c : Cfg) (conn id : Nat) : S :=
  match s.q id with
  | none => { s with crash := true }
  | some _ => s.pop c id (.answer conn)

/-- The handler of time-outs (future_conn_complex_message_timeout_handler.cc:27-64), for the entry of `id` at `now`. -/
def S.fire (s : S) (c : Cfg) (id now : Nat) (over : Bool) : S :=
  match s.q id with
  | none => s
  | some (m, due) =>
    let s1 : S := { s with q := upd s.q id none }
    if s.prom m then
      let k := c.call m
      let d := (c.delay k).getD 0
      let s2 : S := { s1 with prom := upd s1.prom m false, todo := s1.todo ++ [k], late := upd s1.late m (now - due) }
      if s2.tmo k ≤ d then { s2 with crash := true }
      else (({ s2 with tmo := upd s2.tmo k (s2.tmo k - d) } : S).push c m now over).1
    else s1.finish c m .timeout

/-- The loop of `SendBackupRequest` (future_transport.cc:336-356): the time-out of the context is lowered for each backup message. The messages are sent later. -/
def S.resend (s : S) (c : Cfg) (k n : Nat) : S :=
  { s with todo := s.todo.filter (· ≠ k), going := upd s.going k true, tmo := upd s.tmo k ((s.tmo k + (2 ^ 32 - (c.delay k).getD 0 % 2 ^ 32) * n) % 2 ^ 32) }

inductive Step (c : Cfg) (udp : Bool) : S → S → Prop
  /-- a message is sent; one that is not the first of its call only as a backup request -/
  | send {s : S} (m now : Nat) (over : Bool) (net : Net) (hs : s.sent m = none)
      (hb : c.first m = true ∨ s.going (c.call m) = true) :
      Step c udp s (let s1 : S := { s with sent := upd s.sent m (some now) }; if udp then s1.sendUdp c m now over net else s1.send c m now over net)
  | answer {s : S} (conn id : Nat) : Step c udp s (if udp then s.answerUdp c conn id else s.answer c conn id)
  | lost {s : S} (ids : List Nat) : Step c udp s (s.fail c ids)
  | fire {s : S} (id now : Nat) (over : Bool) (m due : Nat) (hq : s.q id = some (m, due)) (hd : due ≤ now) : Step c udp s (s.fire c id now over)
  | resend {s : S} (k n : Nat) (hk : k ∈ s.todo) : Step c udp s (s.resend c k n)

/-- Each call has one first message; a call with backup requests has a time-out above the delay (service_proxy.cc:422-431), both in a uint32_t. -/
structure Cfg.Ok (c : Cfg) : Prop where
  one : ∀ m m', c.first m = true → c.first m' = true → c.call m = c.call m' → m = m'
  delay : ∀ k d, c.delay k = some d → d < c.time k
  range : ∀ k, c.time k < 2 ^ 32

inductive Reach (c : Cfg) (udp : Bool) : S → Prop
  | init : Reach c udp (.init c)
  | step {s s' : S} (h : Reach c udp s) (hc : s.crash = false) (hs : Step c udp s s') : Reach c udp s'

/-! ## Disconnect -/

/-- `std::string::find` finds something. -/
def occurs (pat : List Char) : List Char → Bool
  | [] => pat.isEmpty
  | c :: l => pat.isPrefixOf (c :: l) || occurs pat l

/-- The groups that are left by `Disconnect(ip)` (future_tcp_connector_group_manager.cc:141-151), by their keys "ip:port". -/
def disconnect (ip : List Char) (groups : List (List Char)) : List (List Char) := groups.filter fun g => !occurs ip g

end Verif.Transport.Complex
