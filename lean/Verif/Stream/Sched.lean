/-!
# The job scheduler of a stream

/repo/trpc/stream/fiber_stream_job_scheduler.{h,cc}: the queues of received messages and messages to send of one stream, and the fiber that handles them (`Run`).
A step is one critical section of `stream_mutex_`, the handling of one message, or one call that a handler makes (`PushSendMessage`, `Stop`).

The handlers are arbitrary relations on a state of the stream that others may change too. `RemoveStream` is counted; what it locks is the topic of
`Verif.Stream.Locks`. Simplified: the conditions of `Join` are looked at as `done`.
-/

namespace Verif.Stream

/-- What a handler asks of the scheduler (fiber_stream_job_scheduler.cc:51-80, 87-98). -/
inductive Op (S : Type) where
  | push (m : S)
  | stop

/-- What a handler does: the new state, its calls, and whether it returns `RetCode::kError`. -/
structure Out (σ S : Type) where
  st : σ
  ops : List (Op S)
  err : Bool

structure Handlers (σ R S : Type) where
  recv : σ → R → Out σ S → Prop
  send : σ → S → Out σ S → Prop
  /-- what others do with the state of the stream -/
  env : σ → σ → Prop

/-- Where the fiber is. -/
inductive Pc (R S : Type) where
  /-- there is none -/
  | off
  /-- at the top of the loop (line 109) -/
  | top
  /-- with the messages that are left of the queues it took; `ops`, `err`: the rest of the current handler -/
  | batch (rs : List R) (ss : List (Bool × S)) (ops : List (Op S)) (err : Bool)
  /-- before `RemoveStream` (line 161) -/
  | remove
  /-- before the last critical section (lines 162-164) -/
  | finish

/-- Messages to send are marked if they were pushed to the front. -/
structure State (σ R S : Type) where
  st : σ
  recvQ : List R
  sendQ : List (Bool × S)
  terminate : Bool
  done : Bool
  running : Bool
  pc : Pc R S
  /-- a second fiber was started beside the first -/
  broken : Bool
  /-- a handler has returned an error -/
  failed : Bool
  /-- accepted messages -/
  recvd : List R
  sent : List (Bool × S)
  /-- handled messages -/
  handledR : List R
  handledS : List (Bool × S)
  /-- calls of `RemoveStream` -/
  removed : Nat

variable {σ R S : Type}

def State.init (st : σ) : State σ R S := ⟨st, [], [], false, false, false, .off, false, false, [], [], [], [], 0⟩

/-- The end of both push functions: start the fiber if it does not run (lines 39-48, 68-77). -/
def State.wake (s : State σ R S) : State σ R S :=
  if s.running then s
  else match s.pc with
    | .off => { s with running := true, pc := .top }
    | _ => { s with broken := true }

/-- `PushRecvMessage` (lines 25-49). -/
def State.pushRecv (s : State σ R S) (r : R) : State σ R S :=
  if s.terminate then s else ({ s with recvQ := s.recvQ ++ [r], recvd := s.recvd ++ [r] } : State σ R S).wake

/-- `PushSendMessage` (lines 51-80). -/
def State.pushSend (s : State σ R S) (front : Bool) (m : S) : State σ R S :=
  if s.terminate then s
  else ({ s with sendQ := if front then (true, m) :: s.sendQ else s.sendQ ++ [(false, m)], sent := s.sent ++ [(front, m)] } : State σ R S).wake

/-- `Stop` (lines 87-98). -/
def State.stop (s : State σ R S) : State σ R S :=
  let s : State σ R S := { s with terminate := true }
  if s.running then s else { s with done := true, removed := s.removed + 1 }

def State.op (s : State σ R S) : Op S → State σ R S
  | .push m => s.pushSend false m
  | .stop => s.stop

/-- A step of the fiber. -/
inductive Run (h : Handlers σ R S) : State σ R S → State σ R S → Prop where
  /-- lines 110-121, nothing to do and not stopped -/
  | rest {s} : s.pc = .top → s.recvQ = [] → s.sendQ = [] → s.terminate = false → Run h s { s with running := false, pc := .off }
  /-- nothing to do and stopped -/
  | last {s} : s.pc = .top → s.recvQ = [] → s.sendQ = [] → s.terminate = true → Run h s { s with pc := .remove }
  /-- lines 123-126 -/
  | take {s} : s.pc = .top → (s.recvQ ≠ [] ∨ s.sendQ ≠ []) → Run h s { s with recvQ := [], sendQ := [], pc := .batch s.recvQ s.sendQ [] false }
  /-- lines 131-135 -/
  | recv {s rs ss r out} : s.pc = .batch (r :: rs) ss [] false → h.recv s.st r out →
      Run h s { s with st := out.st, pc := .batch rs ss out.ops out.err, handledR := s.handledR ++ [r], failed := out.err }
  /-- lines 148-152 -/
  | send {s ss m out} : s.pc = .batch [] (m :: ss) [] false → h.send s.st m.2 out →
      Run h s { s with st := out.st, pc := .batch [] ss out.ops out.err, handledS := s.handledS ++ [m], failed := out.err }
  /-- a call of the handler -/
  | op {s rs ss o ops err} : s.pc = .batch rs ss (o :: ops) err → Run h s { s.op o with pc := .batch rs ss ops err }
  /-- lines 142-145, 154-157 -/
  | error {s rs ss} : s.pc = .batch rs ss [] true → Run h s { s.stop with pc := .remove }
  | next {s} : s.pc = .batch [] [] [] false → Run h s { s with pc := .top }
  | remove {s} : s.pc = .remove → Run h s { s with pc := .finish, removed := s.removed + 1 }
  | finish {s} : s.pc = .finish → Run h s { s with pc := .off, done := true }

/-- A step of anyone. -/
inductive Step (h : Handlers σ R S) : State σ R S → State σ R S → Prop where
  | run {s s'} : Run h s s' → Step h s s'
  | pushRecv {s} (r : R) : Step h s (s.pushRecv r)
  | pushSend {s} (front : Bool) (m : S) : Step h s (s.pushSend front m)
  | stop {s} : Step h s s.stop
  | env {s st} : h.env s.st st → Step h s { s with st := st }

inductive Reach (h : Handlers σ R S) (st0 : σ) : State σ R S → Prop where
  | init : Reach h st0 (.init st0)
  | step {s s'} : Reach h st0 s → Step h s s' → Reach h st0 s'

end Verif.Stream
