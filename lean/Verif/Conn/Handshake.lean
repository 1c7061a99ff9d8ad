/-! Model of the handshake of a TCP connection in fibers and of its effect on the queue of messages (C85, C86):
`DoHandshake`, `StartHandshaking`, and the beginnings of `Send`, `OnReadable` and `OnWritable`.

Source: `trpc/runtime/iomodel/reactor/fiber/fiber_tcp_connection.cc` lines 90-145, 170-192, 267-300, 389-436; `fiber_tcp_connection.h` lines 65-70.

Simplified: of the queue only whether it is empty is kept (`Verif.Conn.Writes` has the whole), and a flush is one step that may fail to empty it. Arming and
suppressing an event take effect at once (`Verif.Conn.Writes` has the tasks of the reactor). What the handler answers is free (`Status`): TLS, the handshake of
redis and none are all instances. A message that finds the queue not empty changes nothing here and is left out. After a failed handshake the connection is
closed and nothing more is modelled (`Verif.Conn.Cleanup`). -/

namespace Verif.Conn.Handshake

/-- `IoHandler::HandshakeStatus` -/
inductive Status where
  | failed | succ | needRead | needWrite
  deriving DecidableEq

/-- The one who found the queue empty when it appended its message (lines 108-122). -/
inductive Pc where
  | idle
  /-- before the first look at `done` (line 109) -/
  | check
  /-- saw that it is false, before the lock (line 110) -/
  | lock
  /-- in `FlushWritingBuffer` -/
  | flush
  deriving DecidableEq

structure State where
  /-- messages are in the queue -/
  busy : Bool
  sender : Pc
  done : Bool
  /-- `pending_restart_writes` -/
  pending : Bool
  /-- `need_restart_read` -/
  needRestartRead : Bool
  /-- `StartHandshaking` was called -/
  started : Bool
  /-- read and write events are asked for -/
  read : Nat
  write : Nat
  /-- `OnWritable` is in `FlushWritingBuffer` -/
  event : Bool
  killed : Bool
  /-- how often the queue was emptied -/
  emptied : Nat
  deriving DecidableEq

def State.init : State := ⟨false, .idle, false, false, true, false, 0, 0, false, false, 0⟩

inductive Result where
  | ok (s : State)
  /-- a failed check, or two in `FlushWritingBuffer` at once -/
  | fail
  /-- the step is not possible -/
  | stuck

/-- `DoHandshake` (lines 389-436), one step as it holds the lock; `st` is what the handler would answer. -/
def doHandshake (s : State) (fromReadable : Bool) (st : Status) : Option (State × Status) :=
  if s.done then some (s, .succ) else
  match st with
  | .failed => some (s, .failed)
  | .succ =>
    if s.needRestartRead && fromReadable then none  -- TRPC_ASSERT in line 406
    else
      let s1 := if s.needRestartRead then { s with read := s.read + 1 } else s
      let s2 := if s.pending && fromReadable then { s1 with write := s1.write + 1 } else s1
      some ({ s2 with done := true }, .succ)
  | .needWrite => some ({ s with needRestartRead := true }, .needWrite)
  | .needRead => some ({ s with needRestartRead := false }, .needRead)

inductive Act where
  /-- `Send` with an empty queue -/
  | send
  /-- the next step of that sender; `all`: the flush empties the queue -/
  | sender (all : Bool)
  /-- `StartHandshaking` -/
  | start (st : Status)
  /-- `OnReadable` up to line 192 -/
  | readable (st : Status)
  /-- `OnWritable` up to line 286 -/
  | writable (st : Status)
  /-- the flush of `OnWritable` ends -/
  | flushed (all : Bool)
  deriving DecidableEq

/-- What may begin a flush: a message is there (`TRPC_ASSERT(current)` in `FlushTo`), and nobody else is at it. -/
def State.mayFlush (s : State) : Bool := s.busy && s.sender != .flush && !s.event

def State.step (s : State) : Act → Result
  | .send => if !s.killed && !s.busy && s.sender == .idle then .ok { s with busy := true, sender := .check } else .stuck
  | .sender all =>
    if s.killed then .stuck else
    match s.sender with
    | .idle => .stuck
    | .check =>
      if s.done then (if s.mayFlush then .ok { s with sender := .flush } else .fail)
      else .ok { s with sender := .lock }
    | .lock =>
      if s.done then (if s.mayFlush then .ok { s with sender := .flush } else .fail)
      else if s.pending then .fail  -- TRPC_ASSERT in line 112
      else .ok { s with pending := true, sender := .idle }
    | .flush =>
      if all then .ok { s with busy := false, sender := .idle, emptied := s.emptied + 1 }
      else .ok { s with write := s.write + 1, sender := .idle }
  | .start st =>
    if s.killed || s.started then .stuck else
    match doHandshake { s with started := true } false st with
    | none => .fail
    | some (s', .failed) => .ok { s' with killed := true }
    | some (s', .succ) => .ok s'
    | some (s', .needRead) => .ok { s' with read := s'.read + 1 }
    | some (s', .needWrite) => .ok { s' with write := s'.write + 1 }
  | .readable st =>
    if s.killed || s.read == 0 then .stuck else
    match doHandshake s true st with
    | none => .fail
    | some (s', .failed) => .ok { s' with killed := true }
    | some (s', .succ) => .ok s'
    | some (s', .needRead) => .ok s'
    | some (s', .needWrite) => .ok { s' with write := s'.write + 1, read := s'.read - 1 }
  | .writable st =>
    if s.killed || s.write == 0 || s.event then .stuck else
    match doHandshake s false st with
    | none => .fail
    | some (s', .failed) => .ok { s' with killed := true }
    | some (s', .succ) => if s'.mayFlush then .ok { s' with event := true } else .fail
    | some (s', .needRead) => .ok { s' with read := s'.read + 1, write := s'.write - 1 }
    | some (s', .needWrite) => .ok s'
  | .flushed all =>
    if s.killed || !s.event then .stuck
    else if all then .ok { s with busy := false, event := false, write := s.write - 1, emptied := s.emptied + 1 }
    else .ok { s with event := false }

inductive Reach : List Act → State → Prop where
  | init : Reach [] .init
  | step {l s a s'} : Reach l s → s.step a = .ok s' → Reach (l ++ [a]) s'

/-- The handler does not end the handshake in a call of `StartHandshaking` behind the first message, nor in a write event without a message. -/
def Act.good (s : State) : Act → Prop
  | .start st => st = .succ → s.pending = false
  | .writable st => st = .succ → s.done = true ∨ s.pending = true
  | _ => True

/-- Runs in which all steps are like that. -/
inductive Good : List Act → State → Prop where
  | init : Good [] .init
  | step {l s a s'} : Good l s → a.good s → s.step a = .ok s' → Good (l ++ [a]) s'

end Verif.Conn.Handshake
