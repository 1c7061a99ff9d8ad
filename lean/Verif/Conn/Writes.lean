/-!
# Writing to a fiber connection

/repo/trpc/runtime/iomodel/reactor/fiber/writing_buffer_list.{h,cc} (a lock-free list with many producers and one consumer), and who consumes it:
`Send`, `FlushWritingBuffer` and `OnWritable` of fiber_tcp_connection.cc and the write events of fiber_connection.cc. Any number of senders, a fiber
for write events and the thread of the reactor take steps in any order; a step is one access to shared memory with the local work around it.

Simplified: handshaking is done (`handshaking_state_.done`); no limit of the send queue (`max_capacity` is 0); how many blocks and bytes `Writev` is given is
arbitrary, but at least one byte if there is one; a node is freed at the last access of the consumer, which is earlier than in the code; addresses of nodes
are not used again; `Kill` is one step; `OnCleanup` and the destructor are not part of this model.
-/

namespace Verif.Conn

abbrev Bytes := List UInt8

/-- `WritingBufferList::Node`; `off`: what `Skip` removed from the buffer; `by_`: who appended it. -/
structure Node where
  by_ : Nat
  msg : Bytes
  off : Nat
  next : Option Nat
  live : Bool
  deriving DecidableEq

/-- Where a thread is in `FlushTo` (writing_buffer_list.cc:76-179). -/
inductive FPc where
  /-- before `head_.load` (line 86) -/
  | start
  /-- in the loop of lines 91-101, at the node `cur`; `vis` are the nodes before it -/
  | walk (vis : List Nat) (cur : Nat)
  /-- before `Writev` (line 111) -/
  | write (vis : List Nat)
  /-- in the loop of lines 128-174 -/
  | rewind (cur : Nat) (flushed : Nat) (wrote short : Bool)
  /-- before the `compare_exchange` of line 145 -/
  | cas (cur : Nat) (wrote short : Bool)
  /-- in the loop of lines 154-156 -/
  | spin (cur : Nat) (wrote short : Bool)
  /-- before `head_.store` of line 160 -/
  | setHead (node : Nat) (wrote short : Bool)
  /-- before `head_.store` of line 171 -/
  | leave (node : Nat) (wrote short : Bool)
  deriving DecidableEq

/-- A sender in `Send` (fiber_tcp_connection.cc:101-159). -/
inductive SPc where
  | idle
  /-- in `Append`, behind the `exchange` of line 202 -/
  | link (prev : Option Nat) (node : Nat)
  | flush (f : FPc)
  /-- before `RestartWriteIn` (line 131) -/
  | restart
  deriving DecidableEq

/-- The fiber of `HandleWriteEvent` (fiber_connection.cc:131-161). -/
inductive EPc where
  | none
  /-- before `OnWritable` -/
  | enter
  | flush (f : FPc)
  /-- `kReady`: before `fetch_sub` (line 151) -/
  | ready
  /-- `kSuppress`: before `SuppressAndClearWriteEvent` (line 148) -/
  | suppress
  /-- `kLeaving`: before `SubmitTask` (line 142) -/
  | leaving
  deriving DecidableEq

/-- Tasks of the reactor: fiber_connection.cc:260-276 (`suppress`), 293-304 (`restart`), 318-330 (`kill`), 142-145 (`reset`). -/
inductive Task where
  | suppress
  | restart
  | kill
  | reset
  deriving DecidableEq

structure State where
  nodes : List Node
  head : Option Nat
  tail : Option Nat
  senders : Nat → SPc
  fiber : EPc
  writeEvents : Nat
  restartCount : Nat
  armed : Bool
  tasks : List Task
  /-- `cleanup_reason` is set -/
  killed : Bool
  enabled : Bool
  /-- what `Writev` has written -/
  wire : Bytes
  /-- calls of `MessageWriteDone` -/
  done : List Nat

/-- An established connection. -/
def State.init : State :=
  ⟨[], none, none, fun _ => .idle, .none, 0, 0, false, [], false, true, [], []⟩

def State.setSender (s : State) (i : Nat) (p : SPc) : State := { s with senders := fun j => if j = i then p else s.senders j }

inductive Who where
  | sender (i : Nat)
  | event
  deriving DecidableEq

/-- Where a thread is if it is in `FlushTo`. -/
def State.pc (s : State) : Who → Option FPc
  | .sender i => match s.senders i with | .flush f => some f | _ => none
  | .event => match s.fiber with | .flush f => some f | _ => none

def State.setPc (s : State) (w : Who) (f : FPc) : State :=
  match w with
  | .sender i => s.setSender i (.flush f)
  | .event => { s with fiber := .flush f }

/-- `Kill` (fiber_connection.cc:312-332). -/
def State.kill (s : State) : State := if s.killed then s else { s with killed := true, tasks := s.tasks ++ [.kill] }

/-- `Kill` by a thread in `FlushWritingBuffer` (fiber_tcp_connection.cc:133-144, 295-300). -/
def State.give_up (s : State) (w : Who) : State :=
  match w with
  | .sender i => s.kill.setSender i .idle
  | .event => { s.kill with fiber := .leaving }

/-- The data of the nodes that are visited (`none` if one of them is freed). -/
def State.data (s : State) : List Nat → Option Bytes
  | [] => some []
  | i :: l => match s.nodes[i]? with
    | none => none
    | some nd => if nd.live then (s.data l).map (nd.msg.drop nd.off ++ ·) else none

/-- What the system does with `Writev`: how many bytes it is given and how many it takes; `EAGAIN`; other errors. -/
inductive Io where
  | took (given n : Nat)
  | again
  | error
  deriving DecidableEq

inductive Act where
  /-- `Send` up to the `exchange` of `Append` (writing_buffer_list.cc:193-202) -/
  | send (i : Nat) (m : Bytes)
  /-- `Append` behind it (lines 203-225) -/
  | link (i : Nat)
  /-- a step of `FlushTo`; `stop`: whether the loop of lines 91-101 ends because there is no more space, or `Send` because of its quota -/
  | flush (w : Who) (stop : Bool) (io : Io)
  /-- `Send` returns because of `conn_unavailable_` (fiber_tcp_connection.cc:123-125) -/
  | drop (i : Nat)
  | restart (i : Nat)
  /-- the system reports `EPOLLOUT` -/
  | epollOut
  /-- a step of the fiber outside of `FlushTo` -/
  | fiber
  /-- the reactor runs a task -/
  | task
  /-- someone else closes the connection -/
  | kill
  deriving DecidableEq

/-- `fail`: an access to a freed or missing node, or a failed check. -/
inductive Res where
  | ok (s : State)
  | fail
  | blocked

/-- `FlushTo` returns to `FlushWritingBuffer` (fiber_tcp_connection.cc:316-350), and that to `Send` (lines 126-132) or `OnWritable` (lines 290-297). -/
def State.flushed (s : State) (w : Who) (emptied wrote short stop : Bool) : Res :=
  if !wrote && !emptied then .ok (s.give_up w)
  else if short && emptied then .fail
  else match w with
    | .sender i =>
      if emptied then .ok (s.setSender i .idle)
      else if short || stop then .ok (s.setSender i .restart)
      else .ok (s.setSender i (.flush .start))
    | .event =>
      if emptied then .ok { s with fiber := .suppress }
      else if short then .ok { s with fiber := .ready }
      else .ok { s with fiber := .flush .start }

def State.free (s : State) (i : Nat) : State :=
  { s with nodes := s.nodes.modify i fun nd => { nd with live := false } }

/-- The node `i` if it may be accessed. -/
def State.node? (s : State) (i : Nat) : Option Node := s.nodes[i]?.filter (·.live)

/-- A step of `FlushTo`. -/
def State.flushStep (s : State) (w : Who) (f : FPc) (stop : Bool) (io : Io) : Res :=
  match f with
  | .start => match s.head with
    | none => .fail
    | some h => if s.tail = none then .fail else .ok (s.setPc w (.walk [] h))
  | .walk vis cur => match s.node? cur with
    | none => .fail
    | some nd =>
      let vis' := vis ++ [cur]
      match nd.next with
      | none => .ok (s.setPc w (.write vis'))
      | some nx =>
        match s.data vis' with
        | none => .fail
        | some d => if stop && d != [] then .ok (s.setPc w (.write vis')) else .ok (s.setPc w (.walk vis' nx))
  | .write vis => match s.data vis with
    | none => .fail
    | some d =>
      match io with
      | .again => match w with
        | .sender i => .ok (s.setSender i .restart)
        | .event => .ok { s with fiber := .ready }
      | .error => .ok (s.give_up w)
      | .took given n =>
        if given ≤ d.length ∧ (d = [] ∨ 0 < given) ∧ n ≤ given then
          if n = 0 ∧ 0 < given then .ok (s.give_up w)
          else match vis.head? with
            | none => .fail
            | some h => .ok ({ s with wire := s.wire ++ d.take n }.setPc w (.rewind h n (0 < n) (n ≠ given)))
        else .blocked
  | .rewind cur fl wrote short => match s.node? cur with
    | none => .fail
    | some nd =>
      let b := nd.msg.length - nd.off
      if b ≤ fl then
        let s' := { s with done := s.done ++ [cur] }
        match nd.next with
        | none => if fl - b = 0 then .ok (s'.setPc w (.cas cur wrote short)) else .fail
        | some nx => .ok ((s'.free cur).setPc w (.rewind nx (fl - b) wrote short))
      else .ok ({ s with nodes := s.nodes.modify cur fun nd => { nd with off := nd.off + fl } }.setPc w (.leave cur wrote short))
  | .cas cur wrote short =>
    if s.tail = some cur then ({ s with tail := none }.free cur).flushed w true wrote short stop
    else .ok (s.setPc w (.spin cur wrote short))
  | .spin cur wrote short => match s.node? cur with
    | none => .fail
    | some nd => match nd.next with
      | none => .ok s
      | some nx => .ok ((s.free cur).setPc w (.setHead nx wrote short))
  | .setHead nx wrote short => { s with head := some nx }.flushed w false wrote short stop
  | .leave nx wrote short => { s with head := some nx }.flushed w false wrote short stop

/-- `HandleWriteEvent` (fiber_connection.cc:132-133): a second fiber is never started beside another. -/
def State.handleWrite (s : State) : Res :=
  if s.writeEvents = 0 then
    if s.fiber = .none then .ok { s with writeEvents := 1, fiber := .enter } else .fail
  else .ok { s with writeEvents := s.writeEvents + 1 }

def State.taskStep (s : State) : Res :=
  match s.tasks with
  | [] => .blocked
  | .suppress :: ts =>
    let s := { s with tasks := ts, writeEvents := 0 }
    if s.enabled then
      if s.restartCount = 0 ∨ 2 < s.restartCount then .fail
      else if !s.armed then .fail
      else
        let s := { s with restartCount := s.restartCount - 1 }
        if s.restartCount = 0 then .ok { s with armed := false } else s.handleWrite
    else .ok s
  | .restart :: ts =>
    let s := { s with tasks := ts }
    if s.enabled then
      if 1 < s.restartCount then .fail
      else if s.restartCount = 0 then
        if s.armed then .fail else .ok { s with restartCount := 1, armed := true }
      else .ok { s with restartCount := s.restartCount + 1 }
    else .ok s
  | .kill :: ts => if s.enabled then .ok { s with tasks := ts, armed := false, enabled := false } else .fail
  | .reset :: ts => .ok { s with tasks := ts, writeEvents := 0 }

def State.fiberStep (s : State) : Res :=
  match s.fiber with
  | .enter => if s.enabled then .ok { s with fiber := .flush .start } else .ok { s with fiber := .leaving }
  | .ready => if s.writeEvents = 1 then .ok { s with writeEvents := 0, fiber := .none }
    else if s.writeEvents = 0 then .fail
    else .ok { s with writeEvents := s.writeEvents - 1, fiber := .enter }
  | .suppress => .ok { s with tasks := s.tasks ++ [.suppress], fiber := .none }
  | .leaving => if s.killed then .ok { s with tasks := s.tasks ++ [.reset], fiber := .none } else .fail
  | _ => .blocked

def State.step (s : State) : Act → Res
  | .send i m =>
    if s.senders i = .idle then
      let n := s.nodes.length
      let s' : State := { s with nodes := s.nodes ++ [⟨i, m, 0, none, true⟩], tail := some n }
      .ok (s'.setSender i (.link s.tail n))
    else .blocked
  | .link i => match s.senders i with
    | .link none n => .ok ({ s with head := some n }.setSender i (.flush .start))
    | .link (some p) n => match s.node? p with
      | none => .fail
      | some nd => if nd.next ≠ none then .fail
        else .ok ({ s with nodes := s.nodes.modify p fun nd => { nd with next := some n } }.setSender i .idle)
    | _ => .blocked
  | .flush w stop io => match s.pc w with
    | none => .blocked
    | some f => s.flushStep w f stop io
  | .drop i => if !s.enabled && s.senders i = .flush .start then .ok (s.setSender i .idle) else .blocked
  | .restart i => if s.senders i = .restart then
      let s' : State := { s with tasks := s.tasks ++ [.restart] }
      .ok (s'.setSender i .idle)
    else .blocked
  | .epollOut => if s.armed then s.handleWrite else .blocked
  | .fiber => s.fiberStep
  | .task => s.taskStep
  | .kill => .ok s.kill

/-- The states that are reached by steps. -/
inductive Reach : List Act → State → Prop where
  | init : Reach [] .init
  | step {l s a s'} : Reach l s → s.step a = .ok s' → Reach (l ++ [a]) s'

end Verif.Conn
