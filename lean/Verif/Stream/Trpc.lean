import Verif.Stream.Sched

/-!
# tRPC streams

The two ends of a tRPC stream: the states and handlers of /repo/trpc/stream/trpc/trpc_client_stream.cc, trpc_server_stream.cc and trpc_stream.cc, the queue of the
reader of /repo/trpc/stream/common_stream.cc, run by the job scheduler of `Verif.Stream.Sched` (fiber mode).

* The bytes of a frame are not looked at: a received frame is a `Frame`, or `corrupt` (decoding fails), or has a frame type that the code does not know.
* Flow control, statistics, filters and contexts are left out; `Verif.Stream.FlowControlModel` has the flow control.
* Status texts are left out, as are the values of error codes: those below stand for what trpc.proto defines (all are not zero).
* Encoding and sending may fail at any time (`Luck`). Encoding of the frame of `SendReset` does not fail: that function would call itself for ever, but its frame has a
  code and a short text only.
-/

namespace Verif.Stream.Trpc

/-- common_stream.h, `State`. -/
inductive St where
  | closed | idle | init | opened | localClosed | remoteClosed
  deriving DecidableEq

/-- common_stream.h, `ReaderWriterOptions::SimpleState`. -/
inductive Simple where
  | notReady | ready | finished | error
  deriving DecidableEq

structure Status where
  ret : Int
  func : Int
  deriving DecidableEq

/-- status.h:64. -/
def Status.ok (s : Status) : Bool := s.ret = 0 ∧ s.func = 0

def Status.succ : Status := ⟨0, 0⟩
def unknownErr : Status := ⟨1000, 0⟩
def networkErr : Status := ⟨341, 0⟩
def codecErr : Status := ⟨321, 0⟩
def timeoutErr : Status := ⟨361, 0⟩

inductive Frame (α : Type) where
  | init (ret : Int)
  | data (a : α)
  | feedback (n : Nat)
  | close (reset : Bool) (st : Status)

inductive Kind where
  | init | data | feedback | close

/-- A received message: a frame, a frame of a type whose body cannot be decoded, one of type 6 (`kStreamReset`, which tRPC does not use), or one of another type. -/
inductive RMsg (α : Type) where
  | frame (f : Frame α)
  | corrupt (k : Kind)
  | six
  | unknown

inductive SMsg (α : Type) where
  | init
  | data (a : α)
  | feedback (n : Nat)
  | close (reset : Bool) (st : Status)

/-- One end of a stream. -/
structure Ep (α : Type) where
  server : Bool
  state : St
  simple : Simple
  status : Status
  /-- `reader_msgs`; `none` is the end of file -/
  reader : List (Option α)
  /-- messages that `Read` returned -/
  taken : List α
  /-- frames that the connection took -/
  wire : List (Frame α)
  /-- a check of the code failed -/
  crashed : Bool

variable {α : Type}

def Ep.fresh (server : Bool) : Ep α := ⟨server, .idle, .notReady, .succ, [], [], [], false⟩

/-- What a handler meets: can the frame be encoded, does the connection take it, does it take the frame of `SendReset`, what does the dispatch of a new stream return. -/
structure Luck where
  enc : Bool
  sent : Bool
  resetSent : Bool
  dispatch : Status

/-- `OnReady` (common_stream.cc:335-353). -/
def Ep.onReady (e : Ep α) : Ep α := if e.simple = .ready then e else { e with simple := .ready }

/-- `OnData` (lines 355-366). -/
def Ep.onData (e : Ep α) (a : α) : Ep α := { e with reader := e.reader ++ [some a] }

/-- `OnFinish` (lines 368-389). -/
def Ep.onFinish (e : Ep α) (st : Status) : Ep α :=
  if e.simple = .finished then e else { e with reader := e.reader ++ [none], status := st, simple := .finished }

/-- `OnError` (lines 391-416). -/
def Ep.onError (e : Ep α) (st : Status) : Ep α :=
  if st.ok then { e with crashed := true }
  else if e.simple = .error then e else { e with status := st, simple := .error }

/-- `Send` (lines 282-295). -/
def Ep.send (e : Ep α) (ok : Bool) (f : Frame α) : Ep α := if ok then { e with wire := e.wire ++ [f] } else e.onError networkErr

/-- `SendReset` (trpc_stream.cc:96-115). -/
def Ep.sendReset (e : Ep α) (l : Luck) (st : Status) : Ep α := ({ e with state := .closed } : Ep α).send l.resetSent (.close true ⟨st.ret, 0⟩)

abbrev Res (α : Type) := Out (Ep α) (SMsg α)

def good (e : Ep α) (ops : List (Op (SMsg α)) := []) : Res α := ⟨e, ops, false⟩
def fail (e : Ep α) : Res α := ⟨e, [], true⟩

/-- A failed `CheckState` (trpc_client_stream.cc:58-70, trpc_server_stream.cc:86-98). -/
def Ep.bad (e : Ep α) (l : Luck) : Res α := fail ((e.sendReset l unknownErr).onError unknownErr)

/-- A failed `EncodeMessage` or `DecodeMessage` (trpc_stream.cc:213-243). -/
def Ep.codec (e : Ep α) (l : Luck) : Res α := fail ((e.sendReset l codecErr).onError codecErr)

/-- Encode and send a frame, then go on if that worked (e.g. trpc_stream.cc:124-131). -/
def Ep.put (e : Ep α) (l : Luck) (f : Frame α) (k : Ep α → Res α) : Res α :=
  if !l.enc then e.codec l else if !l.sent then fail (e.send false f) else k (e.send true f)

/-- `HandleInit` (trpc_client_stream.cc:262-300, trpc_server_stream.cc:103-143). -/
def Ep.handleInit (e : Ep α) (l : Luck) (ret : Option Int) : Res α :=
  if e.server then
    if e.state ≠ .idle then e.bad l
    else match ret with
      | none => e.codec l
      | some _ => good { e with state := .init } [.push .init]
  else
    if e.state ≠ .init then e.bad l
    else match ret with
      | none => e.codec l
      | some r => if r ≠ 0 then fail (({ e with state := .closed } : Ep α).onError ⟨r, 0⟩) else good ({ e with state := .opened } : Ep α).onReady

/-- `HandleData` (trpc_stream.cc:193-211, trpc_client_stream.cc:302-313, trpc_server_stream.cc:145-156). -/
def Ep.handleData (e : Ep α) (l : Luck) (a : Option α) : Res α :=
  if ¬ (e.state = .opened ∨ e.state = .localClosed) then e.bad l
  else match a with
    | none => e.codec l
    | some a => good (e.onData a)

/-- `HandleFeedback` (trpc_stream.cc:176-191). -/
def Ep.handleFeedback (e : Ep α) (l : Luck) (ok : Bool) : Res α := if ok then good e else e.codec l

/-- The status of a reset (trpc_client_stream.cc:339-343). -/
def resetStatus (st : Status) : Status := if st.ok then ⟨unknownErr.ret, st.func⟩ else st

/-- `HandleClose` (trpc_client_stream.cc:315-368, trpc_server_stream.cc:158-198). -/
def Ep.handleClose (e : Ep α) (l : Luck) (m : Option (Bool × Status)) : Res α :=
  if e.state = .closed then good e
  else match m with
    | none => e.codec l
    | some (true, st) => fail (({ e with state := .closed } : Ep α).onError (resetStatus st))
    | some (false, st) =>
      if e.server then
        if e.state ≠ .opened then e.bad l else good (({ e with state := .remoteClosed } : Ep α).onFinish st)
      else if ¬ (e.state = .opened ∨ e.state = .localClosed) then e.bad l
      else if st.ret ≠ 0 then fail (({ e with state := .closed } : Ep α).onError st)
      else good (({ e with state := .closed } : Ep α).onFinish st) [.stop]

/-- `HandleRecvMessage` (common_stream.cc:297-333). -/
def Ep.recv (e : Ep α) (l : Luck) : RMsg α → Res α
  | .frame (.init r) => e.handleInit l (some r)
  | .frame (.data a) => e.handleData l (some a)
  | .frame (.feedback _) => e.handleFeedback l true
  | .frame (.close reset st) => e.handleClose l (some (reset, st))
  | .corrupt .init => e.handleInit l none
  | .corrupt .data => e.handleData l none
  | .corrupt .feedback => e.handleFeedback l false
  | .corrupt .close => e.handleClose l none
  | .six => fail e
  | .unknown => good (e.onError codecErr) [.push (.close true codecErr)]

/-- `SendInit` (trpc_client_stream.cc:163-229, trpc_server_stream.cc:200-260). -/
def Ep.sendInit (e : Ep α) (l : Luck) : Res α :=
  if e.server then
    if e.state ≠ .init then e.bad l
    else e.put l (.init l.dispatch.ret) fun e =>
      if l.dispatch.ok then good ({ e with state := .opened } : Ep α).onReady else fail { e with state := .closed }
  else if e.state ≠ .idle then e.bad l
  else e.put l (.init 0) fun e => good { e with state := .init }

/-- `SendData` (trpc_stream.cc:117-139, trpc_client_stream.cc:231-242, trpc_server_stream.cc:262-273). -/
def Ep.sendData (e : Ep α) (l : Luck) (a : α) : Res α :=
  if ¬ (e.state = .opened ∨ e.server = true ∧ e.state = .remoteClosed) then e.bad l else e.put l (.data a) good

/-- `SendClose` (trpc_stream.cc:158-174, trpc_client_stream.cc:244-260, trpc_server_stream.cc:275-300). -/
def Ep.sendClose (e : Ep α) (l : Luck) (reset : Bool) (st : Status) : Res α :=
  if e.server then
    if ¬ (e.state = .opened ∨ e.state = .remoteClosed) then e.bad l
    else e.put l (.close reset st) fun e => good { e with state := .closed } [.stop]
  else if e.state ≠ .opened then e.bad l
  else e.put l (.close reset st) fun e => good { e with state := .localClosed }

/-- `HandleSendMessage` (common_stream.cc:244-280). -/
def Ep.sendMsg (e : Ep α) (l : Luck) : SMsg α → Res α
  | .init => e.sendInit l
  | .data a => e.sendData l a
  | .feedback n => e.put l (.feedback n) good
  | .close reset st => e.sendClose l reset st

/-- What `Read` returns (common_stream.cc:142-173). -/
inductive Got (α : Type) where
  | data (a : α) (st : Status)
  | eof
  | failed (st : Status)

/-- `Read`; `none` while it waits. -/
def Ep.read (e : Ep α) : Option (Got α × Ep α) :=
  match e.reader with
  | some a :: rest => some (.data a e.status, { e with reader := rest, taken := e.taken ++ [a] })
  | none :: _ => if e.simple = .error then some (.failed e.status, e) else some (.eof, e)
  | [] => if e.simple = .error then some (.failed e.status, e) else none

/-- What users of a stream do to its state: reads, a `Finish` that timed out (trpc_client_stream.cc:135-141), a `Start` that timed out (common_stream.cc:226-229). -/
inductive Use : Ep α → Ep α → Prop where
  | read {e e' g} : e.read = some (g, e') → Use e e'
  | finish {e} : Use e (e.onError timeoutErr)
  | start {e} : Use e { e with status := timeoutErr }

def handlers : Handlers (Ep α) (RMsg α) (SMsg α) where
  recv e r o := ∃ l, o = e.recv l r
  send e m o := ∃ l, o = e.sendMsg l m
  env := Use

/-- One end of a stream with its scheduler. -/
abbrev End (α : Type) := Stream.State (Ep α) (RMsg α) (SMsg α)

/-- `Write` (common_stream.cc:194-202): the status that it returns. -/
def write (s : End α) (a : α) : Status × End α :=
  if s.st.status.ok then ((s.pushSend false (.data a)).st.status, s.pushSend false (.data a)) else (s.st.status, s)

/-- Two ends and the frames between them. -/
structure Net (α : Type) where
  c : End α
  s : End α
  /-- frames of the client that reached the server's handler, and the other way round -/
  toS : Nat
  toC : Nat
  /-- an end knows that the connection is closed -/
  cutC : Bool
  cutS : Bool

def Net.init : Net α := ⟨.init (.fresh false), .init (.fresh true), 0, 0, false, false⟩

/-- What one end does by itself: the fiber, its users. -/
inductive Own (server : Bool) : End α → End α → Prop where
  | run {s s'} : Run handlers s s' → Own server s s'
  | use {s st} : Use s.st st → Own server s { s with st := st }
  | start {s} : server = false → Own server s (s.pushSend false .init)
  | write {s} (a : α) : Own server s (s.pushSend false (.data a))
  | close {s} (reset : Bool) (st : Status) : Own server s (s.pushSend false (.close reset st))
  | feedback {s} (n : Nat) : Own server s (s.pushSend true (.feedback n))
  | stop {s} : Own server s s.stop

/-- Frames arrive in order until the end learns that the connection is closed: then a reset is pushed to the stream (trpc_stream_handler.cc:73-101). -/
inductive NStep : Net α → Net α → Prop where
  | client {n c} : Own false n.c c → NStep n { n with c := c }
  | server {n s} : Own true n.s s → NStep n { n with s := s }
  | toServer {n f} : n.c.st.wire[n.toS]? = some f → n.cutS = false → NStep n { n with s := n.s.pushRecv (.frame f), toS := n.toS + 1 }
  | toClient {n f} : n.s.st.wire[n.toC]? = some f → n.cutC = false → NStep n { n with c := n.c.pushRecv (.frame f), toC := n.toC + 1 }
  | cutServer {n} : n.cutS = false → NStep n { n with s := n.s.pushRecv (.frame (.close true networkErr)), cutS := true }
  | cutClient {n} : n.cutC = false → NStep n { n with c := n.c.pushRecv (.frame (.close true networkErr)), cutC := true }

inductive NReach : Net α → Prop where
  | init : NReach .init
  | step {n n'} : NReach n → NStep n n' → NReach n'

end Verif.Stream.Trpc
