/-!
# Flow control of tRPC streams

`trpc/stream/trpc/trpc_stream_flow_controller.h` and its use in `trpc/stream/trpc/trpc_stream.cc`.

One direction of a stream: a sending end with a `TrpcStreamSendController`, a receiving end with a
`TrpcStreamRecvController`, both created with the window of the receiving end (trpc_server_stream.cc:135, :214-216,
trpc_client_stream.cc:202, :286-292).  Data and feedback frames arrive in the order sent.  `flow_control_mutex_` makes
each step atomic.  Sizes are in bytes.  Not modelled: stream errors, timeouts, spurious wake-ups.
-/

namespace Verif.Stream.Flow

/-- `GetTrpcStreamWindowSize`, flow_controller.h:26-34. -/
def windowSize (w : Nat) : Nat := if w = 0 then w else if w < 65535 then 65535 else w

/-- `TrpcStreamSendController::DecreaseWindow`, :45-51. -/
def decrease (window : Int) (n : Nat) : Bool × Int := if window < 0 then (false, window) else (true, window - n)

/-- `TrpcStreamSendController::IncreaseWindow`, :57-60. -/
def increase (window : Int) (n : Nat) : Bool × Int := (decide (window + n > 0), window + n)

/-- `TrpcStreamRecvController::UpdateConsumeBytes`, :74-82; `consumed_` has 32 bits. -/
def updateConsume (w consumed n : Nat) : Nat × Nat :=
  let c := (consumed + n) % 2 ^ 32
  if c > w / 4 then (c, 0) else (0, c)

/-! ## The two controllers -/

structure St where
  window : Int
  /-- Messages sent and not yet read by the receiving application. -/
  data : List Nat
  consumed : Nat
  /-- Feedback frames under way to the sender. -/
  feedback : List Nat
deriving DecidableEq, Repr

inductive Act
  /-- The sender asks the controller and sends if it agrees. -/
  | send (n : Nat)
  /-- The receiver reads the next message (`TrpcStream::Read`, trpc_stream.cc:36-55). -/
  | read
  /-- The next feedback frame arrives (`HandleFeedback`, trpc_stream.cc:176-191). -/
  | deliver
deriving DecidableEq, Repr

inductive Ev
  | sent (n : Nat)
  | refused (n : Nat)
  | fedBack (n : Nat)
deriving DecidableEq, Repr

def init (w : Nat) : St := ⟨w, [], 0, []⟩

def read (w : Nat) (s : St) : St :=
  match s.data with
  | [] => s
  | n :: d =>
    let r := updateConsume w s.consumed n
    { s with data := d, consumed := r.2, feedback := if r.1 ≠ 0 then s.feedback ++ [r.1] else s.feedback }

def step (w : Nat) (s : St) : Act → St × List Ev
  | .send n =>
    let r := decrease s.window n
    if r.1 then ({ s with window := r.2, data := s.data ++ [n] }, [.sent n]) else (s, [.refused n])
  | .read => (read w s, [])
  | .deliver =>
    match s.feedback with
    | [] => (s, [])
    | f :: fs => ({ s with window := (increase s.window f).2, feedback := fs }, [.fedBack f])

def run (w : Nat) : St → List Ev → List Act → St × List Ev
  | s, tr, [] => (s, tr)
  | s, tr, a :: as => run w (step w s a).1 (tr ++ (step w s a).2) as

/-! ## `TrpcStream::Write` -/

/-- A stream with writers. -/
structure WSt extends St where
  /-- Messages of the writers waiting for `flow_control_cond_`. -/
  blocked : List Nat
  /-- Messages of the writers that have been woken up and not yet continued. -/
  woken : List Nat
deriving DecidableEq, Repr

inductive WAct
  /-- A fiber calls `Write`. -/
  | write (n : Nat)
  /-- The `i`-th of the woken writers continues. -/
  | resume (i : Nat)
  | read
  | deliver
deriving DecidableEq, Repr

def winit (w : Nat) : WSt := ⟨init w, [], []⟩

/-- `Write`, trpc_stream.cc:57-70: if the window is exhausted, wait once and then send without asking again.
`HandleFeedback`, :183-188: wake up all writers if the window has become positive. -/
def wstep (w : Nat) (s : WSt) : WAct → WSt × List Ev
  | .write n =>
    let r := decrease s.window n
    if r.1 then ({ s with window := r.2, data := s.data ++ [n] }, [.sent n])
    else ({ s with blocked := s.blocked ++ [n] }, [])
  | .resume i =>
    match s.woken[i]? with
    | none => (s, [])
    | some n => ({ s with data := s.data ++ [n], woken := s.woken.eraseIdx i }, [.sent n])
  | .read => ({ s with toSt := read w s.toSt }, [])
  | .deliver =>
    match s.feedback with
    | [] => (s, [])
    | f :: fs =>
      let r := increase s.window f
      if r.1 then
        ({ s with window := r.2, feedback := fs, blocked := [], woken := s.woken ++ s.blocked }, [.fedBack f])
      else ({ s with window := r.2, feedback := fs }, [.fedBack f])

def wrun (w : Nat) : WSt → List Ev → List WAct → WSt × List Ev
  | s, tr, [] => (s, tr)
  | s, tr, a :: as => wrun w (wstep w s a).1 (tr ++ (wstep w s a).2) as

end Verif.Stream.Flow
