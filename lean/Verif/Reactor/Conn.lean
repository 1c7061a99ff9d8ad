/-!
# TCP connections of the default reactor: sending

/repo/trpc/runtime/iomodel/reactor/default/tcp_connection.cc, with the plain IoHandler (no handshake).

* A connection belongs to one reactor thread: its functions run one after the other. Handlers do not call back into the connection, except `NotifySendMessage`, which may send.
* A message is a number and its blocks of bytes.
* The results of system calls are arbitrary inputs (`Out`, `Pre`). `armed`: a write event is waiting in epoll or the kernel will make one when the socket takes bytes again. Registering and
  changing the interest (`EPOLL_CTL_ADD`, `EPOLL_CTL_MOD`) arm it, so do a `writev` that takes fewer bytes than offered and one that fails with EAGAIN; `epoll_wait` takes the event away
  (edge triggers). While the connection is being made the kernel will always make one.
* `wire`, `acc`, `done`, `failed` are ghosts: the bytes taken by the kernel, the messages taken by `Send`, those for which `MessageWriteDone` and `NotifyMessageFailed` were called.
-/

namespace Verif.Reactor.Conn

structure Msg where
  id : Nat
  blocks : List (List Nat)
deriving DecidableEq

def Msg.bytes (m : Msg) : List Nat := m.blocks.flatten

inductive St where
  | connecting | connected | closed
deriving DecidableEq

structure C where
  st : St
  /-- `io_msgs_` -/
  q : List Msg
  /-- `send_data_size_`, a uint32_t -/
  size : Nat
  /-- `need_direct_write_` -/
  direct : Bool
  armed : Bool
  wire : List Nat
  acc : List Msg
  done : List Nat
  failed : List Nat
deriving DecidableEq

/-- A connection that is being made (`DoConnect`, tcp_connection.cc:71-75). -/
def C.client : C := ⟨.connecting, [], 0, false, true, [], [], [], []⟩

/-- An accepted connection (`Established`, tcp_connection.cc:45-58). -/
def C.server : C := ⟨.connected, [], 0, false, true, [], [], [], []⟩

/-- The result of `writev`. -/
inductive Out where
  | ok (n : Nat)
  | again
  | intr
  | err

/-- What `PreCheckOnWrite` finds for a connection that is being made (:409-445). -/
inductive Pre where
  | fail
  | pending
  /-- established; `NotifySendMessage` sends these messages -/
  | up (notify : List Msg)

inductive R where
  /-- the function returns `0` (true) or `-1` -/
  | ret (c : C) (ok : Bool)
  /-- no such results of system calls -/
  | more
  /-- `front()` of an empty queue -/
  | ub

/-- `HandleClose` (:323-352). -/
def C.close (c : C) : C :=
  if c.st = .closed then c
  else { c with st := .closed, q := [], size := 0, direct := false, armed := false, failed := c.failed ++ c.q.map Msg.id }

/-- Puts a message into the queue (:368-369). -/
def C.push (c : C) (m : Msg) : C := { c with q := c.q ++ [m], size := (c.size + m.bytes.length) % 2 ^ 32, acc := c.acc ++ [m] }

/-- `NoncontiguousBuffer::Skip` (noncontiguous_buffer.cc:207-223). -/
def skip (n : Nat) : List (List Nat) → List (List Nat)
  | [] => []
  | b :: bs => if n = 0 then b :: bs else if b.length ≤ n then skip (n - b.length) bs else b.drop n :: bs

/-- The messages that are written and the rest of the queue (:275-290). -/
def consume (n : Nat) : List Msg → Option (List Nat × List Msg)
  | [] => if n = 0 then some ([], []) else none
  | m :: q =>
    if n = 0 then some ([], m :: q)
    else if m.bytes.length ≤ n then (consume (n - m.bytes.length) q).map fun x => (m.id :: x.1, x.2)
    else some ([], { m with blocks := skip n m.blocks } :: q)

/-- What is given to `writev`: the first 16 blocks (:236-251). -/
def gather (q : List Msg) : List (List Nat) := (q.flatMap Msg.blocks).take 16

/-- The loop of `HandleWriteEvent` (:228-298); `index` and `total` are `index` and `send_msgs_size`. -/
def C.loop (c : C) (total index : Nat) : List Out → R
  | [] => if total ≤ index then .ret c true else .more
  | o :: outs =>
    if total ≤ index then .ret c true
    else
      let iov := gather c.q
      match o with
      | .intr => c.loop total index outs
      | .again => .ret { c with direct := false, armed := true } true
      | .err => .ret ({ c with direct := false } : C).close false
      | .ok n =>
        if iov.flatten.length < n then .more
        else
          match consume n c.q with
          | none => .ub
          | some (d, q) =>
            let c' : C := { c with q := q, size := (c.size + 2 ^ 32 - n % 2 ^ 32) % 2 ^ 32, wire := c.wire ++ iov.flatten.take n, done := c.done ++ d }
            if n < iov.flatten.length then .ret { c' with direct := false, armed := true } true
            else c'.loop total (index + iov.length) outs

/-- `HandleWriteEvent` behind `PreCheckOnWrite` (:213-308). -/
def C.write (c : C) (outs : List Out) : R :=
  let c : C := { c with direct := true }
  if c.q = [] then .ret c true else c.loop (c.q.flatMap Msg.blocks).length 0 outs

/-- `HandleWriteEvent` (:200-308, 405-461). -/
def C.handleWrite (c : C) (pre : Pre) (outs : List Out) : R :=
  match c.st with
  | .closed => .ret c false
  | .connected => c.write outs
  | .connecting =>
    match pre with
    | .fail => .ret c.close false
    | .pending => ({ c with armed := true } : C).write outs
    | .up l => (l.foldl C.push { c with st := .connected }).write outs

/-- `Send` (:359-389). -/
def C.send (c : C) (m : Msg) (pre : Pre) (outs : List Out) : R :=
  if c.st = .connecting ∧ 1024 ≤ c.q.length then .ret c false
  else
    let c := c.push m
    if c.st = .connecting then c.handleWrite pre outs
    else if 8192 ≤ c.size ∨ 16 ≤ c.q.length then c.handleWrite pre outs
    else if c.direct then .ret { c with direct := false, armed := true } true
    else .ret c true

inductive In where
  | send (m : Msg) (pre : Pre) (outs : List Out)
  /-- epoll reports that the socket can be written to -/
  | event (pre : Pre) (outs : List Out)
  /-- the connection is closed from outside, by the peer or because of a read error -/
  | close

def C.step (c : C) : In → R
  | .send m pre outs => c.send m pre outs
  | .event pre outs => ({ c with armed := false } : C).handleWrite pre outs
  | .close => .ret c.close true

/-- The timer of a connection that is being made (:79-87). -/
def C.timeout (c : C) : C := if c.st = .connecting then ({ c with failed := c.failed ++ c.q.map Msg.id } : C).close else c

/-- Blocks are not empty. -/
def Msg.Solid (m : Msg) : Prop := ∀ b ∈ m.blocks, b ≠ []

instance (m : Msg) : Decidable m.Solid := inferInstanceAs (Decidable (∀ b ∈ m.blocks, b ≠ []))

def Pre.Solid : Pre → Prop
  | .up l => ∀ m ∈ l, m.Solid
  | _ => True

/-- `Send` is not called on a closed connection, and messages have no empty blocks. -/
def In.Fit (c : C) : In → Prop
  | .send m pre _ => c.st ≠ .closed ∧ m.Solid ∧ pre.Solid
  | .event pre _ => pre.Solid
  | .close => True

/-- With `fit`, users keep to `In.Fit`. -/
inductive Reach (fit : Bool) : C → Prop where
  | client : Reach fit .client
  | server : Reach fit .server
  | step {c c' : C} {r : Bool} (h : Reach fit c) (i : In) (hf : fit = true → i.Fit c) (hs : c.step i = .ret c' r) : Reach fit c'

/-! ## Receiving -/

/-- The socket: bytes that have arrived, and whether the peer has closed its side. -/
structure Rx where
  data : List Nat
  fin : Bool
  /-- the part of `read_buffer_.buffer` that has not been checked -/
  buf : List Nat
  closed : Bool
  /-- what `CheckMessage` was given so far, from the first byte on -/
  seen : List Nat
deriving DecidableEq

/-- `ReadIoData` (:464-501); the list gives the room that is left in the block for each `read`, at least one. The result is `ret`: positive, zero or negative. -/
def Rx.read (r : Rx) (got : Nat) : List Nat → Option (Rx × Int)
  | [] => none
  | room :: l =>
    match r.data with
    | [] => if r.fin then some ({ r with buf := [], closed := true }, -1) else some (r, got)
    | _ :: _ =>
      let n := min room r.data.length
      let r' : Rx := { r with data := r.data.drop n, buf := r.buf ++ r.data.take n }
      if n < room then some (r', got + n) else r'.read (got + n) l

/-- `HandleReadEvent` (:152-198), as far as `CheckMessage`. -/
def Rx.event (r : Rx) (rooms : List Nat) : Option Rx :=
  if r.closed then some r
  else
    match r.read 0 rooms with
    | none => none
    | some (r', ret) => some (if 0 < ret then { r' with seen := r'.seen ++ r'.buf, buf := [] } else r')

end Verif.Reactor.Conn
