/-!
# The timeout queue of requests in the future client transport

/repo/trpc/transport/client/future/common/timingwheel.h (`TimingWheel`) and timingwheel_timeout_queue.h (`TimingWheelTimeoutQueueImpl`); conn_pool/shared_send_queue.cc is the same
machine with the number of a connection as key.

* The intrusive lists of the 5 levels are kept as one list of nodes, each with the level and the slot of its list; nodes that are inserted at the tail of a list come last. The nodes
  that a call of `DoTimeout` has taken from the wheel (`tmp_link`) are a list of their own.
* `Delete` of the node to which the loop in `DoTimeout` has saved a pointer is an outcome of its own (`none`): the loop would go on with freed memory.
* Times are natural numbers; `size_t` does not overflow in this millennium. The conversion of a difference to `int` in `AddTimerNode` is modelled.
* The hash map is a function; allocation of nodes does not fail.
* `t` is a ghost: the time for which the node was filed.
-/

namespace Verif.Transport.Wheel

/-- `1 << (bits of the lower levels)` and `1 << (bits of the level)` (timingwheel.h:41-51). -/
def low : Nat → Nat
  | 0 => 1 | 1 => 2 ^ 10 | 2 => 2 ^ 16 | 3 => 2 ^ 22 | _ => 2 ^ 28
def size : Nat → Nat
  | 0 => 2 ^ 10 | 1 => 2 ^ 6 | 2 => 2 ^ 6 | 3 => 2 ^ 6 | _ => 2 ^ 4

/-- Conversion to a 32-bit `int`. -/
def toInt (x : Int) : Int := if x % 2 ^ 32 < 2 ^ 31 then x % 2 ^ 32 else x % 2 ^ 32 - 2 ^ 32

structure Node where
  nid : Nat
  key : Nat
  expire : Nat
  t : Nat
deriving DecidableEq

/-- What happened. -/
inductive Ev where
  /-- a successful `Push` with this time, while `last_expire_time_ms_` is `last`; `busy`: from a timeout handler -/
  | push (key msg expire last : Nat) (busy : Bool)
  | pop (key msg : Nat)
  /-- the timeout handler is called, in the round of this millisecond -/
  | fire (key msg time : Nat)
deriving DecidableEq

structure Q where
  /-- `last_expire_time_ms_` -/
  last : Nat
  nodes : List (Nat × Nat × Node)
  /-- the rest of `tmp_link`; its first node is the one to which `p_tmp_link` points -/
  run : List Node
  busy : Bool
  map : Nat → Option (Nat × Nat)
  next : Nat
  log : List Ev

def Q.fresh (now : Nat) : Q := ⟨now, [], [], false, fun _ => none, 0, []⟩

/-- The list into which `AddTimerNode` puts a node (timingwheel.h:229-259). -/
def place (last expire : Nat) : Nat × Nat :=
  let due := toInt ((expire : Int) - last)
  if due < 0 then (0, last % 2 ^ 10)
  else if due < 2 ^ 10 then (0, expire % 2 ^ 10)
  else if due < 2 ^ 16 then (1, expire / low 1 % size 1)
  else if due < 2 ^ 22 then (2, expire / low 2 % size 2)
  else if due < 2 ^ 28 then (3, expire / low 3 % size 3)
  else (4, expire / low 4 % size 4)

/-- The time for which a new node is filed (ghost). -/
def aim (last expire : Nat) (busy : Bool) : Nat :=
  let due := toInt ((expire : Int) - last)
  if busy && due ≤ 0 then last + 2 ^ 10 else last + due.toNat

/-- `Add` (lines 153-165) with `InsertTail`. -/
def Q.add (q : Q) (key expire : Nat) : Q :=
  let p := place q.last expire
  { q with nodes := q.nodes ++ [(p.1, p.2, ⟨q.next, key, expire, aim q.last expire q.busy⟩)], next := q.next + 1 }

/-- `Push` (timingwheel_timeout_queue.h:117-128, shared_send_queue.cc:18-28). -/
def Q.push (q : Q) (key msg expire : Nat) : Q × Bool :=
  match q.map key with
  | some _ => (q, false)
  | none =>
    let q' := q.add key expire
    ({ q' with map := fun k => if k = key then some (msg, q.next) else q'.map k, log := q'.log ++ [.push key msg expire q.last q.busy] }, true)

/-- `Delete` (timingwheel.h:167-177). -/
def Q.delete (q : Q) (nid : Nat) : Option Q :=
  if q.run.head?.map Node.nid = some nid then none
  else some { q with nodes := q.nodes.filter fun x => x.2.2.nid ≠ nid, run := q.run.filter fun n => n.nid ≠ nid }

/-- `Pop` (timingwheel_timeout_queue.h:136-164, shared_send_queue.cc:30-41); `Pop()` without an id takes one of the keys. -/
def Q.pop (q : Q) (key : Nat) : Option (Q × Option Nat) :=
  match q.map key with
  | none => some (q, none)
  | some (msg, nid) =>
    match q.delete nid with
    | none => none
    | some q' => some ({ q' with map := fun k => if k = key then none else q'.map k, log := q'.log ++ [.pop key msg] }, some msg)

/-- What a timeout handler does with the queue, after `GetAndPop`. -/
inductive Op where
  | push (key msg expire : Nat)
  | pop (key : Nat)

def Q.ops (q : Q) : List Op → Option Q
  | [] => some q
  | .push k m e :: os => (q.push k m e).1.ops os
  | .pop k :: os => match q.pop k with
    | none => none
    | some r => r.1.ops os

/-- A timeout handler: what it does may depend on everything. -/
abbrev Handler := Q → Nat → Nat → List Op

/-- One call of the handler for a node: `GetAndPop` (timingwheel_timeout_queue.h:166-171, shared_send_queue.cc:47-56) and what it does then. -/
def Q.fire (q : Q) (H : Handler) (n : Node) : Option Q :=
  match q.map n.key with
  | none => none
  | some (msg, _) =>
    let q' : Q := { q with map := fun k => if k = n.key then none else q.map k, log := q.log ++ [.fire n.key msg q.last] }
    q'.ops (H q' n.key msg)

/-- The inner loop (timingwheel.h:202-213). -/
def Q.runList (H : Handler) : Nat → Q → Option Q
  | 0, q => some q
  | fuel + 1, q => match q.run with
    | [] => some q
    | n :: rest => match ({ q with run := rest } : Q).fire H n with
      | none => none
      | some q' => q'.runList H fuel

def Q.slot (q : Q) (k : Nat) : Nat := q.last / low k % size k

def here (k i : Nat) (x : Nat × Nat × Node) : Bool := x.1 = k && x.2.1 = i

/-- `Cascade` (lines 262-278). -/
def Q.cascade (q : Q) (k : Nat) : Q :=
  { q with nodes := q.nodes.filter (fun x => !here k (q.slot k) x) ++
      (q.nodes.filter (here k (q.slot k))).map fun x => ((place q.last x.2.2.expire).1, (place q.last x.2.2.expire).2, x.2.2) }

/-- The cascades of one millisecond (lines 183-195). -/
def Q.cascades (q : Q) : Q :=
  if q.last % 2 ^ 10 ≠ 0 then q
  else
    let q1 := q.cascade 1
    if q.slot 1 ≠ 0 then q1
    else
      let q2 := q1.cascade 2
      if q.slot 2 ≠ 0 then q2
      else
        let q3 := q2.cascade 3
        if q.slot 3 ≠ 0 then q3 else q3.cascade 4

/-- One round of the loop (lines 183-215). -/
def Q.tick (q : Q) (H : Handler) : Option Q :=
  let q1 := q.cascades
  let mine := (q1.nodes.filter (here 0 (q.last % 2 ^ 10))).map (·.2.2)
  let q2 := { q1 with nodes := q1.nodes.filter (fun x => !here 0 (q.last % 2 ^ 10) x), run := mine, busy := true }
  match q2.runList H mine.length with
  | none => none
  | some q3 => some { q3 with last := q3.last + 1, busy := false }

/-- `DoTimeout` (lines 179-219). -/
def Q.ticks (H : Handler) : Nat → Q → Option Q
  | 0, q => some q
  | n + 1, q => match q.tick H with
    | none => none
    | some q' => q'.ticks H n

def Q.doTimeout (q : Q) (H : Handler) (now : Nat) : Option Q := q.ticks H (now + 1 - q.last)

/-- What happens to a queue. -/
inductive Call where
  | push (key msg expire : Nat)
  | pop (key : Nat)
  | timeout (H : Handler) (now : Nat)

def Q.call (q : Q) : Call → Option Q
  | .push k m e => some (q.push k m e).1
  | .pop k => (q.pop k).map (·.1)
  | .timeout H now => q.doTimeout H now

inductive Reach (now : Nat) : Q → Prop where
  | init : Reach now (.fresh now)
  | step {q q' : Q} (c : Call) (h : Reach now q) (hc : q.call c = some q') : Reach now q'

end Verif.Transport.Wheel
