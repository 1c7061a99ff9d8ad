import Verif.Common.Linearizable
/-!
# `BoundedMPMCQueue` and `BoundedMPSCQueue` (`trpc/util/queue/bounded_mpmc_queue.h`, `bounded_mpsc_queue.h`)

One model for both: the producer side (`Push`, `Enqueue`) is textually the same, the consumer side differs and
is selected by `Cfg.sc` (single consumer).  Threads interleave at single accesses of `enqueue_pos_`,
`dequeue_pos_`, `sequence` and `data`, over sequentially consistent memory.  Positions and sequence numbers are
natural numbers: exact as long as fewer than 2⁶³ elements have been pushed.  `Pause()` is skipped.
`pos & (capacity_ - 1)` is `pos % capacity_` (`capacity_` is a power of two: `roundUp`).
-/

namespace Verif.Queue.Mpmc

open Verif.Lin

/-- The loop of `RoundUpPowerOf2`, util/algorithm/power_of_two.cc:21-24; `none`: the shift overflowed to 0 and the
loop does not end.  `fuel` bounds the 64 possible shifts. -/
def roundLoop : Nat → UInt64 → UInt64 → Option UInt64
  | 0, _, _ => none
  | fuel + 1, tmp, n => if tmp ≤ n then roundLoop fuel (tmp <<< 1) n else some tmp

/-- `RoundUpPowerOf2`, power_of_two.cc:18-29. -/
def roundUp (n : UInt64) : Option UInt64 :=
  if n ≥ 2 && (n &&& (n - 1)) == 0 then some n else roundLoop 65 1 n

/-- `cap`: `capacity_`; `sc`: the MPSC variant. -/
structure Cfg where
  cap : Nat
  sc : Bool

inductive Op (V : Type)
  | push (v : V) (block : Bool)
  | pop (block : Bool)
  | size

inductive Res (V : Type)
  | ok
  | full
  | val (v : V)
  | empty
  | size (n : Nat)

/-- Where a thread is. -/
inductive PC (V : Type)
  | idle
  | eLoad (v : V) (b : Bool)
  | eSeq (v : V) (b : Bool) (pos : Nat)
  | eCas (v : V) (b : Bool) (pos : Nat)
  | eFull (v : V) (b : Bool) (pos : Nat)
  | eWrite (v : V) (pos : Nat)
  | ePub (pos : Nat)
  | dLoad (b : Bool)
  | dSeq (b : Bool) (pos : Nat)
  | dCas (b : Bool) (pos : Nat)
  | dEmpty (b : Bool) (pos : Nat)
  | dRead (pos : Nat)
  | dRel (v : V) (pos : Nat)
  | sEnq
  | sDeq (e : Nat)
  | done (r : Res V)

structure Conf (V : Type) where
  enq : Nat
  deq : Nat
  seq : Nat → Nat
  data : Nat → V
  pc : Nat → PC V

/-- After `Init`, :48-60 (mpsc :41-53): slot `i` has sequence `i`. -/
def init {V : Type} (d : V) : Conf V := ⟨0, 0, fun i => i, fun _ => d, fun _ => .idle⟩

/-- First step of an operation. -/
def entry {V : Type} : Op V → PC V
  | .push v b => .eLoad v b
  | .pop b => .dLoad b
  | .size => .sEnq

/-- The outcome of testing `dif` in `Push`/`Enqueue`, bounded_mpmc_queue.h:72-83, 114-127. -/
def afterESeq {V : Type} (v : V) (b : Bool) (pos s : Nat) : PC V :=
  if s = pos then .eCas v b pos else if s < pos then .eFull v b pos else .eLoad v b

/-- The outcome of testing `dif` in `Dequeue`: bounded_mpmc_queue.h:151-163 or bounded_mpsc_queue.h:133-143. -/
def afterDSeq {V : Type} (sc b : Bool) (pos s : Nat) : PC V :=
  if s = pos + 1 then .dCas b pos
  else if sc then .done .empty
  else if s < pos + 1 then .dEmpty b pos
  else .dLoad b

/-- One atomic access by thread `t`.  `spur`: a `compare_exchange_weak` fails spuriously. -/
def tstep {V : Type} (k : Cfg) (c : Conf V) (t : Nat) (spur : Bool) : Option (Conf V) :=
  match c.pc t with
  | .idle => none
  | .eLoad v b => some { c with pc := upd c.pc t (.eSeq v b c.enq) }
  | .eSeq v b pos => some { c with pc := upd c.pc t (afterESeq v b pos (c.seq (pos % k.cap))) }
  | .eCas v b pos =>
    if c.enq = pos ∧ spur = false then some { c with enq := pos + 1, pc := upd c.pc t (.eWrite v pos) }
    else some { c with pc := upd c.pc t (.eLoad v b) }
  | .eFull v b pos =>
    if pos - c.deq = k.cap ∧ b = false then some { c with pc := upd c.pc t (.done .full) }
    else some { c with pc := upd c.pc t (.eLoad v b) }
  | .eWrite v pos => some { c with data := upd c.data (pos % k.cap) v, pc := upd c.pc t (.ePub pos) }
  | .ePub pos => some { c with seq := upd c.seq (pos % k.cap) (pos + 1), pc := upd c.pc t (.done .ok) }
  | .dLoad b => some { c with pc := upd c.pc t (.dSeq b c.deq) }
  | .dSeq b pos => some { c with pc := upd c.pc t (afterDSeq k.sc b pos (c.seq (pos % k.cap))) }
  | .dCas b pos =>
    if k.sc = true ∨ (c.deq = pos ∧ spur = false) then some { c with deq := pos + 1, pc := upd c.pc t (.dRead pos) }
    else some { c with pc := upd c.pc t (.dLoad b) }
  | .dEmpty b pos =>
    if pos = c.enq ∧ b = false then some { c with pc := upd c.pc t (.done .empty) }
    else some { c with pc := upd c.pc t (.dLoad b) }
  | .dRead pos => some { c with pc := upd c.pc t (.dRel (c.data (pos % k.cap)) pos) }
  | .dRel v pos => some { c with seq := upd c.seq (pos % k.cap) (pos + k.cap), pc := upd c.pc t (.done (.val v)) }
  | .sEnq => some { c with pc := upd c.pc t (.sDeq c.enq) }
  | .sDeq e => some { c with pc := upd c.pc t (.done (.size (e - c.deq))) }
  | .done _ => none

/-- With a single consumer only thread 0 may pop. -/
def allowed {V : Type} (k : Cfg) (t : Nat) : Op V → Prop
  | .pop _ => k.sc = true → t = 0
  | _ => True

/-- Steps of the whole system. -/
inductive Step {V : Type} (k : Cfg) : Conf V → Option (Vis (Op V) (Res V)) → Conf V → Prop
  | call (c t op) : c.pc t = .idle → allowed k t op →
      Step k c (some (.call t op)) { c with pc := upd c.pc t (entry op) }
  | tau (c t spur c') : tstep k c t spur = some c' → Step k c none c'
  | ret (c t r) : c.pc t = .done r → Step k c (some (.ret t r)) { c with pc := upd c.pc t .idle }

end Verif.Queue.Mpmc
