import Verif.Queue.MpmcModel
/-!
# The fiber run queue (`trpc/runtime/threadmodel/fiber/detail/scheduling/v1/run_queue.{h,cc}`)

Threads interleave at single accesses of `head_seq_`, `tail_seq_`, `seq`, `fiber` and `instealable`, over
sequentially consistent memory.  Positions and sequence numbers are natural numbers: exact as long as fewer
than 2⁶³ fibers have been pushed.  `Pause()` and the load used only as a fence (run_queue.h:74, run_queue.cc:158) are
skipped.  `pos & mask_` is `pos % capacity_` (`C19_mask`).
-/

namespace Verif.Queue.RunQ

open Verif.Lin

/-- `Init`, run_queue.cc:22-28: the capacity; `none`: `RoundUpPowerOf2` does not return. -/
def initCap (n : UInt64) : Option UInt64 :=
  if (n &&& (n - 1)) ≠ 0 then Mpmc.roundUp n else some n

inductive Op (V : Type)
  | push (v : V) (instealable : Bool)
  | batch (vs : List V) (instealable : Bool)
  | pop
  | steal
  /-- `UnsafeSize`; the order of the two loads is not specified by the language: `hf` = head first. -/
  | size (hf : Bool)
deriving DecidableEq

inductive Res (V : Type)
  | ok
  | full
  | val (v : V)
  | none
  | size (n : Nat)
deriving DecidableEq

/-- The fast path of `Pop`, its slow path, or `Steal`. -/
inductive Mode
  | fast
  | slow
  | steal
deriving DecidableEq

/-- Where a thread is. -/
inductive PC (V : Type)
  | idle
  | eLoad (v : V) (f fast : Bool)
  | eSeq (v : V) (f fast : Bool) (pos : Nat)
  | eCas (v : V) (f : Bool) (pos : Nat)
  | bLoad (vs : List V) (f : Bool)
  | bHead (vs : List V) (f : Bool) (pos : Nat)
  | bScan (vs : List V) (f : Bool) (pos i : Nat)
  | bCas (vs : List V) (f : Bool) (pos : Nat)
  | bChk (v : V) (rest : List V) (f : Bool) (pos : Nat)
  | wFib (v : V) (rest : List V) (f : Bool) (pos : Nat)
  | wFlag (v : V) (rest : List V) (f : Bool) (pos : Nat)
  | wPub (v : V) (rest : List V) (f : Bool) (pos : Nat)
  | dLoad (m : Mode)
  | dSeq (m : Mode) (pos : Nat)
  | dTest (pos : Nat)
  | dCas (m : Mode) (pos : Nat)
  | dRead (pos : Nat)
  | dRel (v : V) (pos : Nat)
  | sFirst (hf : Bool)
  | sSecond (hf : Bool) (x : Nat)
  /-- `TRPC_CHECK_EQ` failed. -/
  | abort
  | done (r : Res V)

structure Conf (V : Type) where
  enq : Nat
  deq : Nat
  seq : Nat → Nat
  data : Nat → V
  flag : Nat → Bool
  pc : Nat → PC V

/-- After `Init`, run_queue.cc:30-35: slot `i` has sequence `i`. -/
def init {V : Type} (d : V) (f : Bool) : Conf V := ⟨0, 0, fun i => i, fun _ => d, fun _ => f, fun _ => .idle⟩

/-- First step of an operation. -/
def entry {V : Type} : Op V → PC V
  | .push v f => .eLoad v f true
  | .batch vs f => .bLoad vs f
  | .pop => .dLoad .fast
  | .steal => .dLoad .steal
  | .size hf => .sFirst hf

/-- `Push`, run_queue.h:48-56 (`fast`), and `PushSlow`, run_queue.cc:94-127. -/
def afterESeq {V : Type} (cap : Nat) (v : V) (f fast : Bool) (pos s : Nat) : PC V :=
  if s = pos then .eCas v f pos
  else if fast = false ∧ s + cap = pos + 1 then .done .full
  else .eLoad v f false

/-- The scan continues at node `i`, or is finished, run_queue.cc:50. -/
def scanNext {V : Type} (vs : List V) (f : Bool) (pos i : Nat) : PC V :=
  if i = vs.length then .bCas vs f pos else .bScan vs f pos i

/-- `BatchPush`, run_queue.cc:48, 73-77. -/
def afterBHead {V : Type} (cap : Nat) (vs : List V) (f : Bool) (pos s : Nat) : PC V :=
  if s = pos + vs.length then scanNext vs f pos 0
  else if s + cap = pos + vs.length + 1 then .done .full
  else .bLoad vs f

/-- `BatchPush`, run_queue.cc:51-58. -/
def afterBScan {V : Type} (cap : Nat) (vs : List V) (f : Bool) (pos i s : Nat) : PC V :=
  if s ≠ pos + i ∧ s + cap = pos + i + 1 then .done .full
  else scanNext vs f pos (i + 1)

/-- What is left to fill after a claim or a publication, run_queue.cc:64. -/
def fillNext {V : Type} (rest : List V) (f : Bool) (pos : Nat) : PC V :=
  match rest with
  | [] => .done .ok
  | v :: rest => .bChk v rest f pos

/-- `Pop`, run_queue.h:71-79, and `PopIf`, run_queue.cc:152-168. -/
def afterDSeq {V : Type} (cap : Nat) (m : Mode) (pos s : Nat) : PC V :=
  if s = pos + 1 then (if m = .steal then .dTest pos else .dCas m pos)
  else if m = .fast then .dLoad .slow
  else if s = pos ∨ s + cap = pos then .done .none
  else .dLoad m

/-- Mode of the attempt after a failed one. -/
def retry : Mode → Mode
  | .steal => .steal
  | _ => .slow

/-- `UnsafeSize`, run_queue.cc:136-144; a negative difference wraps around and exceeds the capacity. -/
def sizeOf (cap head tail : Nat) : Nat :=
  if head < tail then 0 else if head - tail ≥ cap then 0 else head - tail

/-- One atomic access by thread `t`.  `spur`: a `compare_exchange_weak` fails spuriously. -/
def tstep {V : Type} (cap : Nat) (c : Conf V) (t : Nat) (spur : Bool) : Option (Conf V) :=
  match c.pc t with
  | .idle => none
  | .eLoad v f fast => some { c with pc := upd c.pc t (.eSeq v f fast c.enq) }
  | .eSeq v f fast pos => some { c with pc := upd c.pc t (afterESeq cap v f fast pos (c.seq (pos % cap))) }
  | .eCas v f pos =>
    if c.enq = pos ∧ spur = false then some { c with enq := pos + 1, pc := upd c.pc t (.wFib v [] f pos) }
    else some { c with pc := upd c.pc t (.eLoad v f false) }
  | .bLoad vs f => some { c with pc := upd c.pc t (.bHead vs f c.enq) }
  | .bHead vs f pos =>
    some { c with pc := upd c.pc t (afterBHead cap vs f pos (c.seq ((pos + vs.length) % cap))) }
  | .bScan vs f pos i => some { c with pc := upd c.pc t (afterBScan cap vs f pos i (c.seq ((pos + i) % cap))) }
  | .bCas vs f pos =>
    if c.enq = pos ∧ spur = false then
      some { c with enq := pos + vs.length, pc := upd c.pc t (fillNext vs f pos) }
    else some { c with pc := upd c.pc t (.bLoad vs f) }
  | .bChk v rest f pos =>
    if c.seq (pos % cap) = pos then some { c with pc := upd c.pc t (.wFib v rest f pos) }
    else some { c with pc := upd c.pc t .abort }
  | .wFib v rest f pos =>
    some { c with data := upd c.data (pos % cap) v, pc := upd c.pc t (.wFlag v rest f pos) }
  | .wFlag v rest f pos =>
    some { c with flag := upd c.flag (pos % cap) f, pc := upd c.pc t (.wPub v rest f pos) }
  | .wPub _ rest f pos =>
    some { c with seq := upd c.seq (pos % cap) (pos + 1), pc := upd c.pc t (fillNext rest f (pos + 1)) }
  | .dLoad m => some { c with pc := upd c.pc t (.dSeq m c.deq) }
  | .dSeq m pos => some { c with pc := upd c.pc t (afterDSeq cap m pos (c.seq (pos % cap))) }
  | .dTest pos =>
    some { c with pc := upd c.pc t (if c.flag (pos % cap) = true then .done .none else .dCas .steal pos) }
  | .dCas m pos =>
    if c.deq = pos ∧ spur = false then some { c with deq := pos + 1, pc := upd c.pc t (.dRead pos) }
    else some { c with pc := upd c.pc t (.dLoad (retry m)) }
  | .dRead pos => some { c with pc := upd c.pc t (.dRel (c.data (pos % cap)) pos) }
  | .dRel v pos => some { c with seq := upd c.seq (pos % cap) (pos + cap), pc := upd c.pc t (.done (.val v)) }
  | .sFirst hf => some { c with pc := upd c.pc t (.sSecond hf (if hf then c.enq else c.deq)) }
  | .sSecond hf x =>
    some { c with pc := upd c.pc t (.done (.size (if hf then sizeOf cap x c.deq else sizeOf cap c.enq x))) }
  | .abort => none
  | .done _ => none

/-- Steps of the whole system. -/
inductive Step {V : Type} (cap : Nat) : Conf V → Option (Vis (Op V) (Res V)) → Conf V → Prop
  | call (c t op) : c.pc t = .idle → Step cap c (some (.call t op)) { c with pc := upd c.pc t (entry op) }
  | tau (c t spur c') : tstep cap c t spur = some c' → Step cap c none c'
  | ret (c t r) : c.pc t = .done r → Step cap c (some (.ret t r)) { c with pc := upd c.pc t .idle }

end Verif.Queue.RunQ
