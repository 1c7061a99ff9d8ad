import Verif.Common.Linearizable
/-!
# The work-stealing deques

`UnboundedSPMCQueue` (`trpc/util/queue/unbounded_spmc_queue.h`), `BoundedSPMCQueue`
(`trpc/util/queue/bounded_spmc_queue.h`) and the v2 scheduler's `LocalQueue`
(`trpc/runtime/threadmodel/fiber/detail/scheduling/v2/local_queue.{h,cc}`).

One model for the three variants of the Chase–Lev deque, which differ in the points marked `Kind`.  Thread 0 is
the owner.  Threads interleave at single accesses of `top_`, `bottom_`, `array_` and the slots, over sequentially
consistent memory.  Positions are integers: exact as long as fewer than 2⁶³ items have been pushed and, for the
two variants with `size_t` positions, as long as no position goes below 0 (proved for `LocalQueue`, see
`Verif.Queue.Deque.C22_no_wrap`; for `BoundedSPMCQueue` this is what `allowed` demands, and what happens
otherwise is modelled separately in `BoundedSpmc.lean`).  `i & mod` is `i % cap`.

`Resize` is one step: the new array is not visible to other threads until it is stored, and the old one is
written by the owner only.  An old array stays readable (`garbage_`).  Loads by the owner of variables only the
owner writes (`bottom_`, `array_`) happen together with the next step.
-/

namespace Verif.Queue.Deque

open Verif.Lin

inductive Kind
  | unbounded
  | bounded
  | localQ
deriving DecidableEq

inductive Op (V : Type)
  | push (v : V)
  | pop
  | steal
deriving DecidableEq

inductive Res (V : Type)
  | ok
  | full
  | val (v : V)
  | null
deriving DecidableEq

inductive PC (V : Type)
  | idle
  /-- load `top_` in `Push` -/
  | uTop (v : V)
  /-- `Resize` and store of `array_`, with the value of `top_` loaded before -/
  | uGrow (v : V) (t : Int)
  /-- store into the slot -/
  | uWrite (v : V)
  /-- store of `bottom_` -/
  | uPub (v : V)
  /-- first load of `top_` in `LocalQueue::Pop` -/
  | pPre
  /-- store of `bottom_` in `Pop` -/
  | pSet
  /-- load of `top_` after it; `b` is the decremented bottom -/
  | pTop (b : Int)
  /-- load of the slot; more than one item was left -/
  | pTake (b : Int)
  /-- load of the slot of the last item -/
  | pLast (b : Int)
  /-- compare-and-swap for the last item -/
  | pCas (b : Int) (v : V)
  /-- restore `bottom_` and return `r` -/
  | pRestore (b : Int) (r : Res V)
  | sTop
  /-- `LocalQueue::Steal`: load of `bottom_` before the loop -/
  | sPre (t : Int)
  | sBot (t : Int)
  | sArr (t : Int)
  | sRead (t : Int) (a : Nat)
  | sCas (t : Int) (v : V)
  | done (r : Res V)

/-- `arr a i`: slot `i` of the `a`-th array allocated, which has `cap a` slots; `cur`: `array_`. -/
structure Conf (V : Type) where
  top : Int
  bot : Int
  cur : Nat
  arr : Nat → Int → V
  cap : Nat → Int
  pc : Nat → PC V

/-- The constructors: unbounded_spmc_queue.h:92-99, bounded_spmc_queue.h:36-43 (both start at position 0),
local_queue.cc:18-23 (starts at 1). -/
def init {V : Type} (kind : Kind) (cap : Int) (d : V) : Conf V :=
  let p := if kind = .localQ then 1 else 0
  ⟨p, p, 0, fun _ _ => d, fun _ => cap, fun _ => .idle⟩

/-- First step of an operation. -/
def entry {V : Type} (kind : Kind) : Op V → PC V
  | .push v => .uTop v
  | .pop => if kind = .localQ then .pPre else .pSet
  | .steal => .sTop

/-- After loading `t = top_` in `Push` with `b = bottom_`: unbounded_spmc_queue.h:125-134,
bounded_spmc_queue.h:49-54 (`size_t` difference, huge when negative), local_queue.cc:55-59. -/
def afterUTop {V : Type} (kind : Kind) (cap b t : Int) (v : V) : PC V :=
  match kind with
  | .unbounded => if cap - 1 < b - t then .uGrow v t else .uWrite v
  | .bounded => if cap - 1 < b - t ∨ b - t < 0 then .done .full else .uWrite v
  | .localQ => if b ≥ t + cap then .done .full else .uWrite v

/-- After the second load of `top_` in `Pop`: unbounded_spmc_queue.h:151-162, bounded_spmc_queue.h:76-88,
local_queue.cc:81-90. -/
def afterPTop {V : Type} (b t : Int) : PC V :=
  if t > b then .pRestore b .null else if t = b then .pLast b else .pTake b

/-- Store into slot `i`. -/
def setSlot {V : Type} (f : Int → V) (i : Int) (v : V) : Int → V := fun j => if j = i then v else f j

/-- The first `n` iterations of the loop of `Array::Resize(bottom, top)`, unbounded_spmc_queue.h:77-83, starting at
position `t`, from an array of `cap` slots into one of `2 * cap` slots with contents `d`. -/
def copyLoop {V : Type} (old : Int → V) (cap t : Int) (d : Int → V) : Nat → Int → V
  | 0 => d
  | n + 1 => setSlot (copyLoop old cap t d n) ((t + n) % (2 * cap)) (old ((t + n) % cap))

/-- One atomic step of thread `th`.  `d`: contents of freshly allocated memory.  `Push`: unbounded_spmc_queue.h:123-139,
bounded_spmc_queue.h:48-63, local_queue.cc:53-65; `Pop`: :141-165, :67-90, :67-100; `Steal`: :167-184, :94-110,
:102-124. -/
def tstep {V : Type} (kind : Kind) (c : Conf V) (th : Nat) (d : Int → V) : Option (Conf V) :=
  match c.pc th with
  | .idle => none
  | .uTop v => some { c with pc := upd c.pc th (afterUTop kind (c.cap c.cur) c.bot c.top v) }
  | .uGrow v t =>
    some { c with
      arr := upd c.arr (c.cur + 1) (copyLoop (c.arr c.cur) (c.cap c.cur) t d (c.bot - t).toNat)
      cap := upd c.cap (c.cur + 1) (2 * c.cap c.cur)
      cur := c.cur + 1
      pc := upd c.pc th (.uWrite v) }
  | .uWrite v =>
    some { c with
      arr := upd c.arr c.cur (setSlot (c.arr c.cur) (c.bot % c.cap c.cur) v)
      pc := upd c.pc th (.uPub v) }
  | .uPub _ => some { c with bot := c.bot + 1, pc := upd c.pc th (.done .ok) }
  | .pPre => some { c with pc := upd c.pc th (if c.top ≥ c.bot then .done .null else .pSet) }
  | .pSet => some { c with bot := c.bot - 1, pc := upd c.pc th (.pTop (c.bot - 1)) }
  | .pTop b => some { c with pc := upd c.pc th (afterPTop b c.top) }
  | .pTake b => some { c with pc := upd c.pc th (.done (.val (c.arr c.cur (b % c.cap c.cur)))) }
  | .pLast b => some { c with pc := upd c.pc th (.pCas b (c.arr c.cur (b % c.cap c.cur))) }
  | .pCas b v =>
    if c.top = b then some { c with top := b + 1, pc := upd c.pc th (.pRestore b (.val v)) }
    else if kind = .bounded then some { c with pc := upd c.pc th (.done .null) }
    else some { c with pc := upd c.pc th (.pRestore b .null) }
  | .pRestore b r => some { c with bot := b + 1, pc := upd c.pc th (.done r) }
  | .sTop => some { c with pc := upd c.pc th (if kind = .localQ then .sPre c.top else .sBot c.top) }
  | .sPre t => some { c with pc := upd c.pc th (if t ≥ c.bot then .done .null else .sBot t) }
  | .sBot t => some { c with pc := upd c.pc th (if t < c.bot then .sArr t else .done .null) }
  | .sArr t => some { c with pc := upd c.pc th (.sRead t c.cur) }
  | .sRead t a => some { c with pc := upd c.pc th (.sCas t (c.arr a (t % c.cap a))) }
  | .sCas t v =>
    if c.top = t then some { c with top := t + 1, pc := upd c.pc th (.done (.val v)) }
    else if kind = .localQ then some { c with pc := upd c.pc th (.sBot c.top) }
    else some { c with pc := upd c.pc th (.done .null) }
  | .done _ => none

/-- `Push` and `Pop` are for the owner only.  For `BoundedSPMCQueue` the model covers a `Dequeue` only while
`bottom_` is not 0. -/
def allowed {V : Type} (kind : Kind) (c : Conf V) (th : Nat) : Op V → Prop
  | .push _ => th = 0
  | .pop => th = 0 ∧ (kind = .bounded → 0 < c.bot)
  | .steal => True

/-- Steps of the whole system. -/
inductive Step {V : Type} (kind : Kind) : Conf V → Option (Vis (Op V) (Res V)) → Conf V → Prop
  | call (c th op) : c.pc th = .idle → allowed kind c th op →
      Step kind c (some (.call th op)) { c with pc := upd c.pc th (entry kind op) }
  | tau (c th d c') : tstep kind c th d = some c' → Step kind c none c'
  | ret (c th r) : c.pc th = .done r → Step kind c (some (.ret th r)) { c with pc := upd c.pc th .idle }

end Verif.Queue.Deque
