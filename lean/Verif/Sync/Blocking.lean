import Verif.Common.Sum

/-!
# Blocking buffer of fibers

/repo/trpc/coroutine/fiber_blocking_noncontiguous_buffer.h (used by HTTP streams).

* Bytes are numbers, the buffer is a list of them. `NoncontiguousBuffer` appends and cuts as a byte string (C01).
* `FiberMutex` is a mutex, `FiberConditionVariable` a condition variable (C55, C56). Acquiring the lock, what is done under it, going to sleep and each notification are steps of their own;
  `SetCapacity`, which takes no lock, may come between a test and the sleep after it. `notify_one` wakes any one of those who sleep, or nobody if nobody sleeps.
* `wait_for` and `wait_until` with a predicate test it once more after the time is over. `TryAppend` and `TryCut` are the last test only.
* `single` stands for the use by HTTP streams: one fiber appends at a time and one cuts at a time, and the capacity is not changed while they do.
-/

namespace Verif.Sync.Blocking

inductive Pc where
  | idle
  /-- `Append` of these bytes (`t`: with a time-out): wants the lock, has it, goes to sleep, sleeps -/
  | aq (x : List Nat) (t : Bool)
  | al (x : List Nat) (t : Bool)
  | as (x : List Nat) (t : Bool)
  | az (x : List Nat) (t : Bool)
  /-- the last test: wants the lock, has it -/
  | ax (x : List Nat)
  | axl (x : List Nat)
  /-- `AppendAlways` -/
  | vq (x : List Nat)
  | vl (x : List Nat)
  | vs (x : List Nat)
  | vz (x : List Nat)
  /-- notifies `not_empty_`, then goes on with these bytes -/
  | an (rest : List Nat)
  /-- `Cut` -/
  | cq (n : Nat) (t : Bool)
  | cl (n : Nat) (t : Bool)
  | cs (n : Nat) (t : Bool)
  | cz (n : Nat) (t : Bool)
  | cx (n : Nat)
  | cxl (n : Nat)
  /-- notifies `not_full_` -/
  | cn
  /-- `SetCapacity` notifies `not_full_` -/
  | kn
  /-- `Stop`: wants the lock, has it, notifies `not_full_`, notifies `not_empty_` -/
  | s0
  | s1
  | s2
  | s3
deriving DecidableEq

structure S where
  content : List Nat
  cap : Nat
  stop : Bool
  lk : Bool
  pc : List Pc
  /-- ghost: all bytes that were appended and that were cut, in order -/
  put : List Nat
  got : List Nat
deriving DecidableEq

def S.init (cap n : Nat) : S := ⟨[], cap, false, false, List.replicate n .idle, [], []⟩

/-- `CanAppend` (:165) -/
def S.canAppend (s : S) (k : Nat) : Bool := k + s.content.length ≤ s.cap || s.stop

/-- `CanCut` (:167) -/
def S.canCut (s : S) (n : Nat) : Bool := n ≤ s.content.length || s.stop

/-- In a call that appends. -/
def fA : Pc → Nat
  | .aq .. | .al .. | .as .. | .az .. | .ax .. | .axl .. | .vq .. | .vl .. | .vs .. | .vz .. | .an .. => 1
  | _ => 0

/-- In a call that cuts. -/
def fC : Pc → Nat
  | .cq .. | .cl .. | .cs .. | .cz .. | .cx .. | .cxl .. | .cn => 1
  | _ => 0

def S.at (s : S) (i : Nat) (p : Pc) : S := { s with pc := s.pc.set i p }

/-- The calls. -/
inductive Call (single : Bool) : S → S → Prop
  | append {s : S} (i : Nat) (x : List Nat) (t : Bool) (h : s.pc[i]? = some .idle) (h1 : single = true → wsum fA s.pc = 0) : Call single s (s.at i (.aq x t))
  | tryAppend {s : S} (i : Nat) (x : List Nat) (h : s.pc[i]? = some .idle) (h1 : single = true → wsum fA s.pc = 0) : Call single s (s.at i (.ax x))
  | appendAlways {s : S} (i : Nat) (x : List Nat) (hx : x ≠ []) (h : s.pc[i]? = some .idle) (h1 : single = true → wsum fA s.pc = 0) : Call single s (s.at i (.vq x))
  | cut {s : S} (i n : Nat) (t : Bool) (h : s.pc[i]? = some .idle) (h1 : single = true → wsum fC s.pc = 0) : Call single s (s.at i (.cq n t))
  | tryCut {s : S} (i n : Nat) (h : s.pc[i]? = some .idle) (h1 : single = true → wsum fC s.pc = 0) : Call single s (s.at i (.cx n))
  /-- `SetCapacity` (:141-145) -/
  | setCap {s : S} (i c : Nat) (h : s.pc[i]? = some .idle) (h1 : single = false) : Call single s { s with cap := c, pc := s.pc.set i (if s.cap < c then .kn else .idle) }
  /-- `Stop` (:147-154) -/
  | stop {s : S} (i : Nat) (h : s.pc[i]? = some .idle) : Call single s (s.at i .s0)

/-- The time of a call that sleeps is over. -/
inductive Timeout : S → S → Prop
  | append {s : S} (i : Nat) (x : List Nat) (h : s.pc[i]? = some (.az x true)) : Timeout s (s.at i (.ax x))
  | cut {s : S} (i n : Nat) (h : s.pc[i]? = some (.cz n true)) : Timeout s (s.at i (.cx n))

/-- Who sleeps on `not_full_` wakes up. -/
def wakeA : Pc → Option Pc
  | .az x t => some (.aq x t)
  | .vz x => some (.vq x)
  | _ => none

/-- Who sleeps on `not_empty_` wakes up. -/
def wakeC : Pc → Option Pc
  | .cz n t => some (.cq n t)
  | _ => none

/-- `notify_one`: what may happen. -/
inductive Notify (w : Pc → Option Pc) (l : List Pc) : List Pc → Prop
  | one (j : Nat) (p q : Pc) (h : l[j]? = some p) (hw : w p = some q) : Notify w l (l.set j q)
  | none (h : ∀ (j : Nat) (p : Pc), l[j]? = some p → w p = none) : Notify w l l

/-- `content_.Append` -/
def S.add (s : S) (x : List Nat) : S := { s with content := s.content ++ x, put := s.put ++ x, lk := false }

/-- `content_.Cut` -/
def S.take (s : S) (n : Nat) : S := { s with content := s.content.drop n, got := s.got ++ s.content.take n, lk := false }

inductive Step : S → S → Prop
  /-- `Append` and `TryAppend` (:30-37, :50-86) -/
  | aq {s : S} (i : Nat) (x : List Nat) (t : Bool) (h : s.pc[i]? = some (.aq x t)) (hl : s.lk = false) : Step s ({ s with lk := true }.at i (.al x t))
  | al {s : S} (i : Nat) (x : List Nat) (t : Bool) (h : s.pc[i]? = some (.al x t)) :
      Step s (if s.canAppend x.length then (s.add x).at i (.an []) else s.at i (.as x t))
  | as {s : S} (i : Nat) (x : List Nat) (t : Bool) (h : s.pc[i]? = some (.as x t)) : Step s ({ s with lk := false }.at i (.az x t))
  | ax {s : S} (i : Nat) (x : List Nat) (h : s.pc[i]? = some (.ax x)) (hl : s.lk = false) : Step s ({ s with lk := true }.at i (.axl x))
  | axl {s : S} (i : Nat) (x : List Nat) (h : s.pc[i]? = some (.axl x)) :
      Step s (if s.canAppend x.length then (s.add x).at i (.an []) else { s with lk := false }.at i .idle)
  /-- `AppendAlways` (:39-48) -/
  | vq {s : S} (i : Nat) (x : List Nat) (h : s.pc[i]? = some (.vq x)) (hl : s.lk = false) : Step s ({ s with lk := true }.at i (.vl x))
  | vl {s : S} (i : Nat) (x : List Nat) (h : s.pc[i]? = some (.vl x)) :
      Step s (if s.content.length < s.cap then (s.add (x.take (s.cap - s.content.length))).at i (.an (x.drop (s.cap - s.content.length))) else s.at i (.vs x))
  | vs {s : S} (i : Nat) (x : List Nat) (h : s.pc[i]? = some (.vs x)) : Step s ({ s with lk := false }.at i (.vz x))
  | an {s : S} (i : Nat) (x : List Nat) (l : List Pc) (h : s.pc[i]? = some (.an x)) (hn : Notify wakeC (s.pc.set i (if x = [] then .idle else .vq x)) l) : Step s { s with pc := l }
  /-- `Cut` and `TryCut` (:88-135) -/
  | cq {s : S} (i n : Nat) (t : Bool) (h : s.pc[i]? = some (.cq n t)) (hl : s.lk = false) : Step s ({ s with lk := true }.at i (.cl n t))
  | cl {s : S} (i n : Nat) (t : Bool) (h : s.pc[i]? = some (.cl n t)) :
      Step s (if s.canCut n then (if t || !s.stop then (s.take n).at i .cn else { s with lk := false }.at i .cn) else s.at i (.cs n t))
  | cs {s : S} (i n : Nat) (t : Bool) (h : s.pc[i]? = some (.cs n t)) : Step s ({ s with lk := false }.at i (.cz n t))
  | cx {s : S} (i n : Nat) (h : s.pc[i]? = some (.cx n)) (hl : s.lk = false) : Step s ({ s with lk := true }.at i (.cxl n))
  | cxl {s : S} (i n : Nat) (h : s.pc[i]? = some (.cxl n)) : Step s (if s.canCut n then (s.take n).at i .cn else { s with lk := false }.at i .idle)
  | cn {s : S} (i : Nat) (l : List Pc) (h : s.pc[i]? = some .cn) (hn : Notify wakeA (s.pc.set i .idle) l) : Step s { s with pc := l }
  | kn {s : S} (i : Nat) (l : List Pc) (h : s.pc[i]? = some .kn) (hn : Notify wakeA (s.pc.set i .idle) l) : Step s { s with pc := l }
  /-- `Stop` (:147-154) -/
  | s0 {s : S} (i : Nat) (h : s.pc[i]? = some .s0) (hl : s.lk = false) : Step s ({ s with lk := true }.at i .s1)
  | s1 {s : S} (i : Nat) (h : s.pc[i]? = some .s1) : Step s ({ s with stop := true, lk := false }.at i .s2)
  | s2 {s : S} (i : Nat) (l : List Pc) (h : s.pc[i]? = some .s2) (hn : Notify wakeA (s.pc.set i .s3) l) : Step s { s with pc := l }
  | s3 {s : S} (i : Nat) (l : List Pc) (h : s.pc[i]? = some .s3) (hn : Notify wakeC (s.pc.set i .idle) l) : Step s { s with pc := l }

/-- All runs of `n` fibers with a buffer of this capacity. -/
inductive Reach (single : Bool) (cap n : Nat) : S → Prop
  | init : Reach single cap n (.init cap n)
  | call {s s' : S} (h : Reach single cap n s) (hc : Call single s s') : Reach single cap n s'
  | timeout {s s' : S} (h : Reach single cap n s) (ht : Timeout s s') : Reach single cap n s'
  | step {s s' : S} (h : Reach single cap n s) (hs : Step s s') : Reach single cap n s'

end Verif.Sync.Blocking
