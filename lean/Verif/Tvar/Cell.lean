import Verif.Common.Upd

/-!
# Variables with a buffer in every thread

/repo/trpc/tvar/common/write_mostly.h (`Update`, `Reset`, `GetValue`, `CommitAndClear`, destructor of `WriteBufferWrapper`), atomic_type.h, basic_ops/reducer.h (Counter, Gauge), basic_ops/recorder.h (Averager, IntRecorder), /repo/trpc/util/thread/thread_local.h, internal/object_array.h

One variable that adds up integers, any number of threads that come and go, any number of readers. Values have no bound (an `Averager` is two such variables, the sum and the number, that are changed together; see `Tvar.Packed` for the representation in an `IntRecorder`).
A reader holds the mutex of the variable from the start to the end, and the lock of the registry of threads while it goes through the buffers; hence there is one at a time, and threads neither register nor deregister during the second part.
A thread that exits takes its array out of the registry first (`Deregister`, object_array.h:194), and its buffer is merged afterwards, by the destructors of the elements of the array (write_mostly.h:138-141).
Left out: destruction of the variable; floating point numbers; memory orders.
-/

namespace Verif.Tvar.Cell

/-- What a thread is doing. -/
inductive W
  /-- it has no buffer yet -/
  | out
  | idle
  /-- `Modify` for `OpAdd`, after `Load` (atomic_type.h:110-112) -/
  | mid (r v : Int)
  /-- it exits, and is not in the registry any more -/
  | going
  | gone
deriving DecidableEq

/-- What was when a reader has got the lock of the registry. -/
structure Snap where
  /-- the sum of all updates -/
  added : Int
  /-- the number of them -/
  n : Nat

/-- Who holds the mutex of the variable. `r`: it is a `Reset`. -/
inductive H
  | free
  | start (r : Bool) (acc : Int)
  | trav (r : Bool) (acc : Int) (todo : List Nat) (s : Snap)

def H.walks : H → Bool
  | .trav .. => true
  | _ => false

structure S where
  /-- `exited_thread_combined_` -/
  exited : Int
  /-- threads in the registry that have a buffer -/
  reg : List Nat
  /-- threads that are going -/
  lv : List Nat
  buf : Nat → Int
  wk : Nat → W
  hold : H
  /-- history: sum and number of updates, sum of results of `Reset`, initial values that were put in, their number, threads that have got a buffer -/
  added : Int
  n : Nat
  outs : Int
  given : Int
  ids : Nat
  made : Nat

/-- What is fixed. -/
structure P where
  /-- updates are atomic (compare-and-swap or a mutex), not `Load` and `Store` -/
  atomic : Bool
  /-- `Reset` is called -/
  resets : Bool
  /-- `CommitAndClear` is called (IntRecorder) -/
  commits : Bool
  /-- the arguments of `Update` -/
  ok : Int → Prop
  /-- the initial value -/
  c : Int

def lsum (f : Nat → Int) (l : List Nat) : Int := (l.map f).sum

def S.init (p : P) : S := ⟨p.c, [], [], fun _ => 0, fun _ => .out, .free, 0, 0, 0, p.c, 1, 0⟩

def S.w (s : S) (i : Nat) (x : W) : S := { s with wk := upd s.wk i x }

def S.put (s : S) (i : Nat) (x : Int) : S := { s with buf := upd s.buf i x }

def S.give (s : S) (p : P) : S := { s with given := s.given + p.c, ids := s.ids + 1 }

def S.snap (s : S) : Snap := ⟨s.added, s.n⟩

inductive Step (p : P) : S → S → Prop
  /-- the first `Get` of a thread: `MakeTlp` (thread_local.h:136-141), write_mostly.h:125-127 -/
  | create {s : S} (i : Nat) (h : s.wk i = .out) (hh : s.hold.walks = false) :
    Step p s ((({ s with reg := s.reg ++ [i], made := s.made + 1 }.put i p.c).give p).w i .idle)
  /-- atomic update (atomic_type.h:55-58, 98-107, recorder.h:157-174) -/
  | upd {s : S} (i : Nat) (v : Int) (hp : p.atomic = true) (h : s.wk i = .idle) (hv : p.ok v) :
    Step p s ({ s with added := s.added + v, n := s.n + 1 }.put i (s.buf i + v))
  /-- the other one: `Load` (atomic_type.h:110) -/
  | load {s : S} (i : Nat) (v : Int) (hp : p.atomic = false) (h : s.wk i = .idle) (hv : p.ok v) : Step p s (s.w i (.mid (s.buf i) v))
  /-- `Store` (atomic_type.h:112) -/
  | store {s : S} (i : Nat) (r v : Int) (h : s.wk i = .mid r v) :
    Step p s (({ s with added := s.added + v, n := s.n + 1 }.put i (r + v)).w i .idle)
  /-- `CommitAndClear` (write_mostly.h:130-135) -/
  | commit {s : S} (i : Nat) (hp : p.commits = true) (h : s.wk i = .idle) (hh : s.hold = .free) :
    Step p s (({ s with exited := s.exited + s.buf i }.put i p.c).give p)
  /-- a thread exits: `Deregister` (object_array.h:194) -/
  | leave {s : S} (i : Nat) (h : s.wk i = .idle) (hh : s.hold.walks = false) :
    Step p s ({ s with reg := s.reg.erase i, lv := s.lv ++ [i] }.w i .going)
  /-- its buffer is destroyed (write_mostly.h:138-141) -/
  | merge {s : S} (i : Nat) (h : s.wk i = .going) (hh : s.hold = .free) :
    Step p s ({ s with exited := s.exited + s.buf i, lv := s.lv.erase i }.w i .gone)
  /-- `GetValue` (write_mostly.h:113-115) -/
  | get {s : S} (hh : s.hold = .free) : Step p s { s with hold := .start false s.exited }
  /-- `Reset` (write_mostly.h:100-104) -/
  | reset {s : S} (hp : p.resets = true) (hh : s.hold = .free) : Step p s ({ s with hold := .start true s.exited, exited := p.c }.give p)
  /-- `ForEach` gets the lock of the registry -/
  | walk {s : S} (r : Bool) (acc : Int) (hh : s.hold = .start r acc) : Step p s { s with hold := .trav r acc s.reg s.snap }
  /-- one buffer: `Load` (write_mostly.h:116) -/
  | look {s : S} (acc : Int) (i : Nat) (t : List Nat) (q : Snap) (hh : s.hold = .trav false acc (i :: t) q) : Step p s { s with hold := .trav false (acc + s.buf i) t q }
  /-- or `Exchange` (write_mostly.h:105-108) -/
  | take {s : S} (acc : Int) (i : Nat) (t : List Nat) (q : Snap) (hh : s.hold = .trav true acc (i :: t) q) :
    Step p s (({ s with hold := .trav true (acc + s.buf i) t q }.put i p.c).give p)
  /-- the function returns `acc` -/
  | ret {s : S} (r : Bool) (acc : Int) (q : Snap) (hh : s.hold = .trav r acc [] q) :
    Step p s { s with hold := .free, outs := s.outs + if r then acc else 0 }

inductive Reach (p : P) : S → Prop
  | init : Reach p (.init p)
  | step {s s' : S} (h : Reach p s) (hs : Step p s s') : Reach p s'

end Verif.Tvar.Cell
