import Verif.Common.Upd
/-!
# `std::priority_queue` as used by `TimerWorker` (`timers_`, timer_worker.h:119)

The algorithms `std::push_heap` and `std::pop_heap` of libstdc++ (`bits/stl_heap.h`, `__push_heap`, `__adjust_heap`,
`__pop_heap`), on a vector given by its size and its elements, with the comparison `EntryPtrComp` (timer_worker.cc:377-381):
the element with the smallest key comes first.  The keys (`expires_at`) are given by a function, because `FireTimers` changes
the key of an element that is in the heap.
-/

namespace Verif.Fiber

structure Heap where
  n : Nat
  a : Nat → Nat

def Heap.empty : Heap := ⟨0, fun _ => 0⟩

/-- `__push_heap(first, hole, 0, v)`. -/
def siftUp (key : Nat → Nat) (a : Nat → Nat) (hole v : Nat) : Nat → Nat :=
  if h : hole = 0 then upd a hole v
  else if key v < key (a ((hole - 1) / 2)) then siftUp key (upd a hole (a ((hole - 1) / 2))) ((hole - 1) / 2) v
  else upd a hole v
termination_by hole
decreasing_by omega

/-- The loop of `__adjust_heap`, and the `if` after it: where the hole ends up. -/
def siftDown (key : Nat → Nat) (len : Nat) (a : Nat → Nat) (hole : Nat) : (Nat → Nat) × Nat :=
  if h : hole < (len - 1) / 2 then
    let second := if key (a (2 * hole + 1)) < key (a (2 * hole + 2)) then 2 * hole + 1 else 2 * hole + 2
    siftDown key len (upd a hole (a second)) second
  else if len % 2 = 0 ∧ hole = (len - 2) / 2 then (upd a hole (a (2 * hole + 1)), 2 * hole + 1)
  else (a, hole)
termination_by len - hole
decreasing_by split <;> omega

/-- `priority_queue::push`. -/
def Heap.push (key : Nat → Nat) (h : Heap) (v : Nat) : Heap := ⟨h.n + 1, siftUp key h.a h.n v⟩

/-- `priority_queue::pop`. -/
def Heap.pop (key : Nat → Nat) (h : Heap) : Heap :=
  if h.n ≤ 1 then ⟨h.n - 1, h.a⟩
  else
    let d := siftDown key (h.n - 1) h.a 0
    ⟨h.n - 1, siftUp key d.1 d.2 (h.a (h.n - 1))⟩

/-- `priority_queue::top`. -/
def Heap.top (h : Heap) : Nat := h.a 0

end Verif.Fiber
