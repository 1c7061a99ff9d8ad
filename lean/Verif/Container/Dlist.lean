import Verif.Common.Upd

/-!
# The intrusive doubly linked list

/repo/trpc/util/internal/doubly_linked_list.h

* Memory: `next` and `prev` of all nodes, numbers. A list is the number of its `head_`. An entry is the number of its node; `node_cast` and `object_cast` are not modelled.
* Each assignment is one update of memory, in the order of the code. Checks of debug builds are preconditions of the theorems.
-/

namespace Verif.Container.Dlist

structure M where
  next : Nat → Nat
  prev : Nat → Nat
  /-- `size_` of the list with this head -/
  size : Nat → Nat

def M.setN (m : M) (a b : Nat) : M := { m with next := upd m.next a b }
def M.setP (m : M) (a b : Nat) : M := { m with prev := upd m.prev a b }
def M.setS (m : M) (a b : Nat) : M := { m with size := upd m.size a b }

/-- All nodes are made pointing to themselves (:22-25). -/
def M.init : M := ⟨id, id, fun _ => 0⟩

/-- Unlinking, in `pop_front`, `pop_back` and `erase` (:201-203, :216-218, :257-259) -/
def M.unlink (m : M) (x : Nat) : M :=
  let m := m.setN (m.prev x) (m.next x)
  let m := m.setP (m.next x) (m.prev x)
  (m.setP x x).setN x x

/-- :195-207; nothing is a null pointer -/
def M.popFront (m : M) (h : Nat) : M × Option Nat :=
  if m.prev h = h then (m, none) else ((m.unlink (m.next h)).setS h (m.size h - 1), some (m.next h))

/-- :210-222 -/
def M.popBack (m : M) (h : Nat) : M × Option Nat :=
  if m.prev h = h then (m, none) else ((m.unlink (m.prev h)).setS h (m.size h - 1), some (m.prev h))

/-- :225-235 -/
def M.pushFront (m : M) (h x : Nat) : M :=
  let m := m.setP x h
  let m := m.setN x (m.next h)
  let m := m.setN (m.prev x) x
  let m := m.setP (m.next x) x
  m.setS h (m.size h + 1)

/-- :238-248 -/
def M.pushBack (m : M) (h x : Nat) : M :=
  let m := m.setP x (m.prev h)
  let m := m.setN x h
  let m := m.setN (m.prev x) x
  let m := m.setP (m.next x) x
  m.setS h (m.size h + 1)

/-- :251-263 -/
def M.erase (m : M) (h x : Nat) : M × Bool :=
  if m.prev x = x then (m, false) else ((m.unlink x).setS h (m.size h - 1), true)

/-- :266-282; `other_front` and `other_back` are references to the head of the other list. -/
def M.splice (m : M) (h g : Nat) : M :=
  if m.size g = 0 then m
  else
    let m := m.setP (m.next g) (m.prev h)
    let m := m.setN (m.prev h) (m.next g)
    let m := m.setN (m.prev g) h
    let m := m.setP h (m.prev g)
    let m := m.setS h (m.size h + m.size g)
    let m := m.setS g 0
    (m.setN g g).setP g g

/-- The part of `swap` for one list that was empty before or not (:289-294, :295-300). -/
def M.rehead (m : M) (h : Nat) (e : Bool) : M :=
  if !e then
    let m := m.setN (m.prev h) h
    m.setP (m.next h) h
  else
    let m := m.setN h h
    m.setP h h

/-- :285-301 -/
def M.swap (m : M) (h g : Nat) : M :=
  let e1 := m.size h == 0
  let e2 := m.size g == 0
  let m := { m with next := upd (upd m.next h (m.next g)) g (m.next h), prev := upd (upd m.prev h (m.prev g)) g (m.prev h) }
  let m := { m with size := upd (upd m.size h (m.size g)) g (m.size h) }
  (m.rehead h e2).rehead g e1

/-- Iteration (:60-70, :315-322): `begin()`, `n` times `++`. -/
def M.iter (m : M) (h : Nat) : Nat → Nat
  | 0 => m.next h
  | n + 1 => m.next (m.iter h n)

end Verif.Container.Dlist
