import Verif.Common.Upd

/-!
# The intrusive singly linked list

/repo/trpc/util/internal/singly_linked_list.h

* Memory: `next` of all nodes, numbers; `next_`, `tail_` and `size_` of all lists, also numbers. A null pointer is nothing. `node_cast` and `object_cast` are not modelled.
* Using a null pointer is an outcome of its own (nothing). Checks of debug builds are left out.
-/

namespace Verif.Container.Slist

structure M where
  /-- `next` of a node -/
  nxt : Nat → Option Nat
  /-- `next_` of a list -/
  first : Nat → Option Nat
  /-- `tail_` of a list -/
  tail : Nat → Option Nat
  /-- `size_` of a list -/
  size : Nat → Nat

/-- All members start as null pointers and 0 (:30, :108-110). -/
def M.init : M := ⟨fun _ => none, fun _ => none, fun _ => none, fun _ => 0⟩

/-- :179-188 -/
def M.popFront (m : M) (h : Nat) : Option (M × Nat) :=
  match m.first h with
  | none => none
  | some rc =>
    let m := { m with first := upd m.first h (m.nxt rc) }
    let m := { m with size := upd m.size h (m.size h - 1) }
    if m.size h = 0 then some ({ m with tail := upd m.tail h none }, rc) else some (m, rc)

/-- :191-198 -/
def M.pushFront (m : M) (h x : Nat) : M :=
  let m := { m with nxt := upd m.nxt x (m.first h) }
  let m := { m with first := upd m.first h (some x) }
  let old := m.size h
  let m := { m with size := upd m.size h (old + 1) }
  if old = 0 then { m with tail := upd m.tail h (m.first h) } else m

/-- :201-209 -/
def M.pushBack (m : M) (h x : Nat) : Option M :=
  let m := { m with nxt := upd m.nxt x none }
  let old := m.size h
  let m := { m with size := upd m.size h (old + 1) }
  if old ≠ 0 then
    match m.tail h with
    | none => none
    | some t =>
      let m := { m with nxt := upd m.nxt t (some x) }
      some { m with tail := upd m.tail h (some x) }
  else
    let m := { m with tail := upd m.tail h (some x) }
    some { m with first := upd m.first h (some x) }

/-- :228-232; also the move operations (:266-275) -/
def M.swap (m : M) (h g : Nat) : M :=
  let m := { m with first := upd (upd m.first h (m.first g)) g (m.first h) }
  let m := { m with tail := upd (upd m.tail h (m.tail g)) g (m.tail h) }
  { m with size := upd (upd m.size h (m.size g)) g (m.size h) }

/-- :212-225 -/
def M.splice (m : M) (h g : Nat) : Option M :=
  if m.size h = 0 then some (m.swap h g)
  else if m.size g = 0 then some m
  else
    match m.tail h with
    | none => none
    | some t =>
      let m := { m with nxt := upd m.nxt t (m.first g) }
      let m := { m with tail := upd m.tail h (m.tail g) }
      let m := { m with size := upd m.size h (m.size h + m.size g) }
      let m := { m with first := upd m.first g none, tail := upd m.tail g none }
      some { m with size := upd m.size g 0 }

/-- The node an iterator is at after `n` steps from `begin` (:113-131, :246-253); nothing is `end`. -/
def M.iter (m : M) (h : Nat) : Nat → Option Nat
  | 0 => m.first h
  | n + 1 => (m.iter h n).bind m.nxt

end Verif.Container.Slist
