/-!
# Allocation of indices

/repo/trpc/util/internal/index_alloc.h, /repo/trpc/util/internal/index_alloc.cc

* `Next` and `Free` hold a lock for all they do, so a call is one step. The size of `std::size_t` is not modelled.
* The instances of `For<Tag>()` are independent; this is one of them.
-/

namespace Verif.Container.IndexAlloc

/-- index_alloc.h:50-51; the end of the vector is the front of the list -/
structure St where
  current : Nat
  recycled : List Nat

def St.init : St := ⟨0, []⟩

/-- index_alloc.cc:15-23 -/
def St.next (s : St) : Nat × St :=
  match s.recycled with
  | rc :: r => (rc, { s with recycled := r })
  | [] => (s.current, { s with current := s.current + 1 })

/-- index_alloc.cc:25-28 -/
def St.free (s : St) (i : Nat) : St := { s with recycled := i :: s.recycled }

/-- What callers do: a call of `Next` with its result, a call of `Free`. -/
inductive Ev where
  | next (r : Nat)
  | free (i : Nat)

/-- The state after the calls (the last one is first in the list), if the results are those of the code. -/
inductive Run : List Ev → St → Prop
  | init : Run [] St.init
  | next {t s} : Run t s → Run (.next s.next.1 :: t) s.next.2
  | free {t s} (i) : Run t s → Run (.free i :: t) (s.free i)

end Verif.Container.IndexAlloc
