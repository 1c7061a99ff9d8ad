import Verif.Common.Upd

/-!
# The memory pool of the fixed-size allocator

/repo/trpc/util/container/fixed_arena_allocator.h:34-122

* Addresses are numbers. Of each block only the first word is modelled (`word`), where free blocks have the index of the next one. `aligned_alloc` returns an address, and sizes fit in 32 bits.
* `assert` does nothing, as in release builds. A write outside of the memory of the pool is an outcome of its own.
-/

namespace Verif.Container.FixedPool

structure P where
  /-- `mem_ptr_` -/
  base : Nat
  /-- `item_mem_size_` -/
  sz : Nat
  /-- `item_num_` -/
  n : Nat
  /-- `avail_head_index_` -/
  head : Nat
  /-- `avail_num_` -/
  avail : Nat
  word : Nat → Nat

/-- The size of a block (:41-43) -/
def blockSize (size : Nat) : Nat :=
  let s := max size 8
  if s % 8 > 0 then s - s % 8 + 8 else s

/-- Constructor (:40-57) -/
def P.init (base n size : Nat) : P := ⟨base, blockSize size, n, 0, n, fun i => i + 1⟩

/-- `Allocate` (:66-82) -/
def P.alloc (p : P) : Option (Nat × P) :=
  if p.avail = 0 then none
  else
    let i := p.head
    let p := { p with avail := p.avail - 1 }
    let p := { p with head := p.word i }
    let p := { p with word := upd p.word i 0 }
    some (p.base + i * p.sz, p)

inductive Out where
  /-- returns false -/
  | no
  /-- writes outside of the pool -/
  | outside
  | yes (p : P)

/-- `Deallocate` (:85-106) -/
def P.free (p : P) (a : Nat) : Out :=
  if a < p.base ∨ a > p.base + p.sz * p.n then .no
  else if p.avail ≥ p.n then .no
  else
    let i := (a - p.base) / p.sz
    if i ≥ p.n then .outside
    else
      let p := { p with word := upd p.word i p.head }
      let p := { p with head := i }
      .yes { p with avail := p.avail + 1 }

/-- What the owner of a block does: its first word becomes anything. -/
def P.write (p : P) (a v : Nat) : P := { p with word := upd p.word ((a - p.base) / p.sz) v }

/-- Programs that release and write only what they hold: the addresses they hold and the state -/
inductive Run (base n size : Nat) : List Nat → P → Prop
  | init : Run base n size [] (P.init base n size)
  | alloc {u p a p'} : Run base n size u p → p.alloc = some (a, p') → Run base n size (a :: u) p'
  | free {u p a p'} : Run base n size u p → a ∈ u → p.free a = .yes p' → Run base n size (u.erase a) p'
  | write {u p a} (v) : Run base n size u p → a ∈ u → Run base n size u (p.write a v)

end Verif.Container.FixedPool
