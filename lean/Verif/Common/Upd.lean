/-!
Pointwise update of a function, used for arrays indexed by numbers and for per-thread local states.
-/

namespace Verif

/-- `f` with the value at `i` replaced by `a`. -/
def upd {α : Type} (f : Nat → α) (i : Nat) (a : α) : Nat → α := fun j => if j = i then a else f j

@[simp] theorem upd_same {α : Type} (f : Nat → α) (i : Nat) (a : α) : upd f i a i = a := by simp [upd]

theorem upd_ne {α : Type} (f : Nat → α) {i j : Nat} (a : α) (h : j ≠ i) : upd f i a j = f j := by
  simp [upd, h]

theorem upd_apply {α : Type} (f : Nat → α) (i j : Nat) (a : α) :
    upd f i a j = if j = i then a else f j := rfl

end Verif
