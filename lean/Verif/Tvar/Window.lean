/-!
# Windows

/repo/trpc/tvar/common/sampler.h:105-245 (`ReducerSampler`), compound_ops/window.h (`WindowBase::GetSpan`)

A sampler of values of a type `T`. The queue is a list, the oldest sample first (`BoundedQueue` refines that, see `Container`). All functions run under the mutex of the sampler.
Left out: `PerSecond` (floating point numbers); `malloc` that fails.
-/

namespace Verif.Tvar.Window

/-- `Sample` -/
structure Sample (T : Type) where
  data : T
  time : UInt64
deriving DecidableEq

structure S (T : Type) where
  window : Nat
  cap : Nat
  q : List (Sample T)

variable {T : Type}

/-- `TakeSample` (:121-148): `x` is what `GetValue` or `Reset` of the variable has returned, and the time. -/
def S.take (s : S T) (x : Sample T) : S T :=
  let cap := if s.window + 1 > s.cap then max (s.cap * 2) (s.window + 1) else s.cap
  -- `ElimPush`
  { s with cap := cap, q := if s.q.length < cap then s.q ++ [x] else s.q.tail ++ [x] }

/-- The constructor (:113-116) -/
def S.init (x : Sample T) : S T := (⟨1, 0, []⟩ : S T).take x

/-- `SetWindowSize` (:187-200) -/
def S.setWindow (s : S T) (w : Int) : S T := if w ≤ 0 ∨ w > 3600 then s else { s with window := if w.toNat > s.window then w.toNat else s.window }

/-- `Bottom(i)` -/
def bottom (q : List (Sample T)) (i : Nat) : Option (Sample T) := if i < q.length then q[q.length - 1 - i]? else none

/-- The loop of `GetValue` without an inverse (:170-177), from `Bottom(i)` to the one before `oldest`, which is at `o` from the bottom. -/
def loop (op : T → T → T) (q : List (Sample T)) (o : Nat) : Nat → Nat → T → Option T
  | 0, _, _ => none
  | fuel + 1, i, r =>
    if i = o then some r
    else match bottom q i with
      | none => none
      | some e => loop op q o fuel (i + 1) (op r e.data)

/-- The result of `GetValue`. -/
inductive Res (T : Type)
  | no
  | yes (x : Sample T)
  /-- a failed assertion, or a null pointer -/
  | crash
deriving DecidableEq

/-- `GetValue` (:151-184); `inv` is the inverse, if there is one. Elements are compared by their place. -/
def S.get (s : S T) (op : T → T → T) (inv : Option (T → T → T)) (w : Int) : Res T :=
  if w ≤ 0 then .no
  else if s.q.length ≤ 1 then .no
  else
    let o := if w.toNat < s.q.length then w.toNat else s.q.length - 1
    match bottom s.q 0, bottom s.q o with
    | some latest, some oldest =>
      if o = 0 then .crash
      else match inv with
        | some f => .yes ⟨f latest.data oldest.data, latest.time - oldest.time⟩
        | none =>
          match loop op s.q o (s.q.length + 1) 1 latest.data with
          | some r => .yes ⟨r, latest.time - oldest.time⟩
          | none => .crash
    | _, _ => .crash

/-- What happens to a sampler. -/
inductive Op (T : Type)
  | take (x : Sample T)
  | set (w : Int)

def S.op (s : S T) : Op T → S T
  | .take x => s.take x
  | .set w => s.setWindow w

/-! ## Specification -/

/-- All samples that were taken. -/
def hist (x : Sample T) (ops : List (Op T)) : List (Sample T) := x :: ops.filterMap (fun o => match o with | .take y => some y | .set _ => none)

end Verif.Tvar.Window
