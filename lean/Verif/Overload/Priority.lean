/-!
# Priorities of requests under overload

/repo/trpc/overload_control/common/: histogram.cc, priority_adapter.cc, request_priority.cc, window.cc.

* Doubles are rational numbers without rounding; `int32_t` and `atomic_int` counters do not wrap around, except that the check of `Histogram::Sample` is in the model.
* A histogram is the list of its counters. A read outside of it is `none`.
* `Random<double>(0, 1)`, the answers of the algorithm (`Priority`), the clock and the results of `try_lock` are inputs. What is done under the lock is one step; `ApplyRequest`, which takes no lock,
  is another.
-/

namespace Verif.Overload

/-- `std::round` of a number that is not negative. -/
def round (x : Rat) : Nat := (x + 1 / 2).floor.toNat

def absR (x : Rat) : Rat := if x < 0 then -x else x

/-- The loop upwards of `ShiftFuzzyPriority` (histogram.cc:66-79); the list is that of the counters from `priority` on. -/
def up : List Nat → Nat → Nat → Option Rat
  | [], _, _ => none
  | c :: cs, p, delta =>
    if delta ≤ c then some (p + (delta : Rat) / c)
    else if cs.isEmpty then some ((p : Rat) + 1)
    else up cs (p + 1) (delta - c)

/-- The loop downwards (:80-95). -/
def down (cs : List Nat) : Nat → Nat → Option Rat
  | 0, delta =>
    match cs[0]? with
    | none => none
    | some c => if delta ≤ c then some (((c - delta : Nat) : Rat) / c) else some 0
  | p + 1, delta =>
    match cs[p + 1]? with
    | none => none
    | some c => if delta ≤ c then some ((p : Rat) + 1 + ((c - delta : Nat) : Rat) / c) else down cs p (delta - c)

/-- `ShiftFuzzyPriority` (:43-98). -/
def shift (cs : List Nat) (x s : Rat) : Option Rat :=
  if s = 0 then some x
  else
    let p0 := x.floor.toNat
    let p := if cs.length ≤ p0 then cs.length - 1 else p0
    let f : Rat := if cs.length ≤ p0 then 1 else x - p0
    let d0 := round (cs.sum * absR s)
    let d := if d0 = 0 then 1 else d0
    match cs[p]? with
    | none => none
    | some c => if 0 < s then up (cs.drop p) p (d + round (f * c)) else down cs p (d + round ((1 - f) * c))

structure Cfg where
  /-- `max_priority` -/
  max : Nat
  lstep : Rat
  ustep : Rat
  ratio : Rat
  /-- `histogram_num` -/
  num : Nat

inductive Result where
  | ok | lower | overload
deriving DecidableEq

structure A where
  lower : Rat
  upper : Rat
  hs : List (List Nat)
  idx : Nat
  must : Nat
  may : Nat
  ok : Nat
  no : Nat
  /-- the check of `Sample` has failed -/
  crash : Bool

/-- The constructor (priority_adapter.cc:37-52). -/
def A.init (c : Cfg) : A := ⟨0, c.max + 1, List.replicate c.num (List.replicate (c.max + 1) 1), 0, 0, 0, 0, 0, false⟩

/-- `OnRequest` (:55): the priority is brought into range. -/
def clamp (c : Cfg) (p : Int) : Nat := (max 0 (min (c.max : Int) p)).toNat

/-- `ApplyRequest` (:160-190): `u` is the random number, `ans` the answer of the algorithm. -/
def A.apply (a : A) (p : Nat) (u : Rat) (ans : Bool) : A × Result :=
  if p + u < a.lower then ({ a with no := a.no + 1 }, .lower)
  else if a.upper < p + u then ({ a with must := a.must + if ans then 1 else 2 }, if ans then .ok else .overload)
  else ({ a with may := a.may + 1, ok := a.ok + if ans then 1 else 0 }, if ans then .ok else .overload)

def bump : List Nat → Nat → List Nat
  | [], _ => []
  | c :: cs, 0 => (c + 1) :: cs
  | c :: cs, p + 1 => c :: bump cs p

/-- `Sample` (:192-196, histogram.cc:31-41). -/
def A.sample (a : A) (p : Nat) : A :=
  if a.hs.any fun h => h.sum = 2 ^ 31 - 1 || h.length ≤ p then { a with crash := true } else { a with hs := a.hs.map fun h => bump h p }

/-- `OnWindowExpires` (:91-158). -/
def A.expire (a : A) (c : Cfg) : Option A :=
  match a.hs[a.idx]? with
  | none => none
  | some h =>
    if h.sum < c.max * 3 then some a
    else
      match shift h a.upper (if a.must = 0 || c.ratio < (a.ok : Rat) / a.must then -c.ustep else c.ustep),
        shift h a.lower (if a.may = 0 || (1 : Rat) / 2 < (a.ok : Rat) / a.may then -c.lstep else c.lstep) with
      | some u, some l =>
        some { a with lower := if u < l then u else l, upper := u, must := 0, may := 0, ok := 0, no := 0, hs := a.hs.set a.idx (List.replicate h.length 1), idx := (a.idx + 1) % a.hs.length }
      | _, _ => none

inductive Step (c : Cfg) : A → A → Prop
  | apply {a : A} (p : Int) (u : Rat) (ans : Bool) : Step c a (a.apply (clamp c p) u ans).1
  | sample {a : A} (p : Int) : Step c a (a.sample (clamp c p))
  | expire {a a' : A} (h : a.expire c = some a') : Step c a a'

inductive Reach (c : Cfg) : A → Prop
  | init : Reach c (.init c)
  | step {a a' : A} (h : Reach c a) (hs : Step c a a') : Reach c a'

/-! ## Priorities in requests -/

/-- `DefaultGetServerPriority`, `DefaultGetClientPriority` (request_priority.cc:34-52): the value of "trpc-priority" in the transparent data. -/
def getPriority (v : Option (List Nat)) : Nat :=
  match v with
  | some [b] => b
  | _ => 0

/-- `DefaultSetServerPriority`, `DefaultSetClientPriority` (:54-66). -/
def setPriority (p : Int) : Option (List Nat) := some [((max (min p 0) 255) % 256).toNat]

end Verif.Overload
