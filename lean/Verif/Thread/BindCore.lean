/-!
# Binding threads to processors

/repo/trpc/util/thread/thread_helper.cc:48-141, /repo/trpc/util/bind_core_manager.cc

* `Split` and `TryParse<uint32_t>` are modelled in `Verif.Text.Helper`; here a configuration is the result of splitting it at commas and each part at `-`, with the number or nothing for each piece.
* A failed check aborts. The loop over a range has 32-bit arithmetic and is run for a number of rounds (`fuel`); nothing means that it has not ended.
* `std::sort` is `List.mergeSort`; a set has as many elements as a list has if and only if they are distinct.
* The processors of the thread (`TryGetCurrentThreadAffinity`, :48-62) are a parameter, nothing if the call fails. One manager is modelled, the other (`User...`) is the same.
-/

namespace Verif.Thread.BindCore

inductive Res (α : Type) where
  | abort
  /-- not ended -/
  | runs
  | ok (a : α)
deriving DecidableEq

/-- The loop over a range (thread_helper.cc:120-122): what it adds, from `i` -/
def loop (stop : Nat) : Nat → Nat → Option (List Nat)
  | 0, _ => none
  | fuel + 1, i => if i ≤ stop then (loop stop fuel ((i + 1) % 2 ^ 32)).map (i :: ·) else some []

/-- One part (:110-123) -/
def part (fuel : Nat) : List (Option Nat) → Res (List Nat)
  | [some id] => .ok [id]
  | [some a, some b] =>
    if a ≤ b then
      match loop b fuel a with
      | some l => .ok l
      | none => .runs
    else .abort
  | _ => .abort

/-- All parts (:109-124) -/
def parts (fuel : Nat) : List (List (Option Nat)) → Res (List Nat)
  | [] => .ok []
  | p :: ps =>
    match part fuel p with
    | .abort => .abort
    | .runs => .runs
    | .ok l =>
      match parts fuel ps with
      | .ok k => .ok (l ++ k)
      | r => r

/-- `std::includes`: whether the second sorted range is part of the first one -/
def includes : List Nat → List Nat → Bool
  | _, [] => true
  | [], _ :: _ => false
  | a :: l, b :: k => if b < a then false else if a < b then includes l (b :: k) else includes l k

/-- `CheckBindCoreGroupEffective` (:88-99): the sorted list and the result -/
def effective (cpus : Option (List Nat)) (g : List Nat) : List Nat × Bool :=
  match cpus with
  | none => (g, false)
  | some c =>
    if g.isEmpty then (g, false)
    else
      let g := g.mergeSort (fun a b => decide (a ≤ b))
      let c := c.mergeSort (fun a b => decide (a ≤ b))
      (g, includes c g)

def distinct : List Nat → Bool
  | [] => true
  | x :: l => !l.contains x && distinct l

/-- `ParseBindCoreConfig` (:105-141): the result and the list that is an argument -/
def parse (fuel : Nat) (cpus : Option (List Nat)) (conf : List (List (Option Nat))) (out : List Nat) : Res (Bool × List Nat) :=
  match parts fuel conf with
  | .abort => .abort
  | .runs => .runs
  | .ok g =>
    if !distinct g then .ok (false, out)
    else
      let (g, r) := effective cpus g
      if r then .ok (true, out ++ g) else .ok (false, out)

/-- `bind_core_group_` and `s_cpu_seq_` -/
structure Mgr where
  group : List Nat
  seq : Nat
deriving DecidableEq

/-- `ParseBindCoreGroup` (bind_core_manager.cc:30-43); `empty`: the configuration is an empty string -/
def Mgr.parse (m : Mgr) (fuel : Nat) (cpus : Option (List Nat)) (empty : Bool) (conf : List (List (Option Nat))) : Res (Bool × Mgr) :=
  if empty then .ok (false, { m with group := [] })
  else
    match BindCore.parse fuel cpus conf [] with
    | .abort => .abort
    | .runs => .runs
    | .ok (false, _) => .ok (false, { m with group := [] })
    | .ok (true, g) => .ok (true, ⟨g, 0⟩)

/-- A 64-bit number as `int` and then as `size_t` -/
def narrow (n : Nat) : Nat := if n % 2 ^ 32 < 2 ^ 31 then n % 2 ^ 32 else 2 ^ 64 - 2 ^ 32 + n % 2 ^ 32

/-- `BindCoreImpl` (:60-81): the result (nothing is -1) and the state after it. `set`: setting the affinity works for this processor. -/
def Mgr.bind (m : Mgr) (cpus : Option (List Nat)) (set : Nat → Bool) : Option Nat × Mgr :=
  let ids := if m.group.isEmpty then cpus.getD [] else m.group
  if ids.isEmpty then (none, m)
  else
    let cpu := narrow m.seq % ids.length
    let m := { m with seq := (m.seq + 1) % 2 ^ 64 }
    match ids[cpu]? with
    | none => (none, m)
    | some c => if set c then (some c, m) else (none, m)

end Verif.Thread.BindCore
