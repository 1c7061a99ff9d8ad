/-!
# The sharded call map of the fiber client

`trpc/transport/client/fiber/common/sharded_call_map.h` and `trpc/util/algorithm/hash.cc`.

`Insert` and `Remove` are atomic (they hold the lock of the shard).  `ForEach` locks one shard after the other, so other
threads act between two shards.  An `unordered_map` is an association list in the order in which the iteration visits
it; the order is not part of any property.
-/

namespace Verif.Transport.CallMap

/-- `GetHashValue`, hash.cc:20-25. -/
def hashValue (x : UInt64) : UInt64 :=
  let x := ((x >>> 16) ^^^ x) * 0x45d9f3b
  let x := ((x >>> 16) ^^^ x) * 0x45d9f3b
  (x >>> 16) ^^^ x

/-- `GetHashIndex`, hash.cc:27-30. -/
def hashIndex (x mod : UInt64) : Nat := (hashValue x % mod).toNat

/-- `kCallMapShards`, sharded_call_map.h:29. -/
def shards : Nat := 128

variable {α : Type}

/-- The shards: `shards_[i].map`. -/
abbrev Map (α : Type) := List (List (UInt64 × α))

/-- The constructor, :35. -/
def new : Map α := List.replicate shards []

/-- `Insert`, :41-48; `none` is the failed assertion. -/
def insert (m : Map α) (k : UInt64) (v : α) : Option (Map α) :=
  let i := hashIndex k 128
  let sh := m[i]?.getD []
  if (sh.lookup k).isSome then none else some (m.set i ((k, v) :: sh))

/-- `Remove`, :55-65. -/
def remove (m : Map α) (k : UInt64) : Option α × Map α :=
  let i := hashIndex k 128
  let sh := m[i]?.getD []
  match sh.lookup k with
  | some v => (some v, m.set i (sh.filter fun e => e.1 != k))
  | none => (none, m)

/-- `Clear`, :82-89, one shard. -/
def clearShard (m : Map α) (i : Nat) : Map α := m.set i []

inductive Op (α : Type)
  | insert (k : UInt64) (v : α)
  | remove (k : UInt64)
  /-- One iteration of the loop of `Clear`. -/
  | clearShard (i : Nat)

inductive Res (α : Type)
  | inserted
  /-- The process aborts. -/
  | aborted
  | removed (v : Option α)
  | cleared
deriving DecidableEq

def step (m : Map α) : Op α → Res α × Map α
  | .insert k v => match insert m k v with
    | some m' => (.inserted, m')
    | none => (.aborted, m)
  | .remove k => let r := remove m k; (.removed r.1, r.2)
  | .clearShard i => (.cleared, clearShard m i)

def run (m : Map α) : List (Op α) → List (Res α) × Map α
  | [] => ([], m)
  | o :: os => let r := step m o; let rs := run r.2 os; (r.1 :: rs.1, rs.2)

/-- `ForEach`, :70-79, from shard `i` on; `between j` are the operations of other threads just before shard `j` is
locked.  Returns what is visited and the map afterwards. -/
def forEach (between : Nat → List (Op α)) : (n i : Nat) → Map α → List (UInt64 × α) × Map α
  | 0, _, m => ([], m)
  | n + 1, i, m =>
    let m' := (run m (between i)).2
    let r := forEach between n (i + 1) m'
    ((m'[i]?.getD []) ++ r.1, r.2)

end Verif.Transport.CallMap
