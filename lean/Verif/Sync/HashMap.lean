import Verif.Common.Upd

/-!
# The concurrent hash map

/repo/trpc/util/concurrency/detail/lightly_concurrent_hashmap_impl.h

Any number of threads, with interleavings of single accesses to memory that others may access. Keys, values and nodes are numbers; a node is never used for another one (`nn` is the next), so that a use after free is seen as such (`bad`).

* `bi`, `mi`: the bucket and the mutex of a key; `mb`: the mutex that `Clear` takes for a bucket; `nb`: the number of buckets.
* `gc`: retired nodes may be destroyed. `cl`: `Clear` is called.
* `m` is what the map should be, `ex` what an operation should return, both changed at the one access at which the operation takes effect; `seen` are the answers to a `Get` that were right at some moment since it was called.
* A writer that has the mutex: the loads that only find what no other thread changes meanwhile are together with the access that follows. A node is filled in when it is linked.
* The hash is not compared: keys that are equal have equal ones.
* A retired node is destroyed if no `Hazptr` points to it (C136 has the details).
* Left out: `Reclaim`, which differs from `Clear` by the time of reclamation; `GetAllItems`.
-/

namespace Verif.Sync.HashMap

/-! ## Sizes -/

/-- `while (tmp <= n) tmp <<= 1` (`:375-378`) on 64 bits; `none`: for ever. After 64 rounds `tmp` is 0. -/
def double (n : Nat) : Nat → Nat → Option Nat
  | 0, _ => none
  | f + 1, tmp => if tmp ≤ n then double n f (tmp * 2 % 2 ^ 64) else some tmp

/-- `RoundUpPowerOf2` (`:372-383`) -/
def roundUp (n : Nat) : Option Nat := if n ≥ 2 ∧ n &&& (n - 1) = 0 then some n else double n 65 1

/-- `GetBucketIdx`, `GetMutexIdx` (`:364-370`) -/
def idx (h n : Nat) : Nat := h &&& (n - 1)

/-! ## Operations -/

inductive Op where
  | ins
  | era
  | gos
  | asg
deriving DecidableEq, Repr

abbrev Res := Bool × Option Nat

/-- What the operations do with the value of the key, and what they return (the comments at `:251-313`). -/
def spec : Op → Nat → Option Nat → Option Nat × Res
  | .ins, v, none => (some v, true, none)
  | .ins, _, some w => (some w, false, none)
  | .era, _, none => (none, false, none)
  | .era, _, some _ => (none, true, none)
  | .gos, v, none => (some v, false, none)
  | .gos, _, some w => (some w, true, some w)
  | .asg, v, none => (some v, true, none)
  | .asg, v, some _ => (some v, false, none)

/-- A thread. Writers: about to lock; in the loop, with `pos`, `node` and `headnode`; about to change `item_num_`; about to unlock; returned. `Get`: in `Keep` of the pointer at `src`, before the load, the exposure and the second load; has the node
kept; returned. `Clear`: about to lock for a bucket; has the mutex; about to unlock; about to set `item_num_`. A place for a pointer is a node (its `next`), or none (`head_`). -/
inductive T where
  | idle
  | want (o : Op) (k v : Nat)
  | hold (o : Op) (k v : Nat) (pos node hd : Option Nat)
  | count (k : Nat) (r : Res) (d : Int)
  | unl (k : Nat) (r : Res)
  | ret (r : Res)
  | get (k : Nat) (src : Option Nat)
  | got (k : Nat) (src p : Option Nat)
  | exposed (k : Nat) (src p : Option Nat)
  | cmp (k : Nat) (p : Option Nat)
  | gret (r : Option Nat)
  | clk (i : Nat)
  | clr (i : Nat)
  | clu (i : Nat)
  | clz
deriving DecidableEq, Repr

/-- The key that a `Get` looks for. -/
def T.rkey : T → Option Nat
  | .get k _ => some k
  | .got k _ _ => some k
  | .exposed k _ _ => some k
  | .cmp k _ => some k
  | _ => none

structure S where
  hd : Nat → Option Nat
  nx : Nat → Option Nat
  ky : Nat → Nat
  vl : Nat → Nat
  nn : Nat
  rt : Nat → Bool
  fr : Nat → Bool
  lk : Nat → Option Nat
  hz : Nat → Option Nat
  th : Nat → T
  cnt : Int
  m : Nat → Option Nat
  seen : Nat → List (Option Nat)
  ex : Nat → Res
  bad : Bool

def S.init : S := ⟨fun _ => none, fun _ => none, fun _ => 0, fun _ => 0, 0, fun _ => false, fun _ => false, fun _ => none, fun _ => none, fun _ => .idle, 0, fun _ => none, fun _ => [], fun _ => (false, none), false⟩

/-- `Size` -/
def S.size (s : S) : Nat := (s.cnt % 2 ^ 64).toNat

def S.t (s : S) (i : Nat) (x : T) : S := { s with th := upd s.th i x }

/-- The pointer at a place, for a bucket. -/
def S.loc (s : S) (b : Nat) : Option Nat → Option Nat
  | none => s.hd b
  | some x => s.nx x

def S.setLoc (s : S) (b : Nat) (p : Option Nat) (v : Option Nat) : S :=
  match p with
  | none => { s with hd := upd s.hd b v }
  | some x => { s with nx := upd s.nx x v }

def S.setLk (s : S) (i : Nat) (o : Option Nat) : S := { s with lk := upd s.lk i o }

def S.setHz (s : S) (i : Nat) (p : Option Nat) : S := { s with hz := upd s.hz i p }

def S.add (s : S) (d : Int) : S := { s with cnt := s.cnt + d }

def S.retire (s : S) (n : Nat) : S := { s with rt := upd s.rt n true }

/-- A new node. -/
def S.node (s : S) (k v : Nat) (n : Option Nat) : S := { s with ky := upd s.ky s.nn k, vl := upd s.vl s.nn v, nx := upd s.nx s.nn n, nn := s.nn + 1 }

def S.mark (s : S) (b : Bool) : S := { s with bad := s.bad || b }

def S.dead (s : S) : Option Nat → Bool
  | none => false
  | some n => s.fr n

def seenBy (x : T) (m : Nat → Option Nat) (l : List (Option Nat)) : List (Option Nat) :=
  match x.rkey with
  | none => l
  | some k => m k :: l

/-- The map is now `m`. -/
def S.become (s : S) (m : Nat → Option Nat) : S := { s with m := m, seen := fun t => seenBy (s.th t) m (s.seen t) }

/-- The operation takes effect. -/
def S.lin (s : S) (t : Nat) (o : Op) (k v : Nat) : S := { s.become (upd s.m k (spec o v (s.m k)).1) with ex := upd s.ex t (spec o v (s.m k)).2 }

def S.start (s : S) (t k : Nat) : S := { s with seen := upd s.seen t [s.m k] }

def S.wipe (s : S) (bi : Nat → Nat) (i : Nat) : S :=
  { s.become (fun k => if bi k = i then none else s.m k) with hd := upd s.hd i none, rt := fun n => s.rt n || (decide (n < s.nn) && decide (bi (s.ky n) = i)) }

/-- What an operation returns that has made a new node: `Insert` (`:89`), `GetOrInsert` (`:132`), `InsertOrAssign` (`:168`). -/
def newRes : Op → Res
  | .gos => (false, none)
  | _ => (true, none)

inductive Step (bi mi mb : Nat → Nat) (nb : Nat) (gc cl : Bool) : S → S → Prop
  | call {s : S} (t : Nat) (o : Op) (k v : Nat) (h : s.th t = .idle) : Step bi mi mb nb gc cl s (s.t t (.want o k v))
  /-- `:255-260` and the like, and the load of `head_` -/
  | lock {s : S} (t : Nat) (o : Op) (k v : Nat) (h : s.th t = .want o k v) (hl : s.lk (mi k) = none) :
      Step bi mi mb nb gc cl s ((s.setLk (mi k) (some t)).t t (.hold o k v none (s.hd (bi k)) (s.hd (bi k))))
  /-- another key: `:78`, `:105-106`, `:121`, `:156-157` -/
  | next {s : S} (t : Nat) (o : Op) (k v : Nat) (pos : Option Nat) (n : Nat) (hd : Option Nat) (h : s.th t = .hold o k v pos (some n) hd) (hk : s.ky n ≠ k) :
      Step bi mi mb nb gc cl s ((s.mark (s.fr n)).t t (.hold o k v (some n) (s.nx n) hd))
  /-- `Insert` and `GetOrInsert` find the key: `:74-75`, `:116-118` -/
  | has {s : S} (t k v : Nat) (pos : Option Nat) (n : Nat) (hd : Option Nat) (h : s.th t = .hold .ins k v pos (some n) hd) (hk : s.ky n = k) :
      Step bi mi mb nb gc cl s (((s.lin t .ins k v).mark (s.fr n)).t t (.unl k (false, none)))
  | hasV {s : S} (t k v : Nat) (pos : Option Nat) (n : Nat) (hd : Option Nat) (h : s.th t = .hold .gos k v pos (some n) hd) (hk : s.ky n = k) :
      Step bi mi mb nb gc cl s (((s.lin t .gos k v).mark (s.fr n)).t t (.unl k (true, some (s.vl n))))
  /-- `Erase` finds the key: `:97-102` -/
  | erase {s : S} (t k v : Nat) (pos : Option Nat) (n : Nat) (hd : Option Nat) (h : s.th t = .hold .era k v pos (some n) hd) (hk : s.ky n = k) :
      Step bi mi mb nb gc cl s ((((((s.lin t .era k v).setLoc (bi k) pos (s.nx n)).retire n).mark (s.fr n))).t t (.count k (true, none) (-1)))
  /-- `InsertOrAssign` finds the key: `:141-153` -/
  | assign {s : S} (t k v : Nat) (pos : Option Nat) (n : Nat) (hd : Option Nat) (h : s.th t = .hold .asg k v pos (some n) hd) (hk : s.ky n = k) :
      Step bi mi mb nb gc cl s ((((((s.lin t .asg k v).node k v (s.nx n)).setLoc (bi k) pos (some s.nn)).retire n).mark (s.fr n)).t t (.unl k (false, none)))
  /-- `Erase` does not find it: `:109` -/
  | absent {s : S} (t k v : Nat) (pos hd : Option Nat) (h : s.th t = .hold .era k v pos none hd) :
      Step bi mi mb nb gc cl s ((s.lin t .era k v).t t (.unl k (false, none)))
  /-- the others do not find it: `:81-89`, `:124-132`, `:160-168` -/
  | link {s : S} (t : Nat) (o : Op) (k v : Nat) (pos hd : Option Nat) (h : s.th t = .hold o k v pos none hd) (ho : o ≠ .era) :
      Step bi mi mb nb gc cl s ((((s.lin t o k v).node k v hd).setLoc (bi k) none (some s.nn)).t t (.count k (newRes o) 1))
  /-- `:263`, `:281`, `:302`, `:322` -/
  | count {s : S} (t k : Nat) (r : Res) (d : Int) (h : s.th t = .count k r d) : Step bi mi mb nb gc cl s ((s.add d).t t (.unl k r))
  | unlock {s : S} (t k : Nat) (r : Res) (h : s.th t = .unl k r) : Step bi mi mb nb gc cl s ((s.setLk (mi k) none).t t (.ret r))
  | done {s : S} (t : Nat) (r : Res) (h : s.th t = .ret r) : Step bi mi mb nb gc cl s (s.t t .idle)
  /-- `Get` (`:55-68`) -/
  | get {s : S} (t k : Nat) (h : s.th t = .idle) : Step bi mi mb nb gc cl s ((s.start t k).t t (.get k none))
  /-- `Keep` (hazptr.h:68-89) -/
  | load {s : S} (t k : Nat) (src : Option Nat) (h : s.th t = .get k src) : Step bi mi mb nb gc cl s ((s.mark (s.dead src)).t t (.got k src (s.loc (bi k) src)))
  | expose {s : S} (t k : Nat) (src p : Option Nat) (h : s.th t = .got k src p) : Step bi mi mb nb gc cl s ((s.setHz t p).t t (.exposed k src p))
  | same {s : S} (t k : Nat) (src p : Option Nat) (h : s.th t = .exposed k src p) (hp : s.loc (bi k) src = p) :
      Step bi mi mb nb gc cl s ((s.mark (s.dead src)).t t (.cmp k p))
  | differs {s : S} (t k : Nat) (src p : Option Nat) (h : s.th t = .exposed k src p) (hp : s.loc (bi k) src ≠ p) :
      Step bi mi mb nb gc cl s (((s.setHz t none).mark (s.dead src)).t t (.got k src (s.loc (bi k) src)))
  | nil {s : S} (t k : Nat) (h : s.th t = .cmp k none) : Step bi mi mb nb gc cl s ((s.setHz t none).t t (.gret none))
  | hit {s : S} (t k n : Nat) (h : s.th t = .cmp k (some n)) (hk : s.ky n = k) : Step bi mi mb nb gc cl s (((s.setHz t none).mark (s.fr n)).t t (.gret (some (s.vl n))))
  | pass {s : S} (t k n : Nat) (h : s.th t = .cmp k (some n)) (hk : s.ky n ≠ k) : Step bi mi mb nb gc cl s ((s.mark (s.fr n)).t t (.get k (some n)))
  | gdone {s : S} (t : Nat) (r : Option Nat) (h : s.th t = .gret r) : Step bi mi mb nb gc cl s (s.t t .idle)
  /-- `Clear` (`:333-341`, `:171-185`) -/
  | clear {s : S} (t : Nat) (h : s.th t = .idle) (hc : cl = true) : Step bi mi mb nb gc cl s (s.t t (.clk 0))
  | clock {s : S} (t i : Nat) (h : s.th t = .clk i) (hi : i < nb) (hl : s.lk (mb i) = none) : Step bi mi mb nb gc cl s ((s.setLk (mb i) (some t)).t t (.clr i))
  | wipe {s : S} (t i : Nat) (h : s.th t = .clr i) : Step bi mi mb nb gc cl s ((s.wipe bi i).t t (.clu i))
  | cunlock {s : S} (t i : Nat) (h : s.th t = .clu i) : Step bi mi mb nb gc cl s ((s.setLk (mb i) none).t t (.clk (i + 1)))
  | cend {s : S} (t i : Nat) (h : s.th t = .clk i) (hi : nb ≤ i) : Step bi mi mb nb gc cl s (s.t t .clz)
  | zero {s : S} (t : Nat) (h : s.th t = .clz) : Step bi mi mb nb gc cl s ((s.add (-s.cnt)).t t .idle)
  /-- a retired node is destroyed -/
  | reclaim {s : S} (n : Nat) (hg : gc = true) (hr : s.rt n = true) (hz : ∀ t, s.hz t ≠ some n) : Step bi mi mb nb gc cl s { s with fr := upd s.fr n true }

inductive Reach (bi mi mb : Nat → Nat) (nb : Nat) (gc cl : Bool) : S → Prop
  | init : Reach bi mi mb nb gc cl S.init
  | step {s t : S} (h : Reach bi mi mb nb gc cl s) (hs : Step bi mi mb nb gc cl s t) : Reach bi mi mb nb gc cl t

/-- The pointers from `o` on go through these nodes and end. -/
inductive Path (nx : Nat → Option Nat) : Option Nat → List Nat → Prop
  | nil : Path nx none []
  | cons {a : Nat} {l : List Nat} (h : Path nx (nx a) l) : Path nx (some a) (a :: l)

end Verif.Sync.HashMap
