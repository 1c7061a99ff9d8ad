import Verif.Common.Upd

/-!
# Percentiles of latencies

/repo/trpc/tvar/common/percentile.{h,cc}, op_util.h (`GlobalValue`), write_mostly.h (`Reset`), compound_ops/latency_recorder.cc (`LatencyPercentile`)

Latencies are sorted into 32 intervals by their magnitude; each keeps a number of samples, picked at random. `FastRandLessThan(n)` is any number below `n`: every place that draws has an arbitrary function for its draws, and `r % n` stands for the result.
The arrays of samples are lists of the first `num_samples_` elements; the rest is never read before it is written. A null interval is an empty one. Counters have no bound (`num_added_` of an interval has 32 bits). The product `ratio * num_added_` in floating point is a quotient of natural numbers.
`Grp.hist` is a history variable: all values that were added.
-/

namespace Verif.Tvar.Percentile

/-- `Ones32` (percentile.cc:28-38), on 32 bits. -/
def ones32 (x0 : Nat) : Nat :=
  let x := (x0 + 2 ^ 32 - ((x0 >>> 1) &&& 0x55555555)) % 2 ^ 32
  let x := (((x >>> 2) &&& 0x33333333) + (x &&& 0x33333333)) % 2 ^ 32
  let x := (((x >>> 4) + x) % 2 ^ 32) &&& 0x0f0f0f0f
  let x := (x + (x >>> 8)) % 2 ^ 32
  let x := (x + (x >>> 16)) % 2 ^ 32
  x &&& 0x3f

/-- `x |= x >> 1` and so on (percentile.cc:44-48) -/
def smear (x : Nat) : Nat :=
  let x := x ||| (x >>> 1)
  let x := x ||| (x >>> 2)
  let x := x ||| (x >>> 4)
  let x := x ||| (x >>> 8)
  x ||| (x >>> 16)

/-- `Log2` (percentile.cc:40-50) for `x > 0`. `none`: `-y` overflows, which is undefined. `y |= -y; y >>= 31` makes -1 of any other number than 0. -/
def log2 (x : Nat) : Option Nat :=
  let y := x &&& (x - 1)
  if y = 2 ^ 31 then none else some (ones32 (smear x) - 1 + if y = 0 then 0 else 1)

/-- `GetIntervalIndex` (percentile.cc:52-61); the second case is never taken as `x` has 32 bits -/
def index (x : Nat) : Option Nat := if x ≤ 2 then some 0 else (log2 x).map (· - 1)

/-- `RoundOfExpectation` (percentile.h:46-51) -/
def roundExp (r a b : Nat) : Nat := if b = 0 then 0 else a / b + if r % b < a % b then 1 else 0

/-- The last element is moved to `j`, and there is one less. -/
def moveOut (l : List Nat) (j : Nat) : List Nat := (l.set j (l.getLastD 0)).dropLast

/-- percentile.h:93-95: `k` elements are dropped -/
def drop (r : Nat → Nat) : Nat → List Nat → List Nat
  | 0, l => l
  | k + 1, l => drop r k (moveOut l (r k % l.length))

/-- percentile.h:100-104: `k` elements are picked -/
def pick (r : Nat → Nat) : Nat → List Nat → List Nat
  | 0, _ => []
  | k + 1, l => l.getD (r k % l.length) 0 :: pick r k (moveOut l (r k % l.length))

/-- `PercentileInterval` (percentile.h:177-186) -/
structure Ivl where
  added : Nat
  sorted : Bool
  samples : List Nat

def Ivl.empty : Ivl := ⟨0, false, []⟩

/-- `PercentileInterval::Merge` (percentile.h:78-109). `none`: an assertion fails. -/
def imerge (cap : Nat) (r0 : Nat) (r1 r2 : Nat → Nat) (a b : Ivl) : Option Ivl :=
  if b.added = 0 then some a
  else if b.samples.length ≠ b.added then none
  else if a.added + b.added ≤ cap then
    if a.samples.length ≠ a.added then none else some ⟨a.added + b.added, a.sorted, a.samples ++ b.samples⟩
  else
    let rem := roundExp r0 (a.added * cap) (a.added + b.added)
    if a.samples.length < rem ∨ cap < rem ∨ b.samples.length < cap - rem then none
    else
      let out := drop r1 (a.samples.length - rem) a.samples ++ pick r2 (cap - rem) b.samples
      if out.length ≠ cap then none else some ⟨a.added + b.added, a.sorted, out⟩

/-- `Add32` (percentile.h:137-145) -/
def add32 (cap x : Nat) (a : Ivl) : Ivl := if cap ≤ a.samples.length then a else ⟨a.added + 1, a.sorted, a.samples ++ [x]⟩

/-- the loop of `MergeWithExpectation` (percentile.h:123-132) -/
def expLoop (cap : Nat) (r s : Nat → Nat) : Nat → List Nat → List Nat → List Nat
  | 0, acc, _ => acc
  | k + 1, acc, l =>
    let v := l.getD (r k % l.length) 0
    let acc' := if acc.length < cap then acc ++ [v] else acc.set (s k % acc.length) v
    expLoop cap r s k acc' (moveOut l (r k % l.length))

/-- `MergeWithExpectation` (percentile.h:112-133). `none`: the assertion fails. -/
def imergeExp (cap : Nat) (r s : Nat → Nat) (a b : Ivl) (n : Nat) : Option Ivl :=
  if b.samples.length < n then none
  else if a.samples.length + n ≤ cap ∧ n = b.samples.length then some ⟨a.added + b.added, a.sorted, a.samples ++ b.samples⟩
  else some ⟨a.added + b.added, a.sorted, expLoop cap r s n a.samples b.samples⟩

/-- `GetSampleAt` (percentile.h:61-75) -/
def sampleAt (a : Ivl) (k : Nat) : Nat × Ivl :=
  if a.samples = [] then (0, a)
  else
    let k' := if a.samples.length ≤ k then a.samples.length - 1 else k
    let l := if a.sorted then a.samples else a.samples.mergeSort (· ≤ ·)
    (l.getD k' 0, ⟨a.added, true, l⟩)

/-- `PercentileSamples` (percentile.h:363-366) -/
structure Grp where
  total : Nat
  ivl : Nat → Ivl
  /-- history -/
  hist : List Nat

def Grp.empty : Grp := ⟨0, fun _ => Ivl.empty, []⟩

/-- the draws of one merge of groups -/
structure Rnd where
  r0 : Nat → Nat
  r1 : Nat → Nat → Nat
  r2 : Nat → Nat → Nat

/-- `Merge` of one interval of a group (percentile.h:274-276) -/
def gone (cap : Nat) (r : Rnd) (a b : Grp) (i : Nat) : Option Ivl :=
  if (b.ivl i).samples = [] then some (a.ivl i) else imerge cap (r.r0 i) (r.r1 i) (r.r2 i) (a.ivl i) (b.ivl i)

/-- `PercentileSamples::Merge` (percentile.h:270-278) -/
def gmerge (cap : Nat) (r : Rnd) (a b : Grp) : Option Grp :=
  if (List.range 32).all (fun i => (gone cap r a b i).isSome) then
    some ⟨a.total + b.total, fun i => if i < 32 then (gone cap r a b i).getD (a.ivl i) else a.ivl i, a.hist ++ b.hist⟩
  else none

/-! ## Updates and resets -/

def localCap : Nat := 30
def globalCap : Nat := 254

/-- What a thread is doing in `AddLatency` (percentile.cc:67-83). -/
inductive W
  | idle
  /-- interval `i` is full: the own mutex is released, that of the variable is not taken yet (op_util.h:120-122) -/
  | full (x i : Nat)
  /-- the interval is merged and the mutex of the variable released, the own one is not taken again yet (op_util.h:126-128) -/
  | merged (x i : Nat)

structure S where
  /-- `exited_thread_combined_` -/
  exited : Grp
  loc : Nat → Grp
  wk : Nat → W
  /-- `Reset` in progress: it holds the mutex of the variable; what it has so far -/
  hold : Option Grp
  /-- results of `Reset`, the newest first -/
  outs : List Grp
  /-- an assertion has failed -/
  failed : Bool
  /-- history: all latencies for which `Update` has reached a buffer -/
  log : List Nat
  /-- history: what a `Reset` has found in the buffer of a thread that has merged it already -/
  dup : List Nat

def init : S := ⟨Grp.empty, fun _ => Grp.empty, fun _ => .idle, none, [], false, [], []⟩

/-- The value is put into interval `i` of the own buffer (percentile.cc:81-82). -/
def put (x i : Nat) (g : Grp) : Grp := ⟨g.total + 1, upd g.ivl i (add32 localCap x (g.ivl i)), g.hist ++ [x]⟩

/-- the interval is cleared (percentile.cc:77-78) -/
def wipe (i : Nat) (g : Grp) : Grp := ⟨g.total - (g.ivl i).added, upd g.ivl i Ivl.empty, g.hist.filter (fun y => index y ≠ some i)⟩

/-- the interval is merged into the group (percentile.cc:74-75) -/
def give (r : Rnd) (i : Nat) (l g : Grp) : Option Grp :=
  (imerge globalCap (r.r0 i) (r.r1 i) (r.r2 i) (g.ivl i) (l.ivl i)).map fun v =>
    ⟨g.total + (l.ivl i).added, upd g.ivl i v, g.hist ++ l.hist.filter (fun y => index y = some i)⟩

/-- values of a buffer that are in the variable already -/
def twice (w : W) (g : Grp) : List Nat :=
  match w with
  | .merged _ i => g.hist.filter (fun y => index y = some i)
  | _ => []

/-- `n` threads. -/
inductive Step (n : Nat) : S → S → Prop
  /-- `AddLatency`, the interval is not full (percentile.cc:70-72, 81-82) -/
  | add {s} (t x i) (ht : t < n) (hx : x < 2 ^ 32) (hw : s.wk t = .idle) (hi : index x = some i) (hf : ((s.loc t).ivl i).samples.length ≠ localCap) :
    Step n s { s with loc := upd s.loc t (put x i (s.loc t)), log := x :: s.log }
  /-- `AddLatency`, it is full (percentile.cc:72-73) -/
  | full {s} (t x i) (ht : t < n) (hx : x < 2 ^ 32) (hw : s.wk t = .idle) (hi : index x = some i) (hf : ((s.loc t).ivl i).samples.length = localCap) :
    Step n s { s with wk := upd s.wk t (.full x i) }
  /-- it is merged (percentile.cc:73-76) -/
  | merge {s} (t x i g r) (ht : t < n) (hw : s.wk t = .full x i) (hh : s.hold = none) (hg : give r i (s.loc t) s.exited = some g) :
    Step n s { s with exited := g, wk := upd s.wk t (.merged x i) }
  | mergeFail {s} (t x i r) (ht : t < n) (hw : s.wk t = .full x i) (hh : s.hold = none) (hg : give r i (s.loc t) s.exited = none) :
    Step n s { s with failed := true }
  /-- it is cleared, and the value put in (percentile.cc:76-82) -/
  | finish {s} (t x i) (ht : t < n) (hw : s.wk t = .merged x i) :
    Step n s { s with loc := upd s.loc t (put x i (wipe i (s.loc t))), wk := upd s.wk t .idle, log := x :: s.log }
  /-- a thread exits (write_mostly.h:138-141); another one may get its number -/
  | exit {s} (t g r) (ht : t < n) (hw : s.wk t = .idle) (hh : s.hold = none) (hg : gmerge globalCap r s.exited (s.loc t) = some g) :
    Step n s { s with exited := g, loc := upd s.loc t Grp.empty }
  | exitFail {s} (t r) (ht : t < n) (hw : s.wk t = .idle) (hh : s.hold = none) (hg : gmerge globalCap r s.exited (s.loc t) = none) :
    Step n s { s with failed := true }
  /-- `Reset` (write_mostly.h:100-104) -/
  | start {s} (hh : s.hold = none) : Step n s { s with hold := some s.exited, exited := Grp.empty }
  /-- the buffer of one thread (write_mostly.h:105-108), in any order -/
  | visit {s} (t a g r) (ht : t < n) (hh : s.hold = some a) (hg : gmerge globalCap r a (s.loc t) = some g) :
    Step n s { s with hold := some g, loc := upd s.loc t Grp.empty, dup := twice (s.wk t) (s.loc t) ++ s.dup }
  | visitFail {s} (t a r) (ht : t < n) (hh : s.hold = some a) (hg : gmerge globalCap r a (s.loc t) = none) :
    Step n s { s with failed := true }
  /-- the result -/
  | done {s} (a) (hh : s.hold = some a) : Step n s { s with hold := none, outs := a :: s.outs }

inductive Reach (n : Nat) : S → Prop
  | init : Reach n init
  | step {s s'} : Reach n s → Step n s s' → Reach n s'

/-! ## Percentiles of a window -/

def combCap : Nat := 1022

/-- draws of one bucket of the window: of the rounding, and of the loop -/
structure RndC where
  r0 : Nat → Nat
  r : Nat → Nat → Nat
  s : Nat → Nat → Nat

/-- `CombineOf`, one interval (percentile.h:321-335); `tot` is the number that was added to it in all buckets -/
def combIvl (i tot : Nat) : List (RndC × Grp) → Ivl → Option Ivl
  | [], acc => some acc
  | (r, b) :: bs, acc =>
    if (b.ivl i).samples = [] then combIvl i tot bs acc
    else
      let n := if tot ≤ combCap then (b.ivl i).samples.length
        else min (roundExp (r.r0 i) ((b.ivl i).added * combCap) tot) (b.ivl i).samples.length
      match imergeExp combCap (r.r i) (r.s i) acc (b.ivl i) n with
      | none => none
      | some acc' => combIvl i tot bs acc'

def total (i : Nat) (bs : List (RndC × Grp)) : Nat := (bs.map fun b => (b.2.ivl i).added).sum

/-- one interval of `CombineOf` into a new group (percentile.h:297-336) -/
def combOne (i : Nat) (bs : List (RndC × Grp)) : Option Ivl :=
  if total i bs = 0 then some Ivl.empty else combIvl i (total i bs) bs Ivl.empty

/-- `CombineOf` into a new group (percentile.h:281-337) -/
def combine (bs : List (RndC × Grp)) : Option Grp :=
  if (List.range 32).all (fun i => (combOne i bs).isSome) then
    some ⟨(bs.map fun b => b.2.total).sum, fun i => (combOne i bs).getD Ivl.empty, bs.flatMap fun b => b.2.hist⟩
  else none

/-- the loop of `GetNumber` over the intervals (percentile.h:253-264). `none`: the assertion at the end fails, or a division by zero. -/
def find (ivl : Nat → Ivl) (i : Nat) : Nat → Nat → Option Nat
  | 0, _ => none
  | k + 1, n =>
    if n ≤ (ivl i).added then
      if (ivl i).added = 0 then none
      else
        let sn := n * (ivl i).samples.length / (ivl i).added
        some (sampleAt (ivl i) (sn - 1)).1
    else find ivl (i + 1) k (n - (ivl i).added)

/-- `ceil(ratio * num_added_)`, at most `num_added_` (percentile.h:247-252) -/
def rank (p q tot : Nat) : Nat := min ((p * tot + q - 1) / q) tot

/-- `GetNumber` (percentile.h:246-267) for the ratio `p / q` -/
def getNumber (g : Grp) (p q : Nat) : Option Nat :=
  if rank p q g.total = 0 then some 0 else find g.ivl 0 32 (rank p q g.total)

/-- `LatencyPercentile` (latency_recorder.cc:134-140) -/
def latencyPercentile (bs : List (RndC × Grp)) (p q : Nat) : Option Nat :=
  match combine bs with
  | none => none
  | some g => getNumber g p q

end Verif.Tvar.Percentile
