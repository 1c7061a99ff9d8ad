/-!
# The number and the sum of an IntRecorder in 64 bits

/repo/trpc/tvar/basic_ops/recorder.h:76-181 (`CompressedIntAvgTraits`)

The number of values is in the upper 20 bits, the sum in the lower 44 as a signed number. `uint64_t` is `UInt64`, and an `int64_t` is given by its bits. One round of the loop of `Update` is `next`; its compare-and-swap is the step `upd` of `Tvar.Cell`, and what `CommitAndClear` merges is `merge`.
-/

namespace Verif.Tvar.Packed

/-- The value of an `int64_t`. -/
def i64 (x : UInt64) : Int := if x.toNat < 2 ^ 63 then x.toNat else (x.toNat : Int) - 2 ^ 64

/-- The bits of a number. -/
def bits (v : Int) : UInt64 := UInt64.ofNat (v % 2 ^ 64).toNat

/-- `MAX_SUM_PER_THREAD` (:91) -/
def mask : UInt64 := ((1 : UInt64) <<< (44 : UInt64) - (1 : UInt64))

/-- `GetSum`, `GetNum`, `Compress` (:96-106) -/
def getSum (n : UInt64) : UInt64 := n &&& mask

def getNum (n : UInt64) : UInt64 := n >>> (44 : UInt64)

def compress (num sum : UInt64) : UInt64 := (num <<< (44 : UInt64)) ||| (sum &&& mask)

/-- `WillOverflow` (:108-118) -/
def willOverflow (lhs rhs : Int) : Bool :=
  (decide (lhs > 0) && decide (rhs > 0) && decide (lhs + rhs > 2 ^ 43 - 1)) || (decide (lhs < 0) && decide (rhs < 0) && decide (lhs + rhs < -(2 ^ 43 - 1) - 1))

/-- `ExtendSignBit` (:123-126) -/
def extend (sum : UInt64) : UInt64 := ((((1 : UInt64) <<< (21 : UInt64) - (1 : UInt64))) * (((1 : UInt64) <<< (43 : UInt64)) &&& sum)) ||| sum

/-- `Update` cuts the argument to an `int` (:143-153). -/
def clamp (v : Int) : Int := if v > 2 ^ 31 - 1 then 2 ^ 31 - 1 else if v < -2 ^ 31 then -2 ^ 31 else v

/-- One round of the loop of `Update` (:159-174): what the buffer was or was cleared to, and what is put in if it is still that. `true`: `CommitAndClear` is called before. -/
def next (n : UInt64) (v : Int) : Bool × UInt64 :=
  let num := getNum n
  let sum := getSum n
  if num + (1 : UInt64) > ((1 : UInt64) <<< (20 : UInt64) - (1 : UInt64)) ∨ willOverflow (i64 (extend sum)) v = true then (true, compress (0 + 1) (0 + (bits v &&& mask)))
  else (false, compress (num + 1) (sum + (bits v &&& mask)))

/-- `MergeIntBuffer` (:132-138): what is added to the number and the sum. -/
def merge (n : UInt64) : Int × Int := (((getNum n).toNat : Int), i64 (extend (getSum n)))

end Verif.Tvar.Packed
