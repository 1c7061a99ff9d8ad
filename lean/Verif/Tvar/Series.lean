import Verif.Common.Upd

/-!
# Series of the last minute, hour, day and month

/repo/trpc/tvar/common/series.h:88-247

Values of a type `T`; `op` is the operation, `div` what `InplaceDivide` does, `z` the initial value. `Append` runs under the mutex. What `GetSeries` does with the mutex is a model of its own below.
-/

namespace Verif.Tvar.Series

variable {T : Type}

/-- A part of the array and the place of the next value. -/
structure Ring (T : Type) where
  pos : Nat
  arr : Nat → T

structure S (T : Type) where
  sec : Ring T
  min : Ring T
  hour : Ring T
  day : Ring T

def S.init (z : T) : S T := ⟨⟨0, fun _ => z⟩, ⟨0, fun _ => z⟩, ⟨0, fun _ => z⟩, ⟨0, fun _ => z⟩⟩

/-- The value is put in; is the end reached? (:191-194, 207-210, 223-226, 240-243) -/
def Ring.put (r : Ring T) (n : Nat) (v : T) : Ring T × Bool :=
  (⟨if r.pos + 1 ≥ n then 0 else r.pos + 1, upd r.arr r.pos v⟩, decide (r.pos + 1 ≥ n))

/-- All values together (:195-199) -/
def Ring.sum (r : Ring T) (op : T → T → T) (div : Nat → T → T) (n : Nat) : T := div n ((List.range (n - 1)).foldl (fun t i => op t (r.arr (i + 1))) (r.arr 0))

/-- `AppendDay` (:239-245) -/
def S.putDay (s : S T) (v : T) : S T := { s with day := (s.day.put 30 v).1 }

/-- `AppendHour` (:222-234) -/
def S.putHour (s : S T) (op : T → T → T) (div : Nat → T → T) (v : T) : S T :=
  let s' := { s with hour := (s.hour.put 24 v).1 }
  if (s.hour.put 24 v).2 then s'.putDay (s'.hour.sum op div 24) else s'

/-- `AppendMinute` (:206-218) -/
def S.putMin (s : S T) (op : T → T → T) (div : Nat → T → T) (v : T) : S T :=
  let s' := { s with min := (s.min.put 60 v).1 }
  if (s.min.put 60 v).2 then s'.putHour op div (s'.min.sum op div 60) else s'

/-- `AppendSecond` (:190-202) -/
def S.put (s : S T) (op : T → T → T) (div : Nat → T → T) (v : T) : S T :=
  let s' := { s with sec := (s.sec.put 60 v).1 }
  if (s.sec.put 60 v).2 then s'.putMin op div (s'.sec.sum op div 60) else s'

/-- What `GetSeries` reads (:108-134), if nothing is appended meanwhile. -/
def Ring.get (r : Ring T) (n : Nat) : List T := (List.range n).map (fun i => r.arr ((r.pos + (n - 1) - i) % n))

/-! ## Specification -/

/-- The last `n` values, the newest first, and the initial value for those that are missing. -/
def latest (z : T) (n : Nat) (h : List T) : List T := (h.reverse ++ List.replicate n z).take n

/-- One value for `n`. -/
def whole (op : T → T → T) (div : Nat → T → T) (n : Nat) : List T → Option T
  | [] => none
  | a :: l => some (div n (l.foldl op a))

/-- One value for each `n` in turn. -/
def blocks (op : T → T → T) (div : Nat → T → T) (n : Nat) (h : List T) : List T := (List.range (h.length / n)).filterMap (fun k => whole op div n ((h.drop (k * n)).take n))

/-! ## The mutex -/

/-- What a thread is doing: `GetSeries` with the mutex (:101-105), after `mutex_.unlock()` (:106), or `Append` (:95-98). -/
inductive W
  | idle
  | locked
  | reads
  | writes
deriving DecidableEq

structure M where
  owner : Option Nat
  wk : Nat → W
  /-- a mutex was unlocked by a thread that does not own it -/
  bad : Bool

inductive Step : M → M → Prop
  | get {s : M} (i : Nat) (h : s.wk i = .idle) (ho : s.owner = none) : Step s { s with owner := some i, wk := upd s.wk i .locked }
  /-- `mutex_.unlock()` -/
  | unlock {s : M} (i : Nat) (h : s.wk i = .locked) : Step s { s with owner := none, wk := upd s.wk i .reads, bad := s.bad || s.owner != some i }
  /-- the destructor of the `scoped_lock` unlocks it as well -/
  | ret {s : M} (i : Nat) (h : s.wk i = .reads) : Step s { s with owner := none, wk := upd s.wk i .idle, bad := s.bad || s.owner != some i }
  | append {s : M} (i : Nat) (h : s.wk i = .idle) (ho : s.owner = none) : Step s { s with owner := some i, wk := upd s.wk i .writes }
  | done {s : M} (i : Nat) (h : s.wk i = .writes) : Step s { s with owner := none, wk := upd s.wk i .idle, bad := s.bad || s.owner != some i }

inductive Reach : M → Prop
  | init : Reach ⟨none, fun _ => .idle, false⟩
  | step {s s' : M} (h : Reach s) (hs : Step s s') : Reach s'

end Verif.Tvar.Series
