import Verif.Common.Sum

/-!
# Shared mutex of fibers

/repo/trpc/coroutine/fiber_shared_mutex.cc and .h.

* The memory is sequentially consistent. Every operation on an atomic, every acquisition and release of one of the two mutexes and every notification is a step of its own.
* `FiberMutex` is a mutex (C55), `FiberConditionVariable` a condition variable (C56): `wait` releases the mutex and sleeps in one step, a notification wakes only those who sleep.
* `k` stands for `kMaxReaders`. A failed check sets `crash`. `compare_exchange_weak` does not fail without reason (it would be repeated).
* Numbers of readers that are taken from `reader_quota_` are natural numbers; the checks beside them fail otherwise.
-/

namespace Verif.Sync.Shared

inductive Pc where
  | idle
  /-- `lock_shared` was called -/
  | rq
  /-- about to lock `wakeup_lock_` in `WaitForRead` -/
  | rw0
  /-- has it, looks at `newly_granted_readers_` -/
  | rwl
  /-- was granted, releases it -/
  | rwr
  /-- sleeps on `reader_cv_` -/
  | rz
  /-- holds the lock in shared mode -/
  | R
  /-- `unlock_shared` was called -/
  | ru
  /-- about to decrement `pending_readers_` -/
  | rp
  /-- `WakeupWriter`: about to lock, to unlock, to notify -/
  | rk1
  | rk2
  | rk3
  /-- `try_lock_shared` was called; `was` was loaded -/
  | sq
  | sc (was : Int)
  /-- `lock` was called -/
  | wq
  /-- has `writer_lock_` -/
  | w0
  /-- about to lock `wakeup_lock_`, to add to `pending_readers_`, with this number of readers -/
  | w1 (p : Nat)
  | w2 (p : Nat)
  /-- looks at `pending_readers_` -/
  | w3
  /-- is going to sleep -/
  | w3z
  /-- sleeps on `writer_cv_` -/
  | wz
  /-- woken -/
  | w4
  /-- releases `wakeup_lock_` -/
  | w5
  /-- holds the lock -/
  | W
  /-- `unlock` was called -/
  | wu
  /-- about to lock `wakeup_lock_`, to grant, to release it, to notify, to release `writer_lock_` -/
  | u1 (n : Nat)
  | u2 (n : Nat)
  | u2b
  | u3
  | u4
  /-- `try_lock` was called; has `writer_lock_`; about to exchange; gives up -/
  | tq
  | t0
  | tc
  | t1
deriving DecidableEq

structure S where
  /-- `reader_quota_` -/
  quota : Int
  /-- `pending_readers_` -/
  pend : Int
  /-- `newly_granted_readers_` -/
  granted : Int
  /-- `writer_lock_` -/
  wlk : Bool
  /-- `wakeup_lock_` -/
  wl : Bool
  crash : Bool
  pc : List Pc
deriving DecidableEq

def S.init (k n : Nat) : S := ⟨k, 0, 0, false, false, false, List.replicate n .idle⟩

def wake : Pc → Pc
  | .rz => .rw0
  | p => p

/-- A failed check. -/
def S.check (s : S) (b : Bool) : S := { s with crash := s.crash || !b }

/-- The calls of the user. -/
inductive Call : S → S → Prop
  | lockShared {s : S} (i : Nat) (h : s.pc[i]? = some .idle) : Call s { s with pc := s.pc.set i .rq }
  | tryLockShared {s : S} (i : Nat) (h : s.pc[i]? = some .idle) : Call s { s with pc := s.pc.set i .sq }
  | lock {s : S} (i : Nat) (h : s.pc[i]? = some .idle) : Call s { s with pc := s.pc.set i .wq }
  | tryLock {s : S} (i : Nat) (h : s.pc[i]? = some .idle) : Call s { s with pc := s.pc.set i .tq }
  | unlockShared {s : S} (i : Nat) (h : s.pc[i]? = some .R) : Call s { s with pc := s.pc.set i .ru }
  | unlock {s : S} (i : Nat) (h : s.pc[i]? = some .W) : Call s { s with pc := s.pc.set i .wu }

/-- Where `try_lock_shared` goes with the value it has read (:26-33). -/
def shared (was : Int) : Pc := if was ≤ 0 then .idle else .sc was

/-- The steps of the functions. -/
inductive Step (k : Nat) : S → S → Prop
  /-- `lock_shared` (:15-22) -/
  | rq {s : S} (i : Nat) (h : s.pc[i]? = some .rq) :
      Step k s (if 1 < s.quota then ({ s with quota := s.quota - 1, pc := s.pc.set i .R } : S).check (s.quota ≤ k)
        else ({ s with quota := s.quota - 1, pc := s.pc.set i .rw0 } : S).check (s.quota ≠ 1))
  /-- `WaitForRead` (:101-110) -/
  | rw0 {s : S} (i : Nat) (h : s.pc[i]? = some .rw0) (hl : s.wl = false) : Step k s { s with wl := true, pc := s.pc.set i .rwl }
  | rwl {s : S} (i : Nat) (h : s.pc[i]? = some .rwl) :
      Step k s (if s.granted ≠ 0 then { s with granted := s.granted - 1, pc := s.pc.set i .rwr } else { s with wl := false, pc := s.pc.set i .rz })
  | rwr {s : S} (i : Nat) (h : s.pc[i]? = some .rwr) : Step k s { s with wl := false, pc := s.pc.set i .R }
  /-- `unlock_shared` (:36-45) -/
  | ru {s : S} (i : Nat) (h : s.pc[i]? = some .ru) :
      Step k s (if 0 < s.quota then ({ s with quota := s.quota + 1, pc := s.pc.set i .idle } : S).check (s.quota < k) else { s with quota := s.quota + 1, pc := s.pc.set i .rp })
  | rp {s : S} (i : Nat) (h : s.pc[i]? = some .rp) : Step k s { s with pend := s.pend - 1, pc := s.pc.set i (if s.pend = 1 then .rk1 else .idle) }
  /-- `WakeupWriter` (:112-116) -/
  | rk1 {s : S} (i : Nat) (h : s.pc[i]? = some .rk1) (hl : s.wl = false) : Step k s { s with wl := true, pc := s.pc.set i .rk2 }
  | rk2 {s : S} (i : Nat) (h : s.pc[i]? = some .rk2) : Step k s { s with wl := false, pc := s.pc.set i .rk3 }
  | rk3 {s : S} (i j : Nat) (h : s.pc[i]? = some .rk3) (hj : s.pc[j]? = some .wz) : Step k s { s with pc := (s.pc.set i .idle).set j .w4 }
  | rk3n {s : S} (i : Nat) (h : s.pc[i]? = some .rk3) (hj : ∀ j : Nat, s.pc[j]? ≠ some .wz) : Step k s { s with pc := s.pc.set i .idle }
  /-- `try_lock_shared` (:24-34) -/
  | sq {s : S} (i : Nat) (h : s.pc[i]? = some .sq) : Step k s (({ s with pc := s.pc.set i (shared s.quota) } : S).check (s.quota ≤ k && s.quota ≠ 1))
  | sc {s : S} (i : Nat) (was : Int) (h : s.pc[i]? = some (.sc was)) :
      Step k s (if s.quota = was then { s with quota := s.quota - 1, pc := s.pc.set i .R } else ({ s with pc := s.pc.set i (shared s.quota) } : S).check (s.quota ≤ k && s.quota ≠ 1))
  /-- `lock` (:47-66) -/
  | wq {s : S} (i : Nat) (h : s.pc[i]? = some .wq) (hl : s.wlk = false) : Step k s { s with wlk := true, pc := s.pc.set i .w0 }
  | w0 {s : S} (i : Nat) (h : s.pc[i]? = some .w0) :
      Step k s (if s.quota = k then { s with quota := s.quota - k, pc := s.pc.set i .W }
        else ({ s with quota := s.quota - k, pc := s.pc.set i (.w1 (k - s.quota).toNat) } : S).check (s.quota < k && 0 < s.quota))
  | w1 {s : S} (i : Nat) (p : Nat) (h : s.pc[i]? = some (.w1 p)) (hl : s.wl = false) : Step k s { s with wl := true, pc := s.pc.set i (.w2 p) }
  | w2 {s : S} (i : Nat) (p : Nat) (h : s.pc[i]? = some (.w2 p)) : Step k s { s with pend := s.pend + p, pc := s.pc.set i (if s.pend ≠ -p then .w3 else .w5) }
  | w3 {s : S} (i : Nat) (h : s.pc[i]? = some .w3) : Step k s { s with pc := s.pc.set i (if s.pend = 0 then .w5 else .w3z) }
  | w3z {s : S} (i : Nat) (h : s.pc[i]? = some .w3z) : Step k s { s with wl := false, pc := s.pc.set i .wz }
  | w4 {s : S} (i : Nat) (h : s.pc[i]? = some .w4) (hl : s.wl = false) : Step k s { s with wl := true, pc := s.pc.set i .w3 }
  | w5 {s : S} (i : Nat) (h : s.pc[i]? = some .w5) : Step k s { s with wl := false, pc := s.pc.set i .W }
  /-- `try_lock` (:68-81) -/
  | tq {s : S} (i : Nat) (h : s.pc[i]? = some .tq) : Step k s (if s.wlk then { s with pc := s.pc.set i .idle } else { s with wlk := true, pc := s.pc.set i .t0 })
  | t0 {s : S} (i : Nat) (h : s.pc[i]? = some .t0) : Step k s { s with pc := s.pc.set i (if s.quota ≠ k then .t1 else .tc) }
  | tc {s : S} (i : Nat) (h : s.pc[i]? = some .tc) : Step k s (if s.quota = k then { s with quota := 0, pc := s.pc.set i .W } else { s with pc := s.pc.set i .t1 })
  | t1 {s : S} (i : Nat) (h : s.pc[i]? = some .t1) : Step k s { s with wlk := false, pc := s.pc.set i .idle }
  /-- `unlock` (:83-99) -/
  | wu {s : S} (i : Nat) (h : s.pc[i]? = some .wu) :
      Step k s (({ s with quota := s.quota + k, pc := s.pc.set i (if s.quota ≠ 0 then .u1 (-s.quota).toNat else .u4) } : S).check (0 < s.quota + k && s.quota ≤ 0))
  | u1 {s : S} (i : Nat) (n : Nat) (h : s.pc[i]? = some (.u1 n)) (hl : s.wl = false) : Step k s { s with wl := true, pc := s.pc.set i (.u2 n) }
  | u2 {s : S} (i : Nat) (n : Nat) (h : s.pc[i]? = some (.u2 n)) : Step k s { s with granted := n, pc := s.pc.set i .u2b }
  | u2b {s : S} (i : Nat) (h : s.pc[i]? = some .u2b) : Step k s { s with wl := false, pc := s.pc.set i .u3 }
  | u3 {s : S} (i : Nat) (h : s.pc[i]? = some .u3) : Step k s { s with pc := (s.pc.set i .u4).map wake }
  | u4 {s : S} (i : Nat) (h : s.pc[i]? = some .u4) : Step k s { s with wlk := false, pc := s.pc.set i .idle }

/-- All runs with `n` fibers. -/
inductive Reach (k n : Nat) : S → Prop
  | init : Reach k n (.init k n)
  | call {s s' : S} (h : Reach k n s) (hc : Call s s') : Reach k n s'
  | step {s s' : S} (h : Reach k n s) (hs : Step k s s') : Reach k n s'

end Verif.Sync.Shared
