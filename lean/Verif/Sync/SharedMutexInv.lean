import Verif.Sync.SharedMutex

/-!
# The invariant of the shared mutex
-/

namespace Verif.Sync.Shared

/-! ## Weights -/

/-- Has one in `reader_quota_`. -/
def fReg : Pc → Nat
  | .rw0 | .rwl | .rz | .rwr | .R | .ru => 1
  | _ => 0

/-- Waits for a grant. -/
def fWait : Pc → Nat
  | .rw0 | .rwl | .rz => 1
  | _ => 0

/-- Has the lock in shared mode. -/
def fHold : Pc → Nat
  | .rwr | .R | .ru => 1
  | _ => 0

def fRp : Pc → Nat
  | .rp => 1
  | _ => 0

/-- Has `kMaxReaders` in `reader_quota_`. -/
def fIn : Pc → Nat
  | .w1 _ | .w2 _ | .w3 | .w3z | .wz | .w4 | .w5 | .W | .wu => 1
  | _ => 0

/-- Readers that are not yet in `pending_readers_`. -/
def fP : Pc → Nat
  | .w1 p | .w2 p => p
  | _ => 0

/-- Has the lock. -/
def fGot : Pc → Nat
  | .w5 | .W | .wu => 1
  | _ => 0

/-- Has `writer_lock_`. -/
def fWlk : Pc → Nat
  | .w0 | .w1 _ | .w2 _ | .w3 | .w3z | .wz | .w4 | .w5 | .W | .wu | .u1 _ | .u2 _ | .u2b | .u3 | .u4 | .t0 | .tc | .t1 => 1
  | _ => 0

/-- Has `wakeup_lock_`. -/
def fWl : Pc → Nat
  | .rwl | .rwr | .rk2 | .w2 _ | .w3 | .w3z | .w5 | .u2 _ | .u2b => 1
  | _ => 0

/-- Grants that are to be made. -/
def fU : Pc → Nat
  | .u1 n | .u2 n => n
  | _ => 0

def fU1 : Pc → Nat
  | .u1 _ | .u2 _ => 1
  | _ => 0

/-- Is going to notify the readers. -/
def fNot : Pc → Nat
  | .u2b | .u3 => 1
  | _ => 0

def fRz : Pc → Nat
  | .rz => 1
  | _ => 0

def fWz : Pc → Nat
  | .wz => 1
  | _ => 0

def fW3z : Pc → Nat
  | .w3z => 1
  | _ => 0

def fRk1 : Pc → Nat
  | .rk1 => 1
  | _ => 0

/-- Is going to notify the writer. -/
def fRk : Pc → Nat
  | .rk1 | .rk2 | .rk3 => 1
  | _ => 0

/-- Has `writer_lock_` only. -/
def fOth : Pc → Nat
  | .w0 | .t0 | .tc | .t1 | .u4 => 1
  | _ => 0

/-- A positive value was read. -/
def fBad : Pc → Nat
  | .sc was => if was ≤ 0 then 1 else 0
  | _ => 0

/-- The sums. -/
structure V where
  reg : Nat
  wait : Nat
  hold : Nat
  rp : Nat
  inn : Nat
  p : Nat
  got : Nat
  wlk : Nat
  wl : Nat
  u : Nat
  u1 : Nat
  nt : Nat
  rz : Nat
  wz : Nat
  w3z : Nat
  rk1 : Nat
  rk : Nat
  oth : Nat
  bad : Nat

def val (l : List Pc) : V := ⟨wsum fReg l, wsum fWait l, wsum fHold l, wsum fRp l, wsum fIn l, wsum fP l, wsum fGot l, wsum fWlk l, wsum fWl l, wsum fU l, wsum fU1 l, wsum fNot l, wsum fRz l, wsum fWz l, wsum fW3z l, wsum fRk1 l, wsum fRk l, wsum fOth l, wsum fBad l⟩

/-- The invariant, as arithmetic. -/
structure AInv (k n : Nat) (quota pend granted : Int) (wlk wl : Nat) (v : V) : Prop where
  ewlk : v.wlk = wlk
  ewl : v.wl = wl
  lwlk : wlk ≤ 1
  lwl : wl ≤ 1
  out : v.inn = 0 → quota + v.reg = k ∧ pend = 0 ∧ v.rp = 0 ∧ (v.wait : Int) = granted + v.u
  inn : v.inn ≠ 0 → quota + v.reg = 0 ∧ pend + v.p = v.hold + granted + v.rp ∧ granted ≤ v.wait
  grant : 0 ≤ granted
  gu : v.u1 ≠ 0 → granted = 0
  got : v.got ≠ 0 → v.hold = 0 ∧ granted = 0 ∧ v.rp = 0
  wz : v.wz ≠ 0 → pend = 0 → v.rk ≠ 0
  w3z : v.w3z ≠ 0 → pend = 0 → v.rk1 ≠ 0
  rz : v.rz ≠ 0 → granted ≠ 0 → v.nt ≠ 0
  bad : v.bad = 0

structure Inv (k n : Nat) (s : S) : Prop where
  len : s.pc.length = n
  ar : AInv k n s.quota s.pend s.granted s.wlk.toNat s.wl.toNat (val s.pc)
  ok : s.crash = false

theorem Inv.init (k n : Nat) : Inv k n (.init k n) := by
  refine ⟨List.length_replicate, ?_, rfl⟩
  have : val (S.init k n).pc = ⟨0, 0, 0, 0, 0, 0, 0, 0, 0, 0, 0, 0, 0, 0, 0, 0, 0, 0, 0⟩ := by
    unfold val S.init
    simp only [wsum_replicate (show fReg .idle = 0 from rfl), wsum_replicate (show fWait .idle = 0 from rfl), wsum_replicate (show fHold .idle = 0 from rfl), wsum_replicate (show fRp .idle = 0 from rfl), wsum_replicate (show fIn .idle = 0 from rfl), wsum_replicate (show fP .idle = 0 from rfl), wsum_replicate (show fGot .idle = 0 from rfl), wsum_replicate (show fWlk .idle = 0 from rfl), wsum_replicate (show fWl .idle = 0 from rfl), wsum_replicate (show fU .idle = 0 from rfl), wsum_replicate (show fU1 .idle = 0 from rfl), wsum_replicate (show fNot .idle = 0 from rfl), wsum_replicate (show fRz .idle = 0 from rfl), wsum_replicate (show fWz .idle = 0 from rfl), wsum_replicate (show fW3z .idle = 0 from rfl), wsum_replicate (show fRk1 .idle = 0 from rfl), wsum_replicate (show fRk .idle = 0 from rfl), wsum_replicate (show fOth .idle = 0 from rfl), wsum_replicate (show fBad .idle = 0 from rfl)]
  rw [this]
  constructor <;> simp [S.init]

/-- Relations between the sums in every state. -/
structure Facts (n : Nat) (v : V) : Prop where
  f1 : v.reg = v.wait + v.hold
  f2 : v.inn + v.u1 + v.nt + v.oth = v.wlk
  f3 : v.got + v.wz + v.w3z ≤ v.inn
  f4 : v.rz ≤ v.wait
  f5 : v.w3z ≤ v.wl
  f6 : v.u1 = 0 → v.u = 0
  f7 : v.inn = 0 → v.p = 0
  f8 : v.inn ≤ 1 → v.got + v.wz + v.w3z ≠ 0 → v.p = 0
  f9 : v.rk1 ≤ v.rk
  f10 : v.reg ≤ n

theorem facts {n : Nat} {l : List Pc} (h : l.length = n) : Facts n (val l) := by
  induction l generalizing n with
  | nil => constructor <;> simp [val, wsum]
  | cons x l ih =>
    have hc : ∀ f : Pc → Nat, wsum f (x :: l) = f x + wsum f l := by intro f; simp [wsum]
    obtain ⟨h1, h2, h3, h4, h5, h6, h7, h8, h9, h10⟩ := ih (n := n - 1) (by simp at h; omega)
    simp only [val] at h1 h2 h3 h4 h5 h6 h7 h8 h9 h10
    have hn : n = l.length + 1 := by simp at h; omega
    unfold val
    simp only [hc]
    constructor <;> dsimp only <;> cases x <;> simp only [fReg, fWait, fHold, fIn, fP, fGot, fWlk, fWl, fU, fU1, fNot, fRz, fWz, fW3z, fRk1, fRk, fOth] <;> omega

/-- What changes if a fiber moves. -/
structure D (a b : Pc) (v v' : V) : Prop where
  d0 : v'.reg + fReg a = v.reg + fReg b
  d1 : v'.wait + fWait a = v.wait + fWait b
  d2 : v'.hold + fHold a = v.hold + fHold b
  d3 : v'.rp + fRp a = v.rp + fRp b
  d4 : v'.inn + fIn a = v.inn + fIn b
  d5 : v'.p + fP a = v.p + fP b
  d6 : v'.got + fGot a = v.got + fGot b
  d7 : v'.wlk + fWlk a = v.wlk + fWlk b
  d8 : v'.wl + fWl a = v.wl + fWl b
  d9 : v'.u + fU a = v.u + fU b
  d10 : v'.u1 + fU1 a = v.u1 + fU1 b
  d11 : v'.nt + fNot a = v.nt + fNot b
  d12 : v'.rz + fRz a = v.rz + fRz b
  d13 : v'.wz + fWz a = v.wz + fWz b
  d14 : v'.w3z + fW3z a = v.w3z + fW3z b
  d15 : v'.rk1 + fRk1 a = v.rk1 + fRk1 b
  d16 : v'.rk + fRk a = v.rk + fRk b
  d17 : v'.oth + fOth a = v.oth + fOth b
  d18 : v'.bad + fBad a = v.bad + fBad b

theorem val_set {l : List Pc} {i : Nat} {a : Pc} (b : Pc) (h : l[i]? = some a) : D a b (val l) (val (l.set i b)) := by
  constructor <;> exact wsum_set h

theorem reg_lt {l : List Pc} {i : Nat} {p : Pc} (h : l[i]? = some p) (hp : fReg p = 0) : (val l).reg < l.length := by
  have h1 := wsum_set (f := fReg) (b := .R) h
  have h2 : wsum fReg (l.set i .R) ≤ wsum (fun _ => 1) (l.set i .R) := wsum_le (by intro x; cases x <;> simp [fReg])
  rw [wsum_one, List.length_set] at h2
  rw [hp, show fReg .R = 1 from rfl] at h1
  show wsum fReg l < _
  omega

set_option hygiene false in
/-- What is known before a step. -/
local macro "start" : tactic => `(tactic| (
  have f := facts hi.len
  have hp := hi.ar
  have hlen := hi.len
  have hok := hi.ok
  have hr := fun e => hlen ▸ reg_lt h e
  simp only [fReg, forall_const] at hr))

set_option hygiene false in
local macro "rest1" : tactic => `(tactic| first
  | (refine ⟨?_, ?_, ?_, ?_, ?_, ?_, ?_, ?_, ?_, ?_, ?_, ?_, ?_⟩
     all_goals try dsimp only
     · clear p12 q3; omega
     · clear p12 q3; omega
     · clear p12 q3; omega
     · clear p12 q3; omega
     · clear p12; omega
     · clear p12; omega
     · clear p12 q3; omega
     · clear p12; omega
     · clear p12; omega
     · clear p12; omega
     · clear p12; omega
     · omega
     · clear p12 q3; omega)
  | (clear p12; omega))

set_option hygiene false in
local macro "rest2" : tactic => `(tactic| first
  | (refine ⟨?_, ?_, ?_, ?_, ?_, ?_, ?_, ?_, ?_, ?_, ?_, ?_, ?_⟩
     all_goals try dsimp only
     · clear p9 p10 p11 p12 q3 q4; omega
     · clear p9 p10 p11 p12 q3 q4; omega
     · clear p9 p10 p11 p12 q3 q4; omega
     · clear p9 p10 p11 p12 q3 q4; omega
     · first | (clear p9 p10 p11 p12 q3 q4; omega) | (clear p10 p11 p12; omega)
     · first | (clear p9 p10 p11 p12 q3 q4; omega) | (clear p10 p11 p12; omega)
     · clear p9 p10 p11 p12 q3 q4; omega
     · clear p10 p11 p12; omega
     · clear p10 p11 p12; omega
     · first | (clear p9 p11 p12 q3 q4; omega) | (clear p9 p12 q4; omega)
     · first | (clear p9 p10 p12 q3 q4; omega) | (clear p9 p12 q4; omega)
     · first | (clear p9 p10 p11 q3 q4; omega) | (clear p10 p11 q4; omega)
     · clear p9 p10 p11 p12 q3 q4; omega)
  | (clear p10 p11 p12; omega))

set_option hygiene false in
/-- Arithmetic with the sums. -/
local macro "vars" b:term : tactic => `(tactic| (
  have d := val_set $b h
  have q4 := (facts (show (s.pc.set i $b).length = n by simp [hlen])).f8
  have f3' := (facts (show (s.pc.set i $b).length = n by simp [hlen])).f3
  generalize val (s.pc.set i $b) = v' at *
  generalize val s.pc = v at *
  obtain ⟨d0, d1, d2, d3, d4, d5, d6, d7, d8, d9, d10, d11, d12, d13, d14, d15, d16, d17, d18⟩ := d
  obtain ⟨f1, f2, f3, f4, f5, f6, f7, f8, f9, f10⟩ := f
  simp only [fReg, fWait, fHold, fRp, fIn, fP, fGot, fWlk, fWl, fU, fU1, fNot, fRz, fWz, fW3z, fRk1, fRk, fOth, fBad] at d0 d1 d2 d3 d4 d5 d6 d7 d8 d9 d10 d11 d12 d13 d14 d15 d16 d17 d18
  try simp only [if_neg hq] at d18
  try simp only [if_neg hw'] at d18
  obtain ⟨p1, p2, p3, p4, p5, p6, p7, p8, p9, p10, p11, p12, p13⟩ := hp
  obtain ⟨x0, x1, x2, x3, x4, x5, x6, x7, x8, x9, x10, x11, x12, x13, x14, x15, x16, x17, x18⟩ := v
  obtain ⟨y0, y1, y2, y3, y4, y5, y6, y7, y8, y9, y10, y11, y12, y13, y14, y15, y16, y17, y18⟩ := v'
  dsimp only at *
  try simp only [Bool.toNat_true, Bool.toNat_false] at *
  by_cases hx : x4 = 0
  · have q := p5 hx
    have q1 : x6 = 0 ∧ x13 = 0 ∧ x14 = 0 := by clear p5 p6 p8 p9 p10 p11 p12 f6 f7 f8; omega
    have q2 := f7 hx
    have q3 : (x10 = 0 ∧ x9 = 0) ∨ (x10 ≠ 0 ∧ s.granted = 0) := by
      by_cases h : x10 = 0
      · exact .inl ⟨h, f6 h⟩
      · exact .inr ⟨h, p8 h⟩
    clear p5 p6 p8 p9 p10 p11 f6 f7 f8 q4
    rest1
  · have q := p6 hx
    have q1 : x4 = 1 ∧ x10 = 0 ∧ x11 = 0 := by clear p5 p6 p8 p9 p10 p11 p12 f6 f7 f8; omega
    have q2 := f6 q1.2.1
    have q3 := f8 (by omega)
    clear p5 p6 p8 f6 f7 f8
    rest2))

set_option hygiene false in
local macro "arith" b:term : tactic => `(tactic| (
  start
  refine ⟨by simp [hlen], ?_, by simp [hok]⟩
  dsimp only
  vars $b))

set_option hygiene false in
local macro "arithl" b:term : tactic => `(tactic| (
  start
  refine ⟨by simp [hlen], ?_, by simp [hok]⟩
  dsimp only
  rw [hl] at hp
  vars $b))

set_option hygiene false in
/-- With a check. -/
local macro "arithc" b:term : tactic => `(tactic| (
  start
  refine ⟨by simp [S.check, hlen], ?_, ?_⟩
  · dsimp only [S.check]
    vars $b
  · simp only [S.check, hok, Bool.false_or, Bool.not_eq_false', Bool.and_eq_true, decide_eq_true_eq]
    vars $b))

set_option maxHeartbeats 1000000 in
theorem Inv.call {k n : Nat} {s s' : S} (hi : Inv k n s) (hc : Call s s') : Inv k n s' := by
  cases hc with
  | lockShared i h => arith .rq
  | tryLockShared i h => arith .sq
  | lock i h => arith .wq
  | tryLock i h => arith .tq
  | unlockShared i h => arith .ru
  | unlock i h => arith .wu

theorem val_wake {l : List Pc} : val (l.map wake) = { val l with rz := 0 } := by
  unfold val
  simp only [wsum_map]
  rw [wsum_congr (f := fun x => fReg (wake x)) (g := fReg) (by intro x; cases x <;> rfl), wsum_congr (f := fun x => fWait (wake x)) (g := fWait) (by intro x; cases x <;> rfl), wsum_congr (f := fun x => fHold (wake x)) (g := fHold) (by intro x; cases x <;> rfl), wsum_congr (f := fun x => fRp (wake x)) (g := fRp) (by intro x; cases x <;> rfl), wsum_congr (f := fun x => fIn (wake x)) (g := fIn) (by intro x; cases x <;> rfl), wsum_congr (f := fun x => fP (wake x)) (g := fP) (by intro x; cases x <;> rfl), wsum_congr (f := fun x => fGot (wake x)) (g := fGot) (by intro x; cases x <;> rfl), wsum_congr (f := fun x => fWlk (wake x)) (g := fWlk) (by intro x; cases x <;> rfl), wsum_congr (f := fun x => fWl (wake x)) (g := fWl) (by intro x; cases x <;> rfl), wsum_congr (f := fun x => fU (wake x)) (g := fU) (by intro x; cases x <;> rfl), wsum_congr (f := fun x => fU1 (wake x)) (g := fU1) (by intro x; cases x <;> rfl), wsum_congr (f := fun x => fNot (wake x)) (g := fNot) (by intro x; cases x <;> rfl), wsum_congr (f := fun x => fWz (wake x)) (g := fWz) (by intro x; cases x <;> rfl), wsum_congr (f := fun x => fW3z (wake x)) (g := fW3z) (by intro x; cases x <;> rfl), wsum_congr (f := fun x => fRk1 (wake x)) (g := fRk1) (by intro x; cases x <;> rfl), wsum_congr (f := fun x => fRk (wake x)) (g := fRk) (by intro x; cases x <;> rfl), wsum_congr (f := fun x => fOth (wake x)) (g := fOth) (by intro x; cases x <;> rfl), wsum_congr (f := fun x => fBad (wake x)) (g := fBad) (by intro x; cases x <;> rfl)]
  rw [wsum_congr (f := fun x => fRz (wake x)) (g := fun _ => 0) (by intro x; cases x <;> rfl), wsum_zero]

theorem no_wz {l : List Pc} (h : ∀ j : Nat, l[j]? ≠ some .wz) : (val l).wz = 0 := by
  by_cases hz : 0 < wsum fWz l
  · obtain ⟨i, a, h1, h2⟩ := wsum_pos hz
    cases a <;> simp [fWz] at h2
    exact absurd h1 (h i)
  · show wsum fWz l = 0
    omega

set_option maxHeartbeats 4000000 in
theorem Inv.step {k n : Nat} (hk : n < k) {s s' : S} (hi : Inv k n s) (hs : Step k s s') : Inv k n s' := by
  cases hs with
  | rq i h =>
    split
    · rename_i hq; arithc .R
    · rename_i hq; arithc .rw0
  | rw0 i h hl => arithl .rwl
  | rwl i h =>
    split
    · rename_i hq; arith .rwr
    · rename_i hq; arith .rz
  | rwr i h => arith .R
  | ru i h =>
    split
    · rename_i hq; arithc .idle
    · rename_i hq; arith .rp
  | rp i h =>
    split
    · rename_i hq; arith .rk1
    · rename_i hq; arith .idle
  | rk1 i h hl => arithl .rk2
  | rk2 i h => arith .rk3
  | rk3 i j h hj =>
    have hij : i ≠ j := by intro e; rw [e, hj] at h; cases h
    have h2 : (s.pc.set i .idle)[j]? = some .wz := by rw [List.getElem?_set_ne hij]; exact hj
    have key := val_set .w4 h2
    have dd := val_set .idle h
    start
    refine ⟨by simp [hlen], ?_, by simp [hok]⟩
    dsimp only
    generalize val ((s.pc.set i .idle).set j .w4) = v'' at *
    generalize val (s.pc.set i .idle) = v' at *
    generalize val s.pc = v at *
    obtain ⟨g0, g1, g2, g3, g4, g5, g6, g7, g8, g9, g10, g11, g12, g13, g14, g15, g16, g17, g18⟩ := dd
    obtain ⟨d0, d1, d2, d3, d4, d5, d6, d7, d8, d9, d10, d11, d12, d13, d14, d15, d16, d17, d18⟩ := key
    obtain ⟨f1, f2, f3, f4, f5, f6, f7, f8, f9, f10⟩ := f
    simp only [fReg, fWait, fHold, fRp, fIn, fP, fGot, fWlk, fWl, fU, fU1, fNot, fRz, fWz, fW3z, fRk1, fRk, fOth, fBad] at d0 d1 d2 d3 d4 d5 d6 d7 d8 d9 d10 d11 d12 d13 d14 d15 d16 d17 d18 g0 g1 g2 g3 g4 g5 g6 g7 g8 g9 g10 g11 g12 g13 g14 g15 g16 g17 g18
    obtain ⟨p1, p2, p3, p4, p5, p6, p7, p8, p9, p10, p11, p12, p13⟩ := hp
    constructor
    · omega
    · omega
    · omega
    · omega
    · clear p8 p9 p10 p11 p12; omega
    · clear p8 p9 p10 p11 p12; omega
    · omega
    · clear p5 p6 p9 p10 p11 p12; omega
    · clear p5 p6 p8 p10 p11 p12; omega
    · clear p5 p6 p8 p9 p10 p11 p12; omega
    · clear p5 p6 p8 p9 p10 p12; omega
    · clear p5 p6 p8 p9 p10 p11; omega
    · omega
  | rk3n i h hj =>
    have hz := no_wz hj
    arith .idle
  | sq i h =>
    unfold shared
    split
    · rename_i hq; arithc .idle
    · rename_i hq
      arithc (.sc s.quota)
  | sc i was h =>
    have hb0 : fBad (.sc was) = 0 := by
      have h1 := hi.ar.bad
      have h2 := wsum_mem (f := fBad) h
      simp only [val] at h1
      omega
    have hw : 0 < was := by
      simp only [fBad] at hb0
      split at hb0 <;> omega
    have hw' : ¬was ≤ 0 := by omega
    split
    · rename_i hq; arith .R
    · rename_i hne
      unfold shared
      split
      · rename_i hq; arithc .idle
      · rename_i hq; arithc (.sc s.quota)
  | wq i h hl => arithl .w0
  | w0 i h =>
    split
    · rename_i hq; arith .W
    · rename_i hq; arithc (.w1 (k - s.quota).toNat)
  | w1 i p h hl => arithl (.w2 p)
  | w2 i p h =>
    split
    · rename_i hq; arith .w3
    · rename_i hq; arith .w5
  | w3 i h =>
    split
    · rename_i hq; arith .w5
    · rename_i hq; arith .w3z
  | w3z i h => arith .wz
  | w4 i h hl => arithl .w3
  | w5 i h => arith .W
  | tq i h =>
    split
    · rename_i hq; arith .idle
    · rename_i hq
      have hl : s.wlk = false := by simpa using hq
      arithl .t0
  | t0 i h =>
    split
    · rename_i hq; arith .t1
    · rename_i hq; arith .tc
  | tc i h =>
    split
    · rename_i hq; arith .W
    · rename_i hq; arith .t1
  | t1 i h => arith .idle
  | wu i h =>
    split
    · rename_i hq; arithc (.u1 (-s.quota).toNat)
    · rename_i hq; arithc .u4
  | u1 i m h hl => arithl (.u2 m)
  | u2 i m h => arith .u2b
  | u2b i h => arith .u3
  | u3 i h =>
    start
    refine ⟨by simp [hlen], ?_, by simp [hok]⟩
    dsimp only
    rw [val_wake]
    vars .u4
  | u4 i h => arith .idle

theorem Reach.inv {k n : Nat} (hk : n < k) {s : S} (h : Reach k n s) : Inv k n s := by
  induction h with
  | init => exact .init k n
  | call _ hc ih => exact ih.call hc
  | step _ hs ih => exact ih.step hk hs

end Verif.Sync.Shared
