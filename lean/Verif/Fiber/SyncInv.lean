import Verif.Fiber.SyncSpec
/-!
# The invariant of mutex and condition variable
-/

namespace Verif.Fiber.Sync

/-! ## What a position means -/

/-- Called by the owner of the mutex. -/
def R.own : R → Bool
  | .unlock _ _ => false
  | .one own => own
  | .all own => own

/-- Holds `slow_path_lock_`. -/
def Pc.hs : Pc → Bool
  | .add _ => true
  | .free _ => true
  | .slk _ => true
  | .enq _ => true
  | .st _ => true
  | .rel _ _ => true
  | .wake _ _ => true
  | .urel _ _ _ => true
  | _ => false

/-- Owns the mutex. -/
def Pc.ow : Pc → Bool
  | .own => true
  | .free _ => true
  | .ul _ => true
  | .sub _ _ => true
  | .nwake r => r.own
  | .res _ r _ => r.own
  | .cslk _ => true
  | .cadd _ => true
  | .ctimer => true
  | .cpost _ _ => true
  | .padd _ => true
  | .pst _ => true
  | _ => false

/-- Gave the mutex up and has to wake the next one. -/
def Pc.duty : Pc → Bool
  | .usl _ _ => true
  | .wake _ _ => true
  | _ => false

/-- Counted, but not in the list yet. -/
def Pc.pre : Pc → Bool
  | .slk _ => true
  | .enq _ => true
  | _ => false

def W.mx? : W → Bool
  | .mx _ => true
  | _ => false

/-- Waits for the mutex. -/
def Pc.qd : Pc → Bool
  | .slk _ => true
  | .enq _ => true
  | .st _ => true
  | .rel _ _ => true
  | .susp w => w.mx?
  | .swap w => w.mx?
  | .parked w => w.mx?
  | .check _ => true
  | .fwait w _ => w.mx?
  | .fasleep w _ => w.mx?
  | .fcheck w _ => w.mx?
  | _ => false

/-- Has a pointer to the block of `w` that waits for the mutex. -/
def Pc.mc : Pc → Option Nat
  | .urel _ _ w => some w
  | .res .fsys _ _ => none
  | .res _ (.unlock _ _) w => some w
  | _ => none

/-- Has a pointer to the block of `w` that waits for the condition variable. -/
def Pc.cc : Pc → Option Nat
  | .res .fsys _ _ => none
  | .res _ (.one _) w => some w
  | .res _ (.all _) w => some w
  | _ => none

/-- Holds the `scheduler_lock` of another one. -/
def Pc.rs : Pc → Option Nat
  | .res .rset _ w => some w
  | .res .dset _ w => some w
  | _ => none

def U.wait? : U → Bool
  | .user => false
  | .wait _ _ _ => true

def R.wait? : R → Bool
  | .unlock u _ => u.wait?
  | _ => false

/-- Holds its own `scheduler_lock`. -/
def Pc.self (fib : Bool) : Pc → Bool
  | .enq _ => fib
  | .rel _ _ => fib
  | .susp _ => true
  | .swap _ => true
  | .cadd _ => true
  | .ctimer => true
  | .cpost _ _ => true
  | .ul u => fib && u.wait?
  | .sub u _ => fib && u.wait?
  | .usl u _ => fib && u.wait?
  | .wake u _ => fib && u.wait?
  | .urel u _ _ => fib && u.wait?
  | .res _ r _ => fib && r.wait?
  | _ => false

def U.cur : U → Option Nat
  | .wait true g _ => some g
  | _ => none

def W.cur : W → Option Nat
  | .cv true g => some g
  | _ => none

/-- The timer it has set. -/
def Pc.cur : Pc → Option Nat
  | .cpost timed g => if timed then some g else none
  | .ul u => u.cur
  | .sub u _ => u.cur
  | .usl u _ => u.cur
  | .wake u _ => u.cur
  | .urel u _ _ => u.cur
  | .res _ (.unlock u _) _ => u.cur
  | .susp w => w.cur
  | .swap w => w.cur
  | .parked w => w.cur
  | .crem timed g => if timed then some g else none
  | .crm g _ => some g
  | .cawake g _ => some g
  | _ => none

def Pc.park : Pc → Bool
  | .parked (.dir _) => false
  | .parked _ => true
  | _ => false

/-! ## One thread -/

def Run (s : St) (t : Nat) : Prop := s.fst t = .running ∧ s.rdy t = false

def NoM (s : St) (t : Nat) : Prop := t ∉ s.mq ∧ s.mref t = none

def NoC (s : St) (t : Nat) : Prop := t ∉ s.cq ∧ s.cref t = none

/-- Waits for the mutex and was not woken yet. -/
def MSt (s : St) (t : Nat) : Prop := (t ∈ s.mq ∧ s.mref t = none) ∨ (t ∉ s.mq ∧ s.mref t ≠ none)

/-- The same for a thread. -/
def FM (s : St) (t : Nat) : Prop := (s.mfut t = 0 ∧ MSt s t) ∨ (s.mfut t ≠ 0 ∧ NoM s t)

/-- A fiber that is notified or whose time is over. -/
def Hit (s : St) (v : Cv) (t : Nat) : Prop :=
  s.sat t = true ∧ (v.ph t = .timedOut ∨ t ∉ s.cq ∧ ∃ e, v.ph t = .noted e)

/-- A fiber that waits for the condition variable and was not woken yet. -/
def CSt (s : St) (v : Cv) (t : Nat) : Prop :=
  (s.sat t = false ∧ t ∈ s.cq ∧ s.cref t = none ∧ (v.ph t = .entered ∨ v.ph t = .released)) ∨
  (Hit s v t ∧ s.cref t ≠ none)

/-- It was woken. -/
def CDone (s : St) (v : Cv) (t : Nat) : Prop := Hit s v t ∧ s.cref t = none

/-- A thread that waits for the condition variable with the futex state `st`. -/
def PSt (s : St) (v : Cv) (t st : Nat) : Prop :=
  (t ∈ s.cq ∧ s.cref t = none ∧ s.cfut t = 0 ∧ st = 0 ∧ (v.ph t = .entered ∨ v.ph t = .released)) ∨
  (t ∉ s.cq ∧ st = 0 ∧ (s.cref t ≠ none ∧ s.cfut t = 0 ∨ s.cref t = none ∧ s.cfut t ≠ 0) ∧ ∃ e, v.ph t = .noted e) ∨
  (t ∉ s.cq ∧ s.cref t = none ∧ s.cfut t = st ∧ v.ph t = .noted true)

/-- Before it has looked at the futex. -/
def PEarly (s : St) (v : Cv) (t : Nat) : Prop :=
  (t ∈ s.cq ∧ s.cref t = none ∧ s.cfut t = 0 ∧ v.ph t = .entered) ∨
  (t ∉ s.cq ∧ (s.cref t ≠ none ∧ s.cfut t = 0 ∨ s.cref t = none) ∧ v.ph t = .noted true)

def KOk (v : Cv) (t : Nat) : K → Prop
  | .user => v.ph t = .no
  | .back b => v.ph t = .timedOut ∨ b = true ∧ ∃ e, v.ph t = .noted e

def UOk (s : St) (v : Cv) (t : Nat) : U → Prop
  | .user => NoC s t ∧ v.ph t = .no
  | .wait timed _ st => if s.fib t then CSt s v t else timed = false ∧ PSt s v t st

def ROk (s : St) (v : Cv) (t : Nat) : R → Prop
  | .unlock u p => UOk s v t u ∧ (s.fib t = true → u.wait? = true → p = true)
  | _ => NoC s t ∧ v.ph t = .no

def SOk (s : St) (t : Nat) (r : R) (w : Nat) : Stage → Prop
  | .look => True
  | .rlock => s.fib w = true
  | .rset => s.fib w = true
  | .rpush => s.fib w = true
  | .dlock => s.fib w = true ∧ s.fib t = true ∧ r = .unlock .user false
  | .dset => s.fib w = true ∧ s.fib t = true ∧ r = .unlock .user false
  | .dswap => s.fib w = true ∧ s.fib t = true ∧ r = .unlock .user false
  | .fadd => s.fib w = false
  | .fsys => s.fib w = false

/-- What holds for `t` at this position. -/
def OkAt (s : St) (v : Cv) (t : Nat) : Pc → Prop
  | .out => Run s t ∧ NoM s t ∧ NoC s t ∧ v.ph t = .no
  | .own => Run s t ∧ NoM s t ∧ NoC s t ∧ v.ph t = .no
  | .try_ always k => Run s t ∧ NoM s t ∧ NoC s t ∧ KOk v t k ∧ (always = false → k = .user)
  | .slow k => Run s t ∧ NoM s t ∧ NoC s t ∧ KOk v t k
  | .add k => Run s t ∧ NoM s t ∧ NoC s t ∧ KOk v t k
  | .free k => Run s t ∧ NoM s t ∧ NoC s t ∧ KOk v t k
  | .slk k => s.fib t = true ∧ Run s t ∧ NoM s t ∧ NoC s t ∧ KOk v t k
  | .enq k => Run s t ∧ NoM s t ∧ NoC s t ∧ KOk v t k
  | .st k => s.fib t = false ∧ Run s t ∧ t ∈ s.mq ∧ s.mref t = none ∧ s.mfut t = 0 ∧ NoC s t ∧ KOk v t k
  | .rel k st => Run s t ∧ t ∈ s.mq ∧ s.mref t = none ∧ s.mfut t = 0 ∧ st = 0 ∧ NoC s t ∧ KOk v t k
  | .susp (.mx k) => s.fib t = true ∧ Run s t ∧ MSt s t ∧ NoC s t ∧ KOk v t k
  | .susp (.cv _ _) => s.fib t = true ∧ Run s t ∧ NoM s t ∧ CSt s v t
  | .susp (.dir _) => False
  | .swap (.mx k) => s.fib t = true ∧ s.rdy t = false ∧ MSt s t ∧ NoC s t ∧ KOk v t k
  | .swap (.cv _ _) => s.fib t = true ∧ s.rdy t = false ∧ NoM s t ∧ CSt s v t
  | .swap (.dir _) => False
  | .parked (.mx k) => s.fib t = true ∧ NoC s t ∧ KOk v t k ∧
      (s.rdy t = false ∧ MSt s t ∨ s.rdy t = true ∧ s.fst t = .ready ∧ NoM s t)
  | .parked (.cv _ _) => s.fib t = true ∧ NoM s t ∧
      (s.rdy t = false ∧ CSt s v t ∨ s.rdy t = true ∧ s.fst t = .ready ∧ CDone s v t)
  | .parked (.dir r) => s.fib t = true ∧ s.rdy t = true ∧ s.fst t = .ready ∧ NoM s t ∧ NoC s t ∧ v.ph t = .no ∧
      r = .unlock .user false
  | .check k => s.fib t = true ∧ Run s t ∧ NoM s t ∧ NoC s t ∧ KOk v t k
  | .fwait (.mx k) st => s.fib t = false ∧ Run s t ∧ NoC s t ∧ KOk v t k ∧ st = 0 ∧ FM s t
  | .fwait (.cv timed _) st => s.fib t = false ∧ timed = false ∧ Run s t ∧ NoM s t ∧ PSt s v t st
  | .fwait (.dir _) _ => False
  | .fasleep (.mx k) st => s.fib t = false ∧ Run s t ∧ NoC s t ∧ KOk v t k ∧ st = 0 ∧ FM s t
  | .fasleep (.cv timed _) st => s.fib t = false ∧ timed = false ∧ Run s t ∧ NoM s t ∧ PSt s v t st
  | .fasleep (.dir _) _ => False
  | .fcheck (.mx k) st => s.fib t = false ∧ Run s t ∧ NoC s t ∧ KOk v t k ∧ st = 0 ∧ FM s t
  | .fcheck (.cv timed _) st => s.fib t = false ∧ timed = false ∧ Run s t ∧ NoM s t ∧ PSt s v t st
  | .fcheck (.dir _) _ => False
  | .ul u => Run s t ∧ NoM s t ∧ UOk s v t u ∧ (s.fib t = true → u.wait? = true → s.post = true)
  | .sub u p => Run s t ∧ NoM s t ∧ UOk s v t u ∧ (s.fib t = true → u.wait? = true → p = true)
  | .usl u p => Run s t ∧ NoM s t ∧ UOk s v t u ∧ (s.fib t = true → u.wait? = true → p = true)
  | .wake u p => Run s t ∧ NoM s t ∧ UOk s v t u ∧ (s.fib t = true → u.wait? = true → p = true)
  | .urel u p _ => Run s t ∧ NoM s t ∧ UOk s v t u ∧ (s.fib t = true → u.wait? = true → p = true)
  | .res g r w => Run s t ∧ NoM s t ∧ ROk s v t r ∧ SOk s t r w g
  | .swapped r => s.fib t = true ∧ Run s t ∧ NoM s t ∧ NoC s t ∧ v.ph t = .no ∧ r = .unlock .user false
  | .nwake r => Run s t ∧ NoM s t ∧ NoC s t ∧ v.ph t = .no ∧ ∀ u p, r ≠ .unlock u p
  | .cslk _ => s.fib t = true ∧ Run s t ∧ NoM s t ∧ NoC s t ∧ v.ph t = .no
  | .cadd _ => s.fib t = true ∧ Run s t ∧ NoM s t ∧ NoC s t ∧ v.ph t = .no
  | .ctimer => s.fib t = true ∧ Run s t ∧ NoM s t ∧ CSt s v t
  | .cpost _ _ => s.fib t = true ∧ Run s t ∧ NoM s t ∧ CSt s v t
  | .crem _ _ => s.fib t = true ∧ Run s t ∧ NoM s t ∧ CDone s v t
  | .crm _ b => s.fib t = true ∧ Run s t ∧ NoM s t ∧ NoC s t ∧ s.sat t = true ∧ KOk v t (.back b)
  | .cawake _ b => s.fib t = true ∧ Run s t ∧ NoM s t ∧ NoC s t ∧ s.sat t = true ∧ KOk v t (.back b)
  | .padd timed => s.fib t = false ∧ timed = false ∧ Run s t ∧ NoM s t ∧ NoC s t ∧ v.ph t = .no
  | .pst timed => s.fib t = false ∧ timed = false ∧ Run s t ∧ NoM s t ∧ PEarly s v t
  | .prem b => s.fib t = false ∧ Run s t ∧ NoM s t ∧ NoC s t ∧ KOk v t (.back b)

def Ok (s : St) (v : Cv) (t : Nat) : Prop := OkAt s v t (s.pc t)

/-! ## All of it -/

/-- The `scheduler_lock` of `w` is held by this one. -/
def Holds (s : St) (w : Nat) : Who → Prop
  | .thr t => (t = w ∧ (s.pc t).self (s.fib t) = true) ∨ (s.pc t).rs = some w
  | .tim g => s.tm g = .rset ∧ s.town g = w

/-- This one has a pointer to the block of `w` that waits for the condition variable. -/
def CPtr (s : St) (w : Nat) : Who → Prop
  | .thr t => (s.pc t).cc = some w
  | .tim g => (s.tm g = .rlock ∨ s.tm g = .rset ∨ s.tm g = .rpush) ∧ s.town g = w

/-- What a thread that wakes `w` relies on. -/
def Lnk (s : St) (t : Nat) : Prop :=
  match s.pc t with
  | .res .rset _ w => (s.pc w).park = true
  | .res .dset _ w => (s.pc w).park = true
  | .res .rpush _ w => (s.pc w).park = true ∧ s.fst w = .ready
  | .res .dswap _ w => (s.pc w).park = true ∧ s.fst w = .running
  | _ => True

/-- `G`: who was chosen to be the next owner; `P`: counted, but not in the list yet; `d`: who has to wake the next owner. -/
structure Tok (s : St) (l : Lk) (G P : List Nat) (d : Option Nat) : Prop where
  queue : l.queue = G ++ s.mq ++ P
  pre : ∀ t, (s.pc t).pre = true ↔ t ∈ P
  short : G.length ≤ 1
  duty : ∀ t, (s.pc t).duty = true ↔ d = some t
  owned : l.owner ≠ none → G = [] ∧ d = none
  due : d ≠ none → G = [] ∧ l.queue ≠ []
  token : l.owner = none → l.queue ≠ [] → d ≠ none ∨ G ≠ []

structure TOk (s : St) (g : Nat) : Prop where
  unused : s.tm g = .unused ↔ s.ntm ≤ g
  lock : s.tlock g = if s.tm g = .look ∨ s.tm g = .exch ∨ s.tm g = .rlock ∨ s.tm g = .rset ∨ s.tm g = .rpush ∨ s.tm g = .unlock
    then some (.tim g) else none
  live : s.tm g = .exch ∨ s.tm g = .rlock ∨ s.tm g = .rset ∨ s.tm g = .rpush → s.tawake g = false
  cur : g < s.ntm → s.tawake g = false → (s.pc (s.town g)).cur = some g
  fresh : s.ntm ≤ g → s.tawake g = false
  fib : g < s.ntm → s.fib (s.town g) = true
  park : s.tm g = .rset → (s.pc (s.town g)).park = true
  park' : s.tm g = .rpush → (s.pc (s.town g)).park = true ∧ s.fst (s.town g) = .ready

/-- A thread that sleeps although its futex has changed is about to be woken. -/
def Fs (s : St) (t : Nat) : Prop :=
  match s.pc t with
  | .fasleep w st => word s t w ≠ st → ∃ u r, s.pc u = .res .fsys r t
  | _ => True

structure Inv (s : St) (l : Lk) (v : Cv) : Prop where
  small : ∀ t, s.pc t ≠ .out → t < 2 ^ 32 - 1
  ok : ∀ t, Ok s v t
  slow : ∀ t, s.slow = some t ↔ (s.pc t).hs = true
  slk : ∀ w r, s.slk w = some r ↔ Holds s w r
  mref : ∀ w r, s.mref w = some r ↔ ∃ t, r = .thr t ∧ (s.pc t).mc = some w
  cref : ∀ w r, s.cref w = some r ↔ CPtr s w r
  lnk : ∀ t, Lnk s t
  owner : ∀ t, l.owner = some t ↔ (s.pc t).ow = true
  qd : ∀ t, t ∈ l.queue ↔ (s.pc t).qd = true
  nodup : l.queue.Nodup
  count : s.count = l.queue.length + if l.owner = none then 0 else 1
  tok : ∃ G P d, Tok s l G P d
  waiting : v.waiting = s.cq.filter fun t => !s.sat t
  cqnd : s.cq.Nodup
  sat : ∀ t, s.fib t = false → s.sat t = false
  fs : ∀ t, Fs s t
  tim : ∀ g, TOk s g
  tcur : ∀ t g, (s.pc t).cur = some g → g < s.ntm ∧ s.town g = t ∧ s.tawake g = false

theorem init_inv (fib : Nat → Bool) : Inv (init fib) lk0 cv0 where
  small := by simp [init]
  ok := by simp [init, Ok, OkAt, Run, NoM, NoC, cv0]
  slow := by simp [init, Pc.hs]
  slk := by intro w r; cases r <;> simp [init, Holds, Pc.self, Pc.rs]
  mref := by simp [init, Pc.mc]
  cref := by intro w r; cases r <;> simp [init, CPtr, Pc.cc]
  lnk := by simp [init, Lnk]
  owner := by simp [init, lk0, Pc.ow]
  qd := by simp [init, lk0, Pc.qd]
  nodup := by simp [lk0]
  count := by simp [init, lk0]
  tok := ⟨[], [], none, by constructor <;> simp [init, lk0, Pc.pre, Pc.duty]⟩
  waiting := by simp [init, cv0]
  cqnd := by simp [init]
  sat := by simp [init]
  fs := by simp [init, Fs]
  tim := by intro g; constructor <;> simp [init]
  tcur := by simp [init, Pc.cur]

/-! ## How the parts of the invariant change -/

/-- The positions mean the same. -/
structure SameCl (fib : Bool) (p q : Pc) : Prop where
  hs : q.hs = p.hs
  self : q.self fib = p.self fib
  rs : q.rs = p.rs
  mc : q.mc = p.mc
  cc : q.cc = p.cc
  ow : q.ow = p.ow
  qd : q.qd = p.qd
  pre : q.pre = p.pre
  duty : q.duty = p.duty
  cur : q.cur = p.cur

theorem SameCl.rfl' (f : Bool) (p : Pc) : SameCl f p p := by constructor <;> rfl

/-- Nothing changes for `u`, except that its block may have been taken from the list when it was satisfied already. -/
structure Same (s s' : St) (v v' : Cv) (u : Nat) : Prop where
  pc : s'.pc u = s.pc u
  fib : s'.fib = s.fib
  fst : s'.fst u = s.fst u
  rdy : s'.rdy u = s.rdy u
  mfut : s'.mfut u = s.mfut u
  cfut : s'.cfut u = s.cfut u
  sat : s'.sat u = s.sat u
  mref : s'.mref u = s.mref u
  cref : s'.cref u = s.cref u
  mq : u ∈ s'.mq ↔ u ∈ s.mq
  cq : u ∈ s'.cq → u ∈ s.cq
  cq' : u ∈ s.cq → s.sat u = false → u ∈ s'.cq
  ph : v'.ph u = v.ph u
  post : (s.pc u).ow = true → s'.post = s.post

theorem Same.ok {s s' : St} {v v' : Cv} {u : Nat} (h : Same s s' v v' u) (hs : ∀ t, s.fib t = false → s.sat t = false)
    (ho : Ok s v u) : Ok s' v' u := by
  obtain ⟨hpc, hfib, hfst, hrdy, hmf, hcf, hsat, hmr, hcr, hmq, hcq, hcq', hph, hpost⟩ := h
  have hcqf : s.fib u = false → (u ∈ s'.cq ↔ u ∈ s.cq) := fun hf => ⟨hcq, fun h => hcq' h (hs u hf)⟩
  have hrun : Run s' u ↔ Run s u := by simp [Run, hfst, hrdy]
  have hnm : NoM s' u ↔ NoM s u := by simp [NoM, hmq, hmr]
  have hnc : NoC s u → NoC s' u := by simp only [NoC, hcr]; exact fun h => ⟨fun h' => h.1 (hcq h'), h.2⟩
  have hmst : MSt s' u ↔ MSt s u := by simp [MSt, hmq, hmr]
  have hfm : FM s' u ↔ FM s u := by simp [FM, hmf, hmst, hnm]
  have hk : ∀ k, KOk v' u k ↔ KOk v u k := by intro k; cases k <;> simp [KOk, hph]
  have hhit : Hit s v u → Hit s' v' u := by
    simp only [Hit, hsat, hph]
    rintro ⟨h1, h2 | h2⟩
    · exact ⟨h1, .inl h2⟩
    · exact ⟨h1, .inr ⟨fun h => h2.1 (hcq h), h2.2⟩⟩
  have hcst : CSt s v u → CSt s' v' u := by
    rintro (⟨h1, h2, h3, h4⟩ | ⟨h1, h2⟩)
    · exact .inl ⟨by rw [hsat]; exact h1, hcq' h2 h1, by rw [hcr]; exact h3, by rw [hph]; exact h4⟩
    · exact .inr ⟨hhit h1, by rw [hcr]; exact h2⟩
  have hdone : CDone s v u → CDone s' v' u := fun h => ⟨hhit h.1, by rw [hcr]; exact h.2⟩
  have hpst : s.fib u = false → ∀ st, PSt s v u st → PSt s' v' u st := by
    intro hf st; simp only [PSt, hcqf hf, hcr, hcf, hph]; exact id
  have hpe : s.fib u = false → PEarly s v u → PEarly s' v' u := by
    intro hf; simp only [PEarly, hcqf hf, hcr, hcf, hph]; exact id
  have hu : ∀ x, UOk s v u x → UOk s' v' u x := by
    intro x; cases x with
    | user => simp only [UOk, hph]; exact fun h => ⟨hnc h.1, h.2⟩
    | wait timed g st =>
      simp only [UOk, hfib]
      cases hf : s.fib u
      · simp only [Bool.false_eq_true, if_false]; exact fun h => ⟨h.1, hpst hf st h.2⟩
      · simp only [if_true]; exact hcst
  have hr : ∀ x, ROk s v u x → ROk s' v' u x := by
    intro x; cases x with
    | unlock x p => simp only [ROk, hfib]; exact fun h => ⟨hu x h.1, h.2⟩
    | one b => simp only [ROk, hph]; exact fun h => ⟨hnc h.1, h.2⟩
    | all b => simp only [ROk, hph]; exact fun h => ⟨hnc h.1, h.2⟩
  unfold Ok at *
  rw [hpc]
  unfold OkAt at *
  cases hp : s.pc u with
  | parked w => cases w <;> grind [NoC]
  | susp w => cases w <;> grind [NoC]
  | swap w => cases w <;> grind [NoC]
  | fwait w st => cases w <;> grind [NoC]
  | fasleep w st => cases w <;> grind [NoC]
  | fcheck w st => cases w <;> grind [NoC]
  | res g r w => cases g <;> grind [SOk]
  | ul x => grind [Pc.ow]
  | _ => grind [NoC]

end Verif.Fiber.Sync
