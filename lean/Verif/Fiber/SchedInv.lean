import Verif.Fiber.SchedBits
/-!
# The invariant of the fiber scheduler
-/

namespace Verif.Fiber.Sched

/-- The worker's bit in `spinning_workers_` may be set. -/
def WPc.inSpin : WPc → Bool
  | .pop .spin | .stopChk .spin | .spinPause | .spinCheck | .spinEnd _ => true
  | _ => false

/-- The worker's bit in `sleeping_workers_` may be set. -/
def WPc.inWait : WPc → Bool
  | .pop .pre | .stopChk .pre | .waitClr _ | .deferClr _ | .sub | .futex | .asleep | .reload | .chk | .pop .post | .stopChk .post => true
  | _ => false

/-- The worker will not look into the run queue unless it is woken. -/
def WPc.low : WPc → Bool
  | .stopChk .pre | .sub | .futex | .asleep | .reload => true
  | _ => false

/-- The worker is in the loop of `WaitSlot::Wait`. -/
def WPc.down : WPc → Bool
  | .futex | .asleep | .reload => true
  | _ => false

/-- The worker relies on being woken. -/
def WPc.seek : WPc → Bool
  | .pop .pre => true
  | p => p.low

/-- The value of the slot's counter that lets the worker through. -/
def WPc.need (p : WPc) : Int := if p.down then 1 else 2

/-- The worker has seen that the scheduler is stopped. -/
def WPc.quits : WPc → Bool
  | .spinEnd (some none) | .pend none | .pendSet none | .waitClr none | .deferClr (some none) | .exited => true
  | _ => false

/-- The slots a thread will wake. -/
def K.pend : K → List Nat
  | .add i r => i :: r
  | .futex _ r | .chk _ r => r
  | _ => []

/-- The thread is looking for a worker to wake. -/
def K.search : K → Bool
  | .add _ _ | .futex _ _ | .chk _ _ => false
  | _ => true

def K.Ok (n : Nat) : K → Prop
  | .batch m => 2 ≤ m ∧ n ≤ 32
  | .all => n ≤ 32
  | .load m => 1 ≤ m ∧ n ≤ 32
  | .cas m was to => 1 ≤ m ∧ n ≤ 32 ∧ (∃ j, j < n ∧ to.getLsbD j = false) ∧ ∀ j, to.getLsbD j = true → was.getLsbD j = true
  | _ => True

def pendOf : Option K → List Nat
  | some k => k.pend
  | none => []

def searchOf : Option K → Bool
  | some k => k.search
  | none => false

def okOf (n : Nat) : Option K → Prop
  | some k => k.Ok n
  | none => True

/-- Somebody is going to wake slot `i`. -/
def Inflight (s : St) (i : Nat) : Prop := ∃ t, i ∈ pendOf (s.k t)

/-- Somebody is going to call `FUTEX_WAKE` for slot `i`. -/
def Futexing (s : St) (i : Nat) : Prop := (∃ t r, s.k t = some (.futex i r)) ∨ ∃ c, s.c c = .stopFutex i

def Search (s : St) : Prop := ∃ t, searchOf (s.k t) = true

/-- Worker `i` will look into the run queue. -/
def Up (s : St) (i : Nat) : Prop := (s.w i).low = false ∨ Inflight s i ∨ (s.w i).need ≤ s.count i

structure Inv (s : St) : Prop where
  n1 : 1 ≤ s.n
  n64 : s.n ≤ 64
  sb : ∀ i, s.spin.getLsbD i = true → i < s.n ∧ (s.w i).inSpin = true
  lb : ∀ i, s.sleep.getLsbD i = true → i < s.n ∧ (s.w i).inWait = true
  pos : ∀ i, 0 ≤ s.count i ∧ ((s.w i).down = false → 1 ≤ s.count i)
  find : ∀ i, (s.w i).seek = true → s.sleep.getLsbD i = true ∨ Inflight s i ∨ (s.w i).need ≤ s.count i
  fut : ∀ i, s.w i = .asleep → 1 ≤ s.count i → Futexing s i
  sp2 : bits s.spin ≤ 2
  ok : ∀ t, okOf s.n (s.k t)
  resp : s.stopped = false → s.queue ≠ [] → Search s ∨ ∃ i, i < s.n ∧ Up s i
  quits : ∀ i, (s.w i).quits = true → s.stopped = true
  cst : ∀ c i, s.c c = .stop i ∨ s.c c = .stopFutex i → s.stopped = true

theorem low_seek {p : WPc} (h : p.low = true) : p.seek = true := by
  cases p <;> simp_all [WPc.seek]
  simp [WPc.low] at h

/-- A worker whose bit is not set will look into the run queue. -/
theorem Inv.up {s : St} (h : Inv s) {i : Nat} (hb : s.sleep.getLsbD i = false) : Up s i := by
  unfold Up
  cases hl : (s.w i).low with
  | false => exact .inl rfl
  | true =>
    rcases h.find i (low_seek hl) with h1 | h1
    · rw [hb] at h1; simp at h1
    · exact .inr h1

/-- A thread moves in the wake-up functions, claiming workers. -/
theorem Inv.kmove {s : St} (h : Inv s) {t : Thr} {k : K} (hk : s.k t = some k) (spin' sleep' : BitVec 64) (k' : Option K)
    (hsp : ∀ i, spin'.getLsbD i = true → s.spin.getLsbD i = true)
    (hsl : ∀ i, sleep'.getLsbD i = true → s.sleep.getLsbD i = true)
    (hp : ∀ i, i ∈ k.pend → i ∈ pendOf k')
    (hc : ∀ i, s.sleep.getLsbD i = true → sleep'.getLsbD i = true ∨ i ∈ pendOf k')
    (hf : ∀ i r, k ≠ .futex i r) (ho : okOf s.n k')
    (hr : k.search = true → searchOf k' = true ∨ (∃ i, i < s.n ∧ (s.w i).low = false) ∨ (∃ i, i < s.n ∧ i ∈ pendOf k') ∨
      ∃ i, i < s.n ∧ sleep'.getLsbD i = false) :
    Inv (setK { s with spin := spin', sleep := sleep' } t k') := by
  have hin : ∀ i, Inflight s i → Inflight (setK { s with spin := spin', sleep := sleep' } t k') i := by
    rintro i ⟨t', h'⟩
    by_cases e : t' = t
    · subst e; rw [hk] at h'; exact ⟨t', by simp only [setK]; exact hp i h'⟩
    · exact ⟨t', by simp only [setK, if_neg e]; exact h'⟩
  have hin' : ∀ i, i ∈ pendOf k' → Inflight (setK { s with spin := spin', sleep := sleep' } t k') i := by
    intro i hi
    exact ⟨t, by simpa [setK] using hi⟩
  have hfind : ∀ i, (s.w i).seek = true → sleep'.getLsbD i = true ∨ Inflight (setK { s with spin := spin', sleep := sleep' } t k') i ∨
      (s.w i).need ≤ s.count i := by
    intro i hi
    rcases h.find i hi with h1 | h1 | h1
    · rcases hc i h1 with h2 | h2
      · exact .inl h2
      · exact .inr (.inl (hin' i h2))
    · exact .inr (.inl (hin i h1))
    · exact .inr (.inr h1)
  constructor
  case n1 => exact h.n1
  case n64 => exact h.n64
  case sb => exact fun i hi => h.sb i (hsp i hi)
  case lb => exact fun i hi => h.lb i (hsl i hi)
  case pos => exact h.pos
  case find => exact hfind
  case fut =>
    intro i hi hc
    rcases h.fut i hi hc with ⟨t', r, h'⟩ | h'
    · refine .inl ⟨t', r, ?_⟩
      have : t' ≠ t := by rintro rfl; rw [hk] at h'; injection h' with h'; exact hf i r h'
      simpa [setK, this] using h'
    · exact .inr h'
  case sp2 => exact Nat.le_trans (bits_mono hsp) h.sp2
  case ok =>
    intro t'
    by_cases e : t' = t
    · simpa [setK, e] using ho
    · simpa [setK, e] using h.ok t'
  case resp =>
    intro hs hq
    have up : ∀ i, sleep'.getLsbD i = false → Up (setK { s with spin := spin', sleep := sleep' } t k') i := by
      intro i hi
      cases hl : (s.w i).low with
      | false => exact .inl hl
      | true =>
        rcases hfind i (low_seek hl) with h1 | h1
        · rw [hi] at h1; simp at h1
        · exact .inr h1
    have fin : k.search = true → Search (setK { s with spin := spin', sleep := sleep' } t k') ∨
        ∃ i, i < s.n ∧ Up (setK { s with spin := spin', sleep := sleep' } t k') i := by
      intro hks
      rcases hr hks with h1 | ⟨i, hi, h1⟩ | ⟨i, hi, h1⟩ | ⟨i, hi, h1⟩
      · exact .inl ⟨t, by simpa [setK] using h1⟩
      · exact .inr ⟨i, hi, .inl h1⟩
      · exact .inr ⟨i, hi, .inr (.inl (hin' i h1))⟩
      · exact .inr ⟨i, hi, up i h1⟩
    rcases h.resp hs hq with ⟨t', h'⟩ | ⟨i, hi, h'⟩
    · by_cases e : t' = t
      · subst e; rw [hk] at h'; exact fin h'
      · exact .inl ⟨t', by simpa [setK, e] using h'⟩
    · right
      refine ⟨i, hi, ?_⟩
      rcases h' with h' | h' | h'
      · exact .inl h'
      · exact .inr (.inl (hin i h'))
      · exact .inr (.inr h')
  case quits => exact h.quits
  case cst => exact h.cst

/-- A worker moves. -/
theorem Inv.wmove {s : St} (h : Inv s) {i : Nat} (hi : i < s.n) (p : WPc) (spin' sleep' : BitVec 64) (c' : Int) (queue' : List Nat)
    (pend' : Bool) (k' : Option K) (hk : s.k (.worker i) = none)
    (hsp : ∀ j, j ≠ i → spin'.getLsbD j = s.spin.getLsbD j)
    (hsl : ∀ j, j ≠ i → sleep'.getLsbD j = s.sleep.getLsbD j)
    (hq : queue' ≠ [] → s.queue ≠ [])
    (hkp : pendOf k' = []) (ho : okOf s.n k') (h2 : bits spin' ≤ 2)
    (hsb : spin'.getLsbD i = true → p.inSpin = true) (hlb : sleep'.getLsbD i = true → p.inWait = true)
    (hpos : 0 ≤ c' ∧ (p.down = false → 1 ≤ c'))
    (hfind : p.seek = true → sleep'.getLsbD i = true ∨ Inflight s i ∨ p.need ≤ c')
    (hfut : p = .asleep → 1 ≤ c' → Futexing s i)
    (hqu : p.quits = true → s.stopped = true)
    (hr : queue' ≠ [] → s.stopped = false → Up s i → searchOf k' = true ∨ p.low = false ∨ Inflight s i ∨ p.need ≤ c') :
    Inv (setK { s with w := upd s.w i p, spin := spin', sleep := sleep', count := upd s.count i c', queue := queue', pending := pend' }
      (.worker i) k') := by
  generalize hs' : (setK { s with w := upd s.w i p, spin := spin', sleep := sleep', count := upd s.count i c', queue := queue', pending := pend' }
      (.worker i) k') = s'
  have ek : ∀ t, t ≠ .worker i → s'.k t = s.k t := by intro t ht; subst hs'; simp [setK, ht]
  have eki : s'.k (.worker i) = k' := by subst hs'; simp [setK]
  have hin : ∀ j, Inflight s j ↔ Inflight s' j := by
    intro j
    constructor
    · rintro ⟨t, h'⟩
      by_cases e : t = .worker i
      · subst e; rw [hk] at h'; simp [pendOf] at h'
      · exact ⟨t, by rw [ek t e]; exact h'⟩
    · rintro ⟨t, h'⟩
      by_cases e : t = .worker i
      · subst e; rw [eki, hkp] at h'; simp at h'
      · exact ⟨t, by rw [← ek t e]; exact h'⟩
  have hfu : ∀ j, Futexing s j → Futexing s' j := by
    rintro j (⟨t, r, h'⟩ | h')
    · have e : t ≠ .worker i := by rintro rfl; rw [hk] at h'; simp at h'
      exact .inl ⟨t, r, by rw [ek t e]; exact h'⟩
    · exact .inr (by subst hs'; exact h')
  have ew : ∀ j, j ≠ i → s'.w j = s.w j := by intro j hj; subst hs'; simp [setK, upd_ne _ _ hj]
  have ewi : s'.w i = p := by subst hs'; simp [setK]
  have ec : ∀ j, j ≠ i → s'.count j = s.count j := by intro j hj; subst hs'; simp [setK, upd_ne _ _ hj]
  have eci : s'.count i = c' := by subst hs'; simp [setK]
  have en : s'.n = s.n := by subst hs'; rfl
  have esp : s'.spin = spin' := by subst hs'; rfl
  have esl : s'.sleep = sleep' := by subst hs'; rfl
  have eq : s'.queue = queue' := by subst hs'; rfl
  have est : s'.stopped = s.stopped := by subst hs'; rfl
  have ecc : s'.c = s.c := by subst hs'; rfl
  constructor
  case n1 => rw [en]; exact h.n1
  case n64 => rw [en]; exact h.n64
  case sb =>
    intro j hj
    rw [esp] at hj
    rw [en]
    by_cases e : j = i
    · subst e; exact ⟨hi, by rw [ewi]; exact hsb hj⟩
    · rw [ew j e]; exact h.sb j (by rw [← hsp j e]; exact hj)
  case lb =>
    intro j hj
    rw [esl] at hj
    rw [en]
    by_cases e : j = i
    · subst e; exact ⟨hi, by rw [ewi]; exact hlb hj⟩
    · rw [ew j e]; exact h.lb j (by rw [← hsl j e]; exact hj)
  case pos =>
    intro j
    by_cases e : j = i
    · subst e; rw [ewi, eci]; exact hpos
    · rw [ew j e, ec j e]; exact h.pos j
  case find =>
    intro j hj
    rw [esl, ← hin j]
    by_cases e : j = i
    · subst e; rw [ewi] at hj ⊢; rw [eci]; exact hfind hj
    · rw [ew j e] at hj ⊢; rw [ec j e, hsl j e]; exact h.find j hj
  case fut =>
    intro j hj hc
    apply hfu
    by_cases e : j = i
    · subst e; rw [ewi] at hj; rw [eci] at hc; exact hfut hj hc
    · rw [ew j e] at hj; rw [ec j e] at hc; exact h.fut j hj hc
  case sp2 => rw [esp]; exact h2
  case ok =>
    intro t
    rw [en]
    by_cases e : t = .worker i
    · subst e; rw [eki]; exact ho
    · rw [ek t e]; exact h.ok t
  case resp =>
    intro hs hq'
    rw [eq] at hq'
    rw [est] at hs
    rcases h.resp hs (hq hq') with ⟨t, h'⟩ | ⟨j, hj, h'⟩
    · have e : t ≠ .worker i := by rintro rfl; rw [hk] at h'; simp [searchOf] at h'
      exact .inl ⟨t, by rw [ek t e]; exact h'⟩
    · rw [en]
      by_cases e : j = i
      · subst e
        rcases hr hq' hs h' with h1 | h1
        · exact .inl ⟨_, by rw [eki]; exact h1⟩
        · refine .inr ⟨j, hj, ?_⟩
          unfold Up
          rw [ewi, eci, ← hin j]; exact h1
      · refine .inr ⟨j, hj, ?_⟩
        unfold Up at h' ⊢
        rw [ew j e, ec j e, ← hin j]; exact h'
  case quits =>
    intro j hj
    rw [est]
    by_cases e : j = i
    · subst e; rw [ewi] at hj; exact hqu hj
    · rw [ew j e] at hj; exact h.quits j hj
  case cst => rw [ecc, est]; exact h.cst

end Verif.Fiber.Sched
