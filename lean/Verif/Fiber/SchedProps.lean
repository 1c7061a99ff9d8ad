import Verif.Fiber.SchedStep
import Verif.Fiber.SchedSpec
/-!
# Properties of the fiber scheduler
-/

namespace Verif.Fiber.Sched

theorem pushed_append (a b : List Ev) : pushed (a ++ b) = pushed a ++ pushed b := by simp [pushed]
theorem gone_append (a b : List Ev) : gone (a ++ b) = gone a ++ gone b := by simp [gone]

theorem run_append (s : St) (tr : List Ev) (as bs : List Act) :
    run s tr (as ++ bs) = run (run s tr as).1 (run s tr as).2 bs := by
  induction as generalizing s tr with
  | nil => rfl
  | cons a as ih => exact ih _ _

theorem kstep_queue (s : St) (t : Thr) (b : Bool) (k : K) :
    (kstep s t b k).1.queue = s.queue ∧ pushed (kstep s t b k).2 = [] ∧ gone (kstep s t b k).2 = [] := by
  cases k <;> simp only [kstep] <;> (repeat' split) <;> exact ⟨rfl, rfl, rfl⟩

/-- **C52.** Fibers are taken in the order they became ready, each once, and none disappears. -/
theorem C52_order (n cap : Nat) (as : List Act) :
    gone (run (init n cap) [] as).2 ++ (run (init n cap) [] as).1.queue = pushed (run (init n cap) [] as).2 := by
  suffices ∀ s tr, gone tr ++ s.queue = pushed tr → gone (run s tr as).2 ++ (run s tr as).1.queue = pushed (run s tr as).2 from
    this _ _ rfl
  induction as with
  | nil => exact fun _ _ => id
  | cons a as ih =>
    intro s tr h
    apply ih
    rw [gone_append, pushed_append, ← h]
    have kq : ∀ t b k, gone tr ++ gone (kstep s t b k).2 ++ (kstep s t b k).1.queue = gone tr ++ s.queue ++ pushed (kstep s t b k).2 := by
      intro t b k
      obtain ⟨h1, h2, h3⟩ := kstep_queue s t b k
      simp [h1, h2, h3]
    cases a with
    | push c f => simp only [step]; split <;> simp [St.toC, gone, pushed]
    | batch c fs => simp only [step]; split <;> simp [St.toC, gone, pushed]
    | stop c => simp only [step]; split <;> simp [St.toC, gone, pushed]
    | client c b =>
      simp only [step]
      split
      · exact kq _ _ _
      · unfold clientStep
        (repeat' split) <;> simp [St.toC, setK, gone, pushed, Function.comp_def]
    | worker i b =>
      simp only [step]
      split
      · split
        · exact kq _ _ _
        · unfold workerStep
          (repeat' split) <;> simp_all [St.toW, setK, gone, pushed]
      · simp [gone, pushed]
    | steal => simp only [step]; split <;> simp_all [gone, pushed]
    | spurious i => simp only [step]; split <;> simp [St.toW, gone, pushed]

theorem inv_run {s : St} (h : Inv s) (hc : CInv s) (tr : List Ev) (hf : Fine tr) (as : List Act) (ha : ∀ a, a ∈ as → Supported s.n a) :
    Inv (run s tr as).1 ∧ CInv (run s tr as).1 ∧ Fine (run s tr as).2 ∧ (run s tr as).1.n = s.n := by
  induction as generalizing s tr with
  | nil => exact ⟨h, hc, hf, rfl⟩
  | cons a as ih =>
    have h1 := h.step hc a
    have h2 := hc.step a (by have := ha a (by simp); cases a <;> exact this)
    have h3 := step_n s a
    have := ih h1.1 h2 (tr ++ (step s a).2) (by
      constructor
      · simp [hf.1, h1.2.1]
      · simp [hf.2, h1.2.2]) (by intro a' ha'; rw [h3]; exact ha a' (by simp [ha']))
    exact ⟨this.1, this.2.1, this.2.2.1, this.2.2.2.trans h3⟩

theorem reach {n cap : Nat} (h1 : 1 ≤ n) (h2 : n ≤ 64) (as : List Act) (ha : ∀ a, a ∈ as → Supported n a) :
    Inv (run (init n cap) [] as).1 ∧ CInv (run (init n cap) [] as).1 ∧ Fine (run (init n cap) [] as).2 ∧ (run (init n cap) [] as).1.n = n :=
  inv_run (init_inv n cap h1 h2) (by intro c fs h; simp [init] at h) [] ⟨by simp, by simp⟩ as ha

/-- **C52.** While a fiber is ready and the scheduler is not stopped, not everything sleeps: some worker is awake, or a thread
is in the middle of waking one. -/
theorem C52_awake {n cap : Nat} (h1 : 1 ≤ n) (h2 : n ≤ 64) (as : List Act) (ha : ∀ a, a ∈ as → Supported n a)
    (hs : (run (init n cap) [] as).1.stopped = false) (hq : (run (init n cap) [] as).1.queue ≠ []) :
    (∃ t, (run (init n cap) [] as).1.k t ≠ none) ∨
      ∃ i, i < n ∧ (run (init n cap) [] as).1.w i ≠ .asleep ∧ (run (init n cap) [] as).1.w i ≠ .exited := by
  obtain ⟨h, _, _, hn⟩ := reach (cap := cap) h1 h2 as ha
  generalize (run (init n cap) [] as).1 = s at *
  rcases h.resp hs hq with ⟨t, ht⟩ | ⟨i, hi, hu⟩
  · exact .inl ⟨t, by intro h0; rw [h0] at ht; simp [searchOf] at ht⟩
  · rw [hn] at hi
    by_cases hw : s.w i = .asleep
    · have key : (∃ t, s.k t ≠ none) := by
        unfold Up at hu
        rw [hw] at hu
        rcases hu with h' | ⟨t, h'⟩ | h'
        · simp [WPc.low] at h'
        · exact ⟨t, by intro h0; rw [h0] at h'; simp [pendOf] at h'⟩
        · rcases h.fut i hw (by simpa [WPc.need, WPc.down] using h') with ⟨t, r, h'⟩ | ⟨c, h'⟩
          · exact ⟨t, by simp [h']⟩
          · have := h.cst c i (.inr h')
            rw [hs] at this; simp at this
      exact .inl key
    · refine .inr ⟨i, hi, hw, ?_⟩
      intro he
      have := h.quits i (by rw [he]; rfl)
      rw [hs] at this; simp at this

/-- **C52.** No check fails and nothing is undefined. -/
theorem C52_safe {n cap : Nat} (h1 : 1 ≤ n) (h2 : n ≤ 64) (as : List Act) (ha : ∀ a, a ∈ as → Supported n a) :
    Ev.crash ∉ (run (init n cap) [] as).2 ∧ Ev.ub ∉ (run (init n cap) [] as).2 :=
  (reach h1 h2 as ha).2.2.1

/-! ### Stopping -/

def PInv (s : St) (tr : List Ev) : Prop :=
  ∀ i, Ev.persist i ∈ tr → s.stopped = true ∧ (if s.w i = .sub then 2 ^ 30 else 2 ^ 30 - 1) ≤ s.count i

theorem PInv.frame {s s' : St} {tr evs : List Ev} (h : PInv s tr) (hs : s.stopped = true → s'.stopped = true) (hc : ∀ i, s.count i ≤ s'.count i)
    (hw : ∀ i, s'.w i = .sub → s.w i = .sub ∨ s.stopped = false) (he : ∀ i, Ev.persist i ∉ evs) : PInv s' (tr ++ evs) := by
  intro i hi
  rw [List.mem_append] at hi
  obtain ⟨h1, h2⟩ := h i (hi.resolve_right (he i))
  refine ⟨hs h1, Int.le_trans ?_ (hc i)⟩
  by_cases e : s'.w i = .sub
  · rcases hw i e with h3 | h3
    · rw [if_pos h3] at h2; rw [if_pos e]; exact h2
    · rw [h1] at h3; simp at h3
  · rw [if_neg e]
    split at h2
    · omega
    · exact h2

theorem PInv.kstep {s : St} {tr : List Ev} (h : PInv s tr) (t : Thr) (b : Bool) (k : K) : PInv (kstep s t b k).1 (tr ++ (kstep s t b k).2) := by
  have wk : ∀ i j, (if s.w i = .asleep then upd s.w i .reload else s.w) j = .sub → s.w j = .sub ∨ s.stopped = false := by
    intro i j hj
    split at hj
    · by_cases e : j = i
      · subst e; simp at hj
      · rw [upd_ne _ _ e] at hj; exact .inl hj
    · exact .inl hj
  cases k with
  | add i r =>
    refine h.frame id ?_ (fun _ => .inl) (by simp [Sched.kstep])
    intro j
    show _ ≤ upd s.count i (s.count i + 1) j
    by_cases e : j = i
    · subst e; rw [upd_same]; omega
    · rw [upd_ne _ _ e]; exact Int.le_refl _
  | futex i r => exact h.frame id (fun _ => Int.le_refl _) (fun j hj => wk i j hj) (by simp [Sched.kstep])
  | _ =>
    simp only [Sched.kstep]
    (repeat' split) <;> exact h.frame id (fun _ => Int.le_refl _) (fun _ => .inl) (by simp)

theorem PInv.worker {s : St} {tr : List Ev} (h : PInv s tr) (i : Nat) (b : Bool) : PInv (workerStep s i b).1 (tr ++ (workerStep s i b).2) := by
  have fr : ∀ (s' : St) (p : WPc) (evs : List Ev), s'.stopped = s.stopped → s'.count = s.count → s'.w = upd s.w i p →
      (p = .sub → s.stopped = false) → (∀ i, Ev.persist i ∉ evs) → PInv s' (tr ++ evs) := by
    intro s' p evs h1 h2 h3 h4 h5
    refine h.frame (fun x => h1.trans x) (fun j => by rw [h2]; exact Int.le_refl _) ?_ h5
    intro j hj
    rw [h3] at hj
    by_cases e : j = i
    · subst e; rw [upd_same] at hj; exact .inr (h4 hj)
    · rw [upd_ne _ _ e] at hj; exact .inl hj
  have same : ∀ (s' : St) (evs : List Ev), s'.stopped = s.stopped → s'.count = s.count → s'.w = s.w → (∀ i, Ev.persist i ∉ evs) → PInv s' (tr ++ evs) := by
    intro s' evs h1 h2 h3 h5
    exact h.frame (fun x => h1.trans x) (fun j => by rw [h2]; exact Int.le_refl _) (fun j hj => by rw [h3] at hj; exact .inl hj) h5
  have hgo : ∀ g : Got, go g ≠ .sub := by intro g; cases g <;> simp [go]
  unfold workerStep
  cases hp : s.w i with
  | pop a =>
    simp only
    split
    · exact fr _ _ _ rfl rfl rfl (by cases a <;> simp [found, go]) (by simp)
    · exact fr _ _ _ rfl rfl rfl (by simp) (by simp)
  | stopChk a =>
    refine fr _ _ _ rfl rfl rfl ?_ (by simp)
    split
    · cases a <;> simp [found, go]
    · rename_i hs; intro _; simpa using hs
  | sub =>
    intro j hj
    simp only [List.append_nil] at hj
    obtain ⟨h1, h2⟩ := h j hj
    refine ⟨h1, ?_⟩
    show (if upd s.w i _ j = .sub then _ else _) ≤ upd s.count i (s.count i - 1) j
    by_cases e : j = i
    · subst e
      rw [if_pos hp] at h2
      rw [upd_same, upd_same, if_neg (by split <;> simp)]
      omega
    · rw [upd_ne _ _ e, upd_ne _ _ e]; exact h2
  | run => simp only; split; exact same _ _ rfl rfl rfl (by simp); exact fr _ _ _ rfl rfl rfl (by simp) (by simp)
  | spinLoad => exact fr _ _ _ rfl rfl rfl (by simp) (by simp)
  | spinTry r => simp only; (repeat' split) <;> exact fr _ _ _ rfl rfl rfl (by simp) (by simp)
  | spinPause =>
    simp only
    split
    · split
      · exact same _ _ rfl rfl rfl (by simp)
      · exact same _ _ rfl rfl rfl (by simp)
    · exact fr _ _ _ rfl rfl rfl (by simp) (by simp)
  | spinCheck => exact fr _ _ _ rfl rfl rfl (by split <;> simp) (by simp)
  | spinEnd g => exact fr _ _ _ rfl rfl rfl (by cases g <;> simp) (by simp)
  | pend g => exact fr _ _ _ rfl rfl rfl (by split; simp; exact fun h => absurd h (hgo _)) (by simp)
  | pendSet g => exact fr _ _ _ rfl rfl rfl (fun h => absurd h (hgo _)) (by simp)
  | steal => exact fr _ _ _ rfl rfl rfl (by split <;> simp) (by simp)
  | wait0 => exact fr _ _ _ rfl rfl rfl (by simp) (by intro i'; simp only; split <;> simp)
  | waitClr g => exact fr _ _ _ rfl rfl rfl (by simp) (by simp)
  | deferClr g => exact fr _ _ _ rfl rfl rfl (by cases g; simp; exact fun h => absurd h (hgo _)) (by simp)
  | futex => exact fr _ _ _ rfl rfl rfl (by split <;> simp) (by simp)
  | asleep => exact same _ _ rfl rfl rfl (by simp)
  | reload => exact fr _ _ _ rfl rfl rfl (by split <;> simp) (by simp)
  | chk => exact fr _ _ _ rfl rfl rfl (by simp) (by intro i'; simp only; split <;> simp)
  | exited => exact same _ _ rfl rfl rfl (by simp)

theorem PInv.client {s : St} {tr : List Ev} (hI : Inv s) (h : PInv s tr) (c : Nat) (b : Bool) : PInv (clientStep s c b).1 (tr ++ (clientStep s c b).2) := by
  have same : ∀ (s' : St) (evs : List Ev), s'.stopped = s.stopped → s'.count = s.count → s'.w = s.w → (∀ i, Ev.persist i ∉ evs) → PInv s' (tr ++ evs) := by
    intro s' evs h1 h2 h3 h5
    exact h.frame (fun x => h1.trans x) (fun j => by rw [h2]; exact Int.le_refl _) (fun j hj => by rw [h3] at hj; exact .inl hj) h5
  unfold clientStep
  cases hp : s.c c with
  | idle => exact same _ _ rfl rfl rfl (by simp)
  | push f => simp only; split <;> exact same _ _ rfl rfl rfl (by simp)
  | batch fs => simp only; split <;> exact same _ _ rfl rfl rfl (by simp)
  | stop i =>
    simp only
    split
    · intro j hj
      have hst := hI.cst c i (.inl hp)
      refine ⟨hst, ?_⟩
      show (if s.w j = .sub then _ else _) ≤ upd s.count i (2 ^ 30) j
      by_cases e : j = i
      · subst e; rw [upd_same]; split <;> omega
      · rw [upd_ne _ _ e]
        simp [e] at hj
        exact (h j hj).2
    · exact same _ _ rfl rfl rfl (by simp)
  | stopFutex i =>
    refine h.frame id (fun _ => Int.le_refl _) ?_ (by simp)
    intro j hj
    have hj : (if s.w i = .asleep then upd s.w i .reload else s.w) j = .sub := hj
    split at hj
    · by_cases e : j = i
      · subst e; simp at hj
      · rw [upd_ne _ _ e] at hj; exact .inl hj
    · exact .inl hj

theorem PInv.step {s : St} {tr : List Ev} (hI : Inv s) (h : PInv s tr) (a : Act) : PInv (step s a).1 (tr ++ (step s a).2) := by
  have same : ∀ (s' : St) (evs : List Ev), (s.stopped = true → s'.stopped = true) → s'.count = s.count → s'.w = s.w → (∀ i, Ev.persist i ∉ evs) → PInv s' (tr ++ evs) := by
    intro s' evs h1 h2 h3 h5
    exact h.frame h1 (fun j => by rw [h2]; exact Int.le_refl _) (fun j hj => by rw [h3] at hj; exact .inl hj) h5
  cases a with
  | push c f => simp only [Sched.step]; split <;> exact same _ _ id rfl rfl (by simp)
  | batch c f => simp only [Sched.step]; split <;> exact same _ _ id rfl rfl (by simp)
  | stop c =>
    simp only [Sched.step]
    split
    · exact same _ _ (fun _ => rfl) rfl rfl (by simp)
    · exact same _ _ id rfl rfl (by simp)
  | client c b => simp only [Sched.step]; split; exact h.kstep _ _ _; exact PInv.client hI h c b
  | worker i b =>
    simp only [Sched.step]
    split
    · split
      · exact h.kstep _ _ _
      · exact h.worker i b
    · exact same _ _ id rfl rfl (by simp)
  | steal => simp only [Sched.step]; split <;> exact same _ _ id rfl rfl (by simp)
  | spurious i =>
    simp only [Sched.step]
    split
    · refine h.frame id (fun _ => Int.le_refl _) ?_ (by simp)
      intro j hj
      have hj : upd s.w i .reload j = .sub := hj
      by_cases e : j = i
      · subst e; simp at hj
      · rw [upd_ne _ _ e] at hj; exact .inl hj
    · exact same _ _ id rfl rfl (by simp)

theorem pinv_run {s : St} (h : Inv s) (hc : CInv s) (tr : List Ev) (hp : PInv s tr) (as : List Act) (ha : ∀ a, a ∈ as → Supported s.n a) :
    PInv (run s tr as).1 (run s tr as).2 := by
  induction as generalizing s tr with
  | nil => exact hp
  | cons a as ih =>
    have h1 := h.step hc a
    have h2 := hc.step a (by have := ha a (by simp); cases a <;> exact this)
    have h3 := step_n s a
    exact ih h1.1 h2 (tr ++ (step s a).2) (PInv.step h hp a) (by intro a' ha'; rw [h3]; exact ha a' (by simp [ha']))

theorem Calm.no_futex {s : St} (h : Calm s) (i : Nat) : ¬ Futexing s i := by
  rintro (⟨t, r, h'⟩ | ⟨c, h'⟩)
  · rw [h.1] at h'; simp at h'
  · rw [h.2] at h'; simp at h'

theorem Calm.no_flight {s : St} (h : Calm s) (i : Nat) : ¬ Inflight s i := by
  rintro ⟨t, h'⟩
  rw [h.1] at h'; simp [pendOf] at h'

/-- **C52.** When `Stop` is over, no worker sleeps. -/
theorem C52_stop {n cap : Nat} (h1 : 1 ≤ n) (h2 : n ≤ 64) (as : List Act) (ha : ∀ a, a ∈ as → Supported n a)
    (hc : Calm (run (init n cap) [] as).1) (i : Nat) (hi : Ev.persist i ∈ (run (init n cap) [] as).2) :
    (run (init n cap) [] as).1.w i ≠ .asleep := by
  have hp := pinv_run (init_inv n cap h1 h2) (by intro c fs h; simp [init] at h) [] (by intro i hi; simp at hi) as ha i hi
  obtain ⟨h, _, _, _⟩ := reach (cap := cap) h1 h2 as ha
  intro hw
  rw [if_neg (by simp [hw])] at hp
  exact hc.no_futex i (h.fut i hw (by omega))

/-! ### Workers leave -/

/-- Left alone, worker `i` leaves `Schedule`. -/
def Leaves (s : St) (i : Nat) : Prop := ∀ tr, ∃ m, (run s tr (List.replicate m (.worker i false))).1.w i = .exited

theorem Leaves.of_step {s : St} {i : Nat} (h : Leaves (step s (.worker i false)).1 i) : Leaves s i := by
  intro tr
  obtain ⟨m, hm⟩ := h (tr ++ (step s (.worker i false)).2)
  exact ⟨m + 1, by simpa [List.replicate_succ, run] using hm⟩

structure Quit (s : St) (i : Nat) : Prop where
  st : s.stopped = true
  q : s.queue = []
  hi : i < s.n
  k : s.k (.worker i) = none

theorem Quit.move {s : St} {i : Nat} (h : Quit s i) {s' : St} (h' : workerStep s i false = (s', [])) (hl : Leaves s' i) : Leaves s i := by
  apply Leaves.of_step
  simp only [step, if_pos h.hi, h.k, h']
  exact hl

theorem leaves_exited {s : St} {i : Nat} (h : s.w i = .exited) : Leaves s i := fun _ => ⟨0, h⟩

theorem Quit.toW {s : St} {i : Nat} (h : Quit s i) (p : WPc) : Quit (s.toW i p) i := ⟨h.st, h.q, h.hi, h.k⟩

theorem leaves_main {s : St} {i : Nat} (h : Quit s i) (hw : s.w i = .run) : Leaves s i := by
  refine h.move (s' := s.toW i (.pop .main)) (by simp [workerStep, hw]) ?_
  refine (h.toW _).move (s' := (s.toW i (.pop .main)).toW i (.stopChk .main)) (by simp [workerStep, h.q, St.toW]) ?_
  refine ((h.toW _).toW _).move (s' := ((s.toW i (.pop .main)).toW i (.stopChk .main)).toW i .exited)
    (by simp [workerStep, h.st, St.toW, found, go]) ?_
  exact leaves_exited (by simp [St.toW])

theorem leaves_go {s : St} {i : Nat} (h : Quit s i) (g : Got) (hw : s.w i = go g) : Leaves s i := by
  cases g with
  | none => exact leaves_exited hw
  | some f => exact leaves_main h hw

theorem leaves_pendSet {s : St} {i : Nat} (h : Quit s i) (hw : s.w i = .pendSet none) : Leaves s i :=
  h.move (s' := { s.toW i .exited with pending := true }) (by simp [workerStep, hw, go]) (leaves_exited (by simp [St.toW]))

theorem leaves_pend {s : St} {i : Nat} (h : Quit s i) (hw : s.w i = .pend none) : Leaves s i := by
  by_cases hb : bits s.spin < 2
  · exact h.move (s' := s.toW i (.pendSet none)) (by simp [workerStep, hw, hb]) (leaves_pendSet (h.toW _) (by simp [St.toW]))
  · exact h.move (s' := s.toW i .exited) (by simp [workerStep, hw, hb, go]) (leaves_exited (by simp [St.toW]))

theorem leaves_spinEnd {s : St} {i : Nat} (h : Quit s i) (hw : s.w i = .spinEnd (some none)) : Leaves s i :=
  h.move (s' := { s.toW i (.pend none) with spin := s.spin &&& ~~~bit i }) (by simp [workerStep, hw])
    (leaves_pend ⟨h.st, h.q, h.hi, h.k⟩ (by simp [St.toW]))

theorem leaves_deferClr {s : St} {i : Nat} (h : Quit s i) {g : Got} (hw : s.w i = .deferClr (some g)) : Leaves s i :=
  h.move (s' := { s.toW i (go g) with sleep := s.sleep &&& ~~~bit i }) (by simp [workerStep, hw])
    (leaves_go ⟨h.st, h.q, h.hi, h.k⟩ g (by simp [St.toW]))

/-- The worker wakes another one on its way out. -/
structure Out (s : St) (i : Nat) (k : K) (g : Got) : Prop where
  st : s.stopped = true
  q : s.queue = []
  hi : i < s.n
  k : s.k (.worker i) = some k
  w : s.w i = .deferClr (some g)

theorem Out.move {s : St} {i : Nat} {k : K} {g : Got} (h : Out s i k g) {s' : St} {evs : List Ev} (h' : kstep s (.worker i) false k = (s', evs)) (hl : Leaves s' i) : Leaves s i := by
  apply Leaves.of_step
  simp only [step, if_pos h.hi, h.k, h']
  exact hl

theorem Out.done {s : St} {i : Nat} {k : K} {g : Got} (h : Out s i k g) {s' : St} (h1 : s'.stopped = s.stopped) (h2 : s'.queue = s.queue) (h3 : s'.n = s.n)
    (h4 : s'.w i = s.w i) : Leaves (setK s' (.worker i) none) i :=
  leaves_deferClr ⟨h1.trans h.st, h2.trans h.q, h3 ▸ h.hi, by simp [setK]⟩ (h4.trans h.w)

theorem leaves_chk {s : St} {i j : Nat} {g : Got} (h : Out s i (.chk j []) g) : Leaves s i :=
  h.move (s' := setK s (.worker i) none) rfl (h.done rfl rfl rfl rfl)

theorem leaves_futex {s : St} {i j : Nat} {g : Got} (h : Out s i (.futex j []) g) : Leaves s i := by
  refine h.move rfl (leaves_chk (j := j) (g := g) ⟨h.st, h.q, h.hi, by simp [setK], ?_⟩)
  show (if s.w j = .asleep then upd s.w j .reload else s.w) i = _
  split
  · rename_i hj
    have : i ≠ j := by rintro rfl; rw [h.w] at hj; simp at hj
    rw [upd_ne _ _ this]; exact h.w
  · exact h.w

theorem leaves_add {s : St} {i j : Nat} {g : Got} (h : Out s i (.add j []) g) : Leaves s i := by
  by_cases h0 : s.count j = 0
  · exact h.move rfl (leaves_futex (j := j) ⟨h.st, h.q, h.hi, by simp [setK, h0], h.w⟩)
  · exact h.move rfl (leaves_chk (j := j) ⟨h.st, h.q, h.hi, by simp [setK, h0], h.w⟩)

theorem leaves_deepLoad {s : St} {i : Nat} {g : Got} (h : Out s i .deepLoad g) : Leaves s i := by
  by_cases h0 : s.sleep = 0
  · refine h.move (s' := setK s (.worker i) none) (evs := []) ?_ (h.done rfl rfl rfl rfl)
    simp only [kstep, if_pos h0]
  · refine h.move (s' := setK s (.worker i) (some (.deepClaim (lowest s.sleep)))) (evs := []) ?_ ?_
    · simp only [kstep, if_neg h0, ffs_pred h0]
    · have h' : Out (setK s (.worker i) (some (.deepClaim (lowest s.sleep)))) i (.deepClaim (lowest s.sleep)) g :=
        ⟨h.st, h.q, h.hi, by simp [setK], h.w⟩
      have hb : s.sleep &&& bit (lowest s.sleep) ≠ 0 := (and_bit _ _).2 (lowest_spec h0).1
      refine h'.move (s' := setK { (setK s (.worker i) (some (.deepClaim (lowest s.sleep)))) with sleep := s.sleep &&& ~~~bit (lowest s.sleep) } (.worker i)
        (some (.add (lowest s.sleep) []))) (evs := if lowest s.sleep < s.n then [] else [.crash]) ?_ ?_
      · exact if_pos hb
      · exact leaves_add (j := lowest s.sleep) ⟨h.st, h.q, h.hi, by simp [setK], h.w⟩

theorem leaves_wakeOne {s : St} {i : Nat} {g : Got} (h : Out s i .spinLoad g) : Leaves s i := by
  by_cases h0 : s.spin = 0
  · refine h.move (s' := setK s (.worker i) (some .deepLoad)) (evs := []) ?_ ?_
    · simp only [kstep, if_pos h0]
    · exact leaves_deepLoad ⟨h.st, h.q, h.hi, by simp [setK], h.w⟩
  · refine h.move (s' := setK s (.worker i) (some (.spinClaim (lowest s.spin)))) (evs := []) ?_ ?_
    · simp only [kstep, if_neg h0, ffs_pred h0]
    · have h' : Out (setK s (.worker i) (some (.spinClaim (lowest s.spin)))) i (.spinClaim (lowest s.spin)) g :=
        ⟨h.st, h.q, h.hi, by simp [setK], h.w⟩
      have hb : s.spin &&& bit (lowest s.spin) ≠ 0 := (and_bit _ _).2 (lowest_spec h0).1
      refine h'.move (s' := setK { (setK s (.worker i) (some (.spinClaim (lowest s.spin)))) with spin := s.spin &&& ~~~bit (lowest s.spin) } (.worker i) none)
        (evs := []) ?_ ?_
      · simp only [kstep]
        rw [if_pos (by exact hb)]
        rfl
      · exact h'.done rfl rfl rfl rfl

theorem leaves_waitClr {s : St} {i : Nat} (h : Quit s i) {g : Got} (hw : s.w i = .waitClr g) : Leaves s i := by
  by_cases hb : s.sleep &&& bit i = 0
  · refine h.move (s' := setK { s.toW i (.deferClr (some g)) with sleep := s.sleep &&& ~~~bit i } (.worker i) (some .spinLoad)) ?_ ?_
    · simp only [workerStep, hw, if_pos hb]
    · exact leaves_wakeOne (g := g) ⟨h.st, h.q, h.hi, by simp [setK], by simp [setK, St.toW]⟩
  · refine h.move (s' := setK { s.toW i (.deferClr (some g)) with sleep := s.sleep &&& ~~~bit i } (.worker i) none) ?_ ?_
    · simp only [workerStep, hw, if_neg hb]
    · exact leaves_deferClr (g := g) ⟨h.st, h.q, h.hi, by simp [setK]⟩ (by simp [setK, St.toW])

theorem leaves_stopChk {s : St} {i : Nat} (h : Quit s i) {a : Site} (hw : s.w i = .stopChk a) : Leaves s i := by
  refine h.move (s' := s.toW i (found none a)) (by simp [workerStep, hw, h.st]) ?_
  cases a with
  | main => exact leaves_exited (by simp [St.toW, found, go])
  | spin => exact leaves_spinEnd (h.toW _) (by simp [St.toW, found])
  | final => exact leaves_pend (h.toW _) (by simp [St.toW, found])
  | pre => exact leaves_waitClr (g := none) (h.toW _) (by simp [St.toW, found])
  | post => exact leaves_deferClr (g := none) (h.toW _) (by simp [St.toW, found])

theorem leaves_pop {s : St} {i : Nat} (h : Quit s i) {a : Site} (hw : s.w i = .pop a) : Leaves s i :=
  h.move (s' := s.toW i (.stopChk a)) (by simp [workerStep, hw, h.q]) (leaves_stopChk (a := a) (h.toW _) (by simp [St.toW]))

theorem leaves_wait0 {s : St} {i : Nat} (h : Quit s i) (hw : s.w i = .wait0) : Leaves s i := by
  apply Leaves.of_step
  simp only [step, if_pos h.hi, h.k, workerStep, hw]
  exact leaves_pop (a := .pre) ⟨h.st, h.q, h.hi, h.k⟩ (by simp [St.toW])

theorem leaves_steal {s : St} {i : Nat} (h : Quit s i) (hw : s.w i = .steal) : Leaves s i :=
  h.move (s' := s.toW i .wait0) (by simp [workerStep, hw]) (leaves_wait0 (h.toW _) (by simp [St.toW]))

theorem leaves_chk' {s : St} {i : Nat} (h : Quit s i) (hw : s.w i = .chk) : Leaves s i := by
  apply Leaves.of_step
  simp only [step, if_pos h.hi, h.k, workerStep, hw]
  exact leaves_pop (a := .post) ⟨h.st, h.q, h.hi, h.k⟩ (by simp [St.toW])

theorem leaves_reload {s : St} {i : Nat} (h : Quit s i) (hw : s.w i = .reload) (hc : 1 ≤ s.count i) : Leaves s i :=
  h.move (s' := s.toW i .chk) (by simp only [workerStep, hw]; rw [if_neg (by omega)]) (leaves_chk' (h.toW _) (by simp [St.toW]))

theorem leaves_spinTry {s : St} {i : Nat} (h : Quit s i) (hw : s.w i = .spinTry s.spin) : Leaves s i := by
  by_cases hb : bits s.spin < 2
  · exact h.move (s' := { s.toW i (.pop .spin) with spin := s.spin ||| bit i }) (by simp [workerStep, hw, hb])
      (leaves_pop (a := .spin) ⟨h.st, h.q, h.hi, h.k⟩ (by simp [St.toW]))
  · exact h.move (s' := s.toW i .steal) (by simp [workerStep, hw, hb]) (leaves_steal (h.toW _) (by simp [St.toW]))

theorem leaves_all {s : St} {i : Nat} (h : Quit s i) (hw : s.w i ≠ .asleep) (hc : (if s.w i = .sub then 2 else 1) ≤ s.count i) : Leaves s i := by
  cases hp : s.w i with
  | pop a => exact leaves_pop h hp
  | stopChk a => exact leaves_stopChk h hp
  | run => exact leaves_main h hp
  | spinLoad => exact h.move (s' := s.toW i (.spinTry s.spin)) (by simp [workerStep, hp]) (leaves_spinTry (h.toW _) (by simp [St.toW]))
  | spinTry r =>
    by_cases hb : bits r < 2
    · by_cases hr : s.spin = r
      · exact leaves_spinTry h (by rw [hp, hr])
      · exact h.move (s' := s.toW i (.spinTry s.spin)) (by simp [workerStep, hp, hb, hr]) (leaves_spinTry (h.toW _) (by simp [St.toW]))
    · exact h.move (s' := s.toW i .steal) (by simp [workerStep, hp, hb]) (leaves_steal (h.toW _) (by simp [St.toW]))
  | spinPause =>
    refine h.move (s' := s.toW i .spinCheck) (by simp [workerStep, hp]) ?_
    have h1 := h.toW .spinCheck
    by_cases hb : s.spin &&& bit i = 0
    · refine h1.move (s' := (s.toW i .spinCheck).toW i (.spinEnd none)) (by simp only [workerStep, St.toW, upd_same]; rw [if_neg (by simp [hb])]) ?_
      refine (h1.toW _).move (s' := { ((s.toW i .spinCheck).toW i (.spinEnd none)).toW i (.pop .final) with spin := s.spin &&& ~~~bit i }) ?_ ?_
      · simp [workerStep, St.toW]
      · exact leaves_pop (a := .final) ⟨h.st, h.q, h.hi, h.k⟩ (by simp [St.toW])
    · refine h1.move (s' := (s.toW i .spinCheck).toW i (.pop .spin)) (by simp only [workerStep, St.toW, upd_same]; rw [if_pos (by exact ⟨trivial, hb⟩)]) ?_
      exact leaves_pop (a := .spin) (h1.toW _) (by simp [St.toW])
  | spinCheck =>
    by_cases hb : s.spin &&& bit i = 0
    · refine h.move (s' := s.toW i (.spinEnd none)) (by simp only [workerStep, hp]; rw [if_neg (by simp [hb])]) ?_
      refine (h.toW _).move (s' := { (s.toW i (.spinEnd none)).toW i (.pop .final) with spin := s.spin &&& ~~~bit i }) ?_ ?_
      · simp [workerStep, St.toW]
      · exact leaves_pop (a := .final) ⟨h.st, h.q, h.hi, h.k⟩ (by simp [St.toW])
    · refine h.move (s' := s.toW i (.pop .spin)) (by simp only [workerStep, hp]; rw [if_pos (by exact ⟨trivial, hb⟩)]) ?_
      exact leaves_pop (a := .spin) (h.toW _) (by simp [St.toW])
  | spinEnd g =>
    cases g with
    | none =>
      refine h.move (s' := { s.toW i (.pop .final) with spin := s.spin &&& ~~~bit i }) (by simp [workerStep, hp]) ?_
      exact leaves_pop (a := .final) ⟨h.st, h.q, h.hi, h.k⟩ (by simp [St.toW])
    | some g =>
      refine h.move (s' := { s.toW i (.pend g) with spin := s.spin &&& ~~~bit i }) (by simp [workerStep, hp]) ?_
      have h1 : Quit { s.toW i (.pend g) with spin := s.spin &&& ~~~bit i } i := ⟨h.st, h.q, h.hi, h.k⟩
      by_cases hb : bits (s.spin &&& ~~~bit i) < 2
      · refine h1.move (s' := { (s.toW i (.pend g)).toW i (.pendSet g) with spin := s.spin &&& ~~~bit i }) (by simp [workerStep, St.toW, hb]) ?_
        have h2 : Quit { (s.toW i (.pend g)).toW i (.pendSet g) with spin := s.spin &&& ~~~bit i } i := ⟨h.st, h.q, h.hi, h.k⟩
        refine h2.move (s' := { ((s.toW i (.pend g)).toW i (.pendSet g)).toW i (go g) with spin := s.spin &&& ~~~bit i, pending := true }) (by simp [workerStep, St.toW]) ?_
        exact leaves_go ⟨h.st, h.q, h.hi, h.k⟩ g (by simp [St.toW])
      · refine h1.move (s' := { (s.toW i (.pend g)).toW i (go g) with spin := s.spin &&& ~~~bit i }) (by simp [workerStep, St.toW, hb]) ?_
        exact leaves_go ⟨h.st, h.q, h.hi, h.k⟩ g (by simp [St.toW])
  | pend g =>
    by_cases hb : bits s.spin < 2
    · refine h.move (s' := s.toW i (.pendSet g)) (by simp [workerStep, hp, hb]) ?_
      refine (h.toW _).move (s' := { (s.toW i (.pendSet g)).toW i (go g) with pending := true }) (by simp [workerStep, St.toW]) ?_
      exact leaves_go ⟨h.st, h.q, h.hi, h.k⟩ g (by simp [St.toW])
    · refine h.move (s' := s.toW i (go g)) (by simp [workerStep, hp, hb]) ?_
      exact leaves_go (h.toW _) g (by simp [St.toW])
  | pendSet g =>
    refine h.move (s' := { s.toW i (go g) with pending := true }) (by simp [workerStep, hp]) ?_
    exact leaves_go ⟨h.st, h.q, h.hi, h.k⟩ g (by simp [St.toW])
  | steal => exact leaves_steal h hp
  | wait0 => exact leaves_wait0 h hp
  | waitClr g => exact leaves_waitClr h hp
  | deferClr g =>
    cases g with
    | none =>
      refine h.move (s' := { s.toW i .wait0 with sleep := s.sleep &&& ~~~bit i }) (by simp [workerStep, hp]) ?_
      exact leaves_wait0 ⟨h.st, h.q, h.hi, h.k⟩ (by simp [St.toW])
    | some g =>
      refine h.move (s' := { s.toW i (go g) with sleep := s.sleep &&& ~~~bit i }) (by simp [workerStep, hp]) ?_
      exact leaves_go ⟨h.st, h.q, h.hi, h.k⟩ g (by simp [St.toW])
  | sub =>
    rw [if_pos hp] at hc
    refine h.move (s' := { s.toW i .chk with count := upd s.count i (s.count i - 1) }) (by simp only [workerStep, hp]; rw [if_neg (by omega)]) ?_
    exact leaves_chk' ⟨h.st, h.q, h.hi, h.k⟩ (by simp [St.toW])
  | futex =>
    rw [if_neg (by simp [hp])] at hc
    refine h.move (s' := s.toW i .reload) (by simp only [workerStep, hp]; rw [if_neg (by omega)]) ?_
    exact leaves_reload (h.toW _) (by simp [St.toW]) hc
  | asleep => exact absurd hp hw
  | reload => exact leaves_reload h hp (by rw [if_neg (by simp [hp])] at hc; exact hc)
  | chk => exact leaves_chk' h hp
  | exited => exact leaves_exited hp

/-- **C52.** When `Stop` is over and the run queue is empty, every worker that gets time to run leaves. -/
theorem C52_leaves {n cap : Nat} (h1 : 1 ≤ n) (h2 : n ≤ 64) (as : List Act) (ha : ∀ a, a ∈ as → Supported n a)
    (hc : Calm (run (init n cap) [] as).1) (hq : (run (init n cap) [] as).1.queue = [])
    (i : Nat) (hn : i < n) (hi : Ev.persist i ∈ (run (init n cap) [] as).2) :
    ∃ m, (run (init n cap) [] (as ++ List.replicate m (.worker i false))).1.w i = .exited := by
  have hp := pinv_run (init_inv n cap h1 h2) (by intro c fs h; simp [init] at h) [] (by intro i hi; simp at hi) as ha i hi
  obtain ⟨h, _, _, hn'⟩ := reach (cap := cap) h1 h2 as ha
  have hw := C52_stop h1 h2 as ha hc i hi
  have := leaves_all (s := (run (init n cap) [] as).1) (i := i) ⟨hp.1, hq, by rw [hn']; exact hn, hc.1 _⟩ hw (by
    refine Int.le_trans ?_ hp.2
    split <;> omega) (run (init n cap) [] as).2
  obtain ⟨m, hm⟩ := this
  exact ⟨m, by rw [run_append]; exact hm⟩

/-! ### Examples and counterexamples -/

/-- The thread that does an action. -/
def who : Act → Option Thr
  | .push c _ | .batch c _ | .stop c | .client c _ => some (.client c)
  | .worker i _ => some (.worker i)
  | _ => none

theorem kstep_other {s : St} {t t' : Thr} {b : Bool} {k : K} (h : t' ≠ t) : (kstep s t b k).1.k t' = s.k t' := by
  cases k <;> simp only [kstep] <;> (repeat' split) <;> simp [setK, h]

theorem step_other {s : St} {a : Act} {t : Thr} (h : who a ≠ some t) :
    (step s a).1.k t = s.k t ∧ ∀ c, t = .client c → (step s a).1.c c = s.c c := by
  cases a with
  | push c f =>
    have h : Thr.client c ≠ t := by simpa [who] using h
    simp only [step]; split
    · exact ⟨rfl, fun c' hc => upd_ne _ _ (by rintro rfl; exact h hc.symm)⟩
    · exact ⟨rfl, fun _ _ => rfl⟩
  | batch c f =>
    have h : Thr.client c ≠ t := by simpa [who] using h
    simp only [step]; split
    · exact ⟨rfl, fun c' hc => upd_ne _ _ (by rintro rfl; exact h hc.symm)⟩
    · exact ⟨rfl, fun _ _ => rfl⟩
  | stop c =>
    have h : Thr.client c ≠ t := by simpa [who] using h
    simp only [step]; split
    · exact ⟨rfl, fun c' hc => upd_ne _ _ (by rintro rfl; exact h hc.symm)⟩
    · exact ⟨rfl, fun _ _ => rfl⟩
  | client c b =>
    have h : t ≠ Thr.client c := by intro e; exact h (by simp [who, e])
    have hu : ∀ (p : CPc) c', t = .client c' → upd s.c c p c' = s.c c' := fun p c' hc => upd_ne _ _ (by rintro rfl; exact h hc)
    simp only [step]; split
    · exact ⟨kstep_other h, fun c' _ => by rw [(kstep_same _ _ _ _).1]⟩
    · unfold clientStep
      (repeat' split) <;> first | exact ⟨rfl, fun _ _ => rfl⟩ | exact ⟨rfl, hu _⟩ | exact ⟨if_neg h, hu _⟩
  | worker i b =>
    have h : t ≠ Thr.worker i := by intro e; exact h (by simp [who, e])
    simp only [step]; split
    · split
      · exact ⟨kstep_other h, fun c' _ => by rw [(kstep_same _ _ _ _).1]⟩
      · refine ⟨?_, fun c' _ => by rw [(workerStep_same _ _ _).1]⟩
        unfold workerStep
        (repeat' split) <;> first | rfl | exact if_neg h
    · exact ⟨rfl, fun _ _ => rfl⟩
  | steal => simp only [step]; split <;> exact ⟨rfl, fun _ _ => rfl⟩
  | spurious i => simp only [step]; split <;> exact ⟨rfl, fun _ _ => rfl⟩

theorem run_other {s : St} {tr : List Ev} {as : List Act} {t : Thr} (h : ∀ a, a ∈ as → who a ≠ some t) :
    (run s tr as).1.k t = s.k t ∧ ∀ c, t = .client c → (run s tr as).1.c c = s.c c := by
  induction as generalizing s tr with
  | nil => exact ⟨rfl, fun _ _ => rfl⟩
  | cons a as ih =>
    obtain ⟨h1, h2⟩ := ih (s := (step s a).1) (tr := tr ++ (step s a).2) (fun a' ha' => h a' (by simp [ha']))
    obtain ⟨h3, h4⟩ := step_other (s := s) (h a (by simp))
    exact ⟨h1.trans h3, fun c hc => (h2 c hc).trans (h4 c hc)⟩

/-- To check `Calm`, it is enough to look at the threads that did something. -/
theorem calm_of {s : St} {tr : List Ev} {as : List Act} (hs : Calm s) (l : List Thr) (hl : ∀ a, a ∈ as → who a ∈ l.map some)
    (hk : ∀ t, t ∈ l → (run s tr as).1.k t = none) (hc : ∀ t, t ∈ l → ∀ c, t = .client c → (run s tr as).1.c c = .idle) :
    Calm (run s tr as).1 := by
  have ne : ∀ t, t ∉ l → ∀ a, a ∈ as → who a ≠ some t := by
    intro t ht a ha e
    have := hl a ha
    rw [e] at this
    simp at this
    exact ht this
  constructor
  · intro t
    by_cases ht : t ∈ l
    · exact hk t ht
    · rw [(run_other (ne t ht)).1]; exact hs.1 t
  · intro c
    by_cases ht : Thr.client c ∈ l
    · exact hc _ ht c rfl
    · rw [(run_other (ne _ ht)).2 c rfl]; exact hs.2 c

theorem calm_init (n cap : Nat) : Calm (init n cap) := ⟨fun _ => rfl, fun _ => rfl⟩

/-- Worker `i` finds nothing and goes to sleep. -/
def toSleep (i : Nat) : List Act :=
  [.worker i false, .worker i false, .worker i false, .worker i false, .worker i false, .worker i false, .worker i false, .worker i true,
   .worker i false, .worker i false, .worker i false, .worker i false, .worker i false, .worker i false, .worker i false, .worker i false,
   .worker i false]

def clientSteps (m : Nat) : List Act := List.replicate m (.client 0 false)
def workerSteps (i m : Nat) : List Act := List.replicate m (.worker i false)

/-- Worker 1 sleeps; worker 0 looks for fibers in vain.  Fiber 7 becomes ready and wakes worker 1, but worker 0, now spinning, takes it;
worker 1 sleeps again.  Fiber 8 becomes ready: the worker claimed for it is worker 0, whose bit is still set. -/
def overtaken : List Act :=
  toSleep 1 ++ workerSteps 0 2 ++ [.push 0 7] ++ clientSteps 7 ++ workerSteps 0 3 ++ workerSteps 1 10 ++ [.push 0 8] ++ clientSteps 3 ++
    workerSteps 0 3

/-- **C53** is false of the code: a ready fiber waits for the end of another one while a worker sleeps. -/
theorem C53_waits : ∃ as, Calm (run (init 2 8) [] as).1 ∧ (run (init 2 8) [] as).1.stopped = false ∧
    (run (init 2 8) [] as).1.queue = [8] ∧ (run (init 2 8) [] as).1.w 0 = .run ∧ (run (init 2 8) [] as).1.w 1 = .asleep := by
  refine ⟨overtaken, calm_of (calm_init 2 8) [.client 0, .worker 0, .worker 1] ?_ ?_ ?_, ?_, ?_, ?_, ?_⟩
  · decide +kernel
  · decide +kernel
  · intro t ht c hc
    subst hc
    simp at ht
    subst ht
    decide +kernel
  all_goals decide +kernel

end Verif.Fiber.Sched
