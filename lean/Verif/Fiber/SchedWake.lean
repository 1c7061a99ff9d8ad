import Verif.Fiber.SchedProps
/-!
# Which workers the fiber scheduler wakes
-/

namespace Verif.Fiber.Sched

/-- Left alone, thread `c` gets to a state with `P`. -/
def Solo (s : St) (c : Nat) (P : St → Prop) : Prop := ∀ tr, ∃ m, P (run s tr (List.replicate m (.client c false))).1

theorem Solo.done {s : St} {c : Nat} {P : St → Prop} (h : P s) : Solo s c P := fun _ => ⟨0, h⟩

theorem Solo.move {s : St} {c : Nat} {P : St → Prop} (h : Solo (step s (.client c false)).1 c P) : Solo s c P := by
  intro tr
  obtain ⟨m, hm⟩ := h (tr ++ (step s (.client c false)).2)
  exact ⟨m + 1, by simpa [List.replicate_succ, run] using hm⟩

theorem Solo.kmove {s : St} {c : Nat} {P : St → Prop} {k : K} (hk : s.k (.client c) = some k) {s' : St} {evs : List Ev}
    (h' : kstep s (.client c) false k = (s', evs)) (h : Solo s' c P) : Solo s c P := by
  apply Solo.move
  simp only [step, hk, h']
  exact h

/-- The thread is done, and nobody counts as sleeping. -/
def Awake (c : Nat) (s : St) : Prop := s.k (.client c) = none ∧ s.sleep = 0

theorem solo_wakeAll (c : Nat) (l : List Nat) (s : St) (hs : s.sleep = 0) (hk : s.k (.client c) = wakeAll l) : Solo s c (Awake c) := by
  induction l generalizing s with
  | nil => exact .done ⟨hk, hs⟩
  | cons i r ih =>
    have hchk : ∀ s' : St, s'.sleep = 0 → s'.k (.client c) = some (.chk i r) → Solo s' c (Awake c) := by
      intro s' h0 hk'
      exact Solo.kmove hk' rfl (ih _ h0 (by simp [setK]))
    by_cases h0 : s.count i = 0
    · refine Solo.kmove (s' := setK { s with count := upd s.count i (s.count i + 1) } (.client c) (some (.futex i r))) (evs := []) hk ?_ ?_
      · simp only [kstep, if_pos h0]
      · exact Solo.kmove (k := .futex i r) (by simp [setK]) rfl (hchk _ hs (by simp [setK]))
    · refine Solo.kmove (s' := setK { s with count := upd s.count i (s.count i + 1) } (.client c) (some (.chk i r))) (evs := []) hk ?_ ?_
      · simp only [kstep, if_neg h0]
      · exact hchk _ hs (by simp [setK])

theorem bits_pos {m : BitVec 64} (h : m ≠ 0) : 1 ≤ bits m := by
  obtain ⟨i, hi⟩ := exists_bit h
  unfold bits
  apply List.length_pos_of_mem (a := i)
  simp [hi, get_lt hi]

theorem filter_disj {l : List Nat} {p q r : Nat → Bool} (h1 : ∀ i, p i = true → r i = true ∧ q i = false) (h2 : ∀ i, q i = true → r i = true) :
    (l.filter p).length + (l.filter q).length ≤ (l.filter r).length := by
  induction l with
  | nil => simp
  | cons a l ih =>
    cases hp : p a
    · cases hq : q a
      · cases hr : r a <;> simp [hp, hq, hr] <;> omega
      · simp [hp, hq, h2 a hq]; omega
    · obtain ⟨h3, h4⟩ := h1 a hp
      simp [hp, h3, h4]; omega

theorem filter_lt (n m : Nat) : ((List.range m).filter fun i => decide (i < n)).length ≤ n := by
  induction m with
  | zero => simp
  | succ m ih =>
    rw [List.range_succ, List.filter_append, List.length_append]
    by_cases h : m < n
    · have : ((List.range m).filter fun i => decide (i < n)).length ≤ m := by
        have := List.length_filter_le (fun i => decide (i < n)) (List.range m)
        simpa using this
      simp [h]; omega
    · simp [h]; exact ih

/-- A worker does not spin and sleep at the same time. -/
theorem Inv.masks {s : St} (h : Inv s) : bits s.spin + bits s.sleep ≤ s.n := by
  refine Nat.le_trans (filter_disj (r := fun i => decide (i < s.n)) ?_ ?_) (filter_lt s.n 64)
  · intro i hi
    obtain ⟨h1, h2⟩ := h.sb i hi
    refine ⟨by simpa using h1, ?_⟩
    cases hb : s.sleep.getLsbD i with
    | false => rfl
    | true =>
      have h3 := (h.lb i hb).2
      cases hw : s.w i with
      | pop a => rw [hw] at h2 h3; cases a <;> simp [WPc.inSpin, WPc.inWait] at h2 h3
      | stopChk a => rw [hw] at h2 h3; cases a <;> simp [WPc.inSpin, WPc.inWait] at h2 h3
      | _ => rw [hw] at h2 h3; simp [WPc.inSpin, WPc.inWait] at h2 h3
  · intro i hi
    simpa using (h.lb i hi).1

theorem solo_batch {s : St} (h : Inv s) (h32 : s.n ≤ 32) {c m : Nat} (hk : s.k (.client c) = some (.batch m)) (hm : s.n ≤ m) : Solo s c (Awake c) := by
  have low : ∀ j, s.sleep.getLsbD j = true → j < s.n := fun j hj => (h.lb j hj).1
  have hmask := h.masks
  by_cases h1 : s.n ≤ m - bits s.spin
  · refine Solo.kmove (s' := setK { s with spin := 0 } (.client c) (some .all)) (evs := if m < bits s.spin then [.crash] else []) hk ?_ ?_
    · simp only [kstep, if_pos h1]
    · obtain ⟨l, hl, _⟩ := chosen_spec h32 low
      refine Solo.kmove (k := .all) (s' := setK { setK { s with spin := 0 } (.client c) (some .all) with sleep := 0 } (.client c) (wakeAll l)) (evs := []) (by simp [setK]) ?_ ?_
      · simp only [kstep]
        rw [show (setK { s with spin := 0 } (.client c) (some .all)).sleep = s.sleep from rfl,
          show (setK { s with spin := 0 } (.client c) (some .all)).n = s.n from rfl, hl]
      · exact solo_wakeAll c l _ rfl (by simp [setK])
  · by_cases h2 : 1 ≤ m - bits s.spin
    · refine Solo.kmove (s' := setK { s with spin := 0 } (.client c) (some (.load (m - bits s.spin)))) (evs := if m < bits s.spin then [.crash] else []) hk ?_ ?_
      · simp only [kstep, if_neg h1, if_pos h2]
      · by_cases h0 : s.sleep = 0
        · refine Solo.kmove (k := .load (m - bits s.spin)) (s' := setK (setK { s with spin := 0 } (.client c) (some (.load (m - bits s.spin)))) (.client c) none) (evs := [])
            (by simp [setK]) ?_ (.done ⟨by simp [setK], h0⟩)
          simp only [kstep]
          rw [if_pos (by exact h0)]
        · refine Solo.kmove (k := .load (m - bits s.spin)) (s' := setK (setK { s with spin := 0 } (.client c) (some (.load (m - bits s.spin)))) (.client c)
            (some (.cas (m - bits s.spin) s.sleep 0))) (evs := []) (by simp [setK]) ?_ ?_
          · simp only [kstep]
            rw [if_neg (by exact h0), if_pos (by show bits s.sleep ≤ _; omega)]
            rfl
          · have hl' : ∀ j, (s.sleep &&& ~~~(0 : BitVec 64)).getLsbD j = true → j < s.n := by
              intro j hj; rw [BitVec.getLsbD_and] at hj; simp only [Bool.and_eq_true] at hj; exact low j hj.1
            obtain ⟨l, hl, _⟩ := chosen_spec h32 hl'
            generalize hs1 : (setK (setK { s with spin := 0 } (.client c) (some (.load (m - bits s.spin)))) (.client c)
              (some (.cas (m - bits s.spin) s.sleep 0))) = s1
            have e1 : s1.sleep = s.sleep := by subst hs1; rfl
            have e2 : s1.n = s.n := by subst hs1; rfl
            refine Solo.kmove (s := s1) (k := .cas (m - bits s.spin) s.sleep 0) (s' := setK { s1 with sleep := 0 } (.client c) (wakeAll l)) (evs := [])
              (by subst hs1; simp [setK]) ?_ ?_
            · simp only [kstep, e1, e2, hl, and_self, if_pos]
            · exact solo_wakeAll c l _ rfl (by simp [setK])
    · refine Solo.kmove (s' := setK { s with spin := 0 } (.client c) none) (evs := if m < bits s.spin then [.crash] else []) hk ?_ ?_
      · simp only [kstep, if_neg h1, if_neg h2]
      · refine .done ⟨by simp [setK], ?_⟩
        show s.sleep = 0
        apply Classical.byContradiction
        intro h0
        have := bits_pos h0
        omega

theorem clientStep_batch {s : St} {c : Nat} {fs : List Nat} {b : Bool} (hc : s.c c = .batch fs) (hq : s.queue.length + fs.length ≤ s.cap) (h2 : 2 ≤ fs.length) :
    clientStep s c b = (setK { s.toC c .idle with queue := s.queue ++ fs } (.client c) (some (.batch fs.length)), fs.map .pushed) := by
  simp only [clientStep, hc, if_pos hq]
  rw [if_neg (by omega), if_neg (by omega)]

theorem clientStep_push {s : St} {c f : Nat} {b : Bool} (hc : s.c c = .push f) (hq : s.queue.length < s.cap) :
    clientStep s c b = (setK { s.toC c .idle with queue := s.queue ++ [f] } (.client c) (some .spinLoad), [.pushed f]) := by
  simp only [clientStep, hc, if_pos hq]

/-- The capacity of the run queue is fixed. -/
theorem run_cap (s : St) (tr : List Ev) (as : List Act) : (run s tr as).1.cap = s.cap := by
  induction as generalizing s tr with
  | nil => rfl
  | cons a as ih =>
    rw [run, ih]
    cases a <;> simp only [step, clientStep, workerStep] <;> (repeat' split) <;>
      first | rfl | (rename_i k _; cases k <;> simp only [kstep] <;> (repeat' split) <;> rfl)

/-- **C54**, in groups of at most 32 workers: `StartFibers` with at least as many fibers as there are workers wakes everybody. -/
theorem C54_all_partial {n cap : Nat} (h1 : 1 ≤ n) (h32 : n ≤ 32) (as : List Act) (hc : Calm (run (init n cap) [] as).1)
    (c : Nat) (fs : List Nat) (h2 : 2 ≤ fs.length) (hn : n ≤ fs.length) (hq : (run (init n cap) [] as).1.queue.length + fs.length ≤ cap) :
    ∃ m, Calm (run (init n cap) [] (as ++ .batch c fs :: List.replicate m (.client c false))).1 ∧
      ∀ i, (run (init n cap) [] (as ++ .batch c fs :: List.replicate m (.client c false))).1.w i ≠ .asleep := by
  have sup : ∀ as : List Act, ∀ a, a ∈ as → Supported n a := by intro as a _; cases a <;> simp [Supported, h32]
  have n64 : n ≤ 64 := by omega
  obtain ⟨hI, _, _, hn'⟩ := reach (cap := cap) h1 n64 as (sup _)
  have ecap : (run (init n cap) [] as).1.cap = cap := run_cap _ _ _
  have hrun : ∀ m, run (init n cap) [] (as ++ .batch c fs :: List.replicate m (.client c false)) =
      run (step (run (init n cap) [] as).1 (.batch c fs)).1 ((run (init n cap) [] as).2 ++ (step (run (init n cap) [] as).1 (.batch c fs)).2)
        (List.replicate m (.client c false)) := by
    intro m; rw [run_append]; rfl
  have fin : Solo (step (run (init n cap) [] as).1 (.batch c fs)).1 c fun s => Awake c s ∧ s.c c = .idle := by
    generalize hs : (run (init n cap) [] as).1 = s at *
    have e1 : (step s (.batch c fs)).1 = s.toC c (.batch fs) := by simp only [step, hc.1, hc.2, and_self, if_pos]
    rw [e1]
    apply Solo.move
    have e2 : (step (s.toC c (.batch fs)) (.client c false)).1 =
        setK { (s.toC c (.batch fs)).toC c .idle with queue := s.queue ++ fs } (.client c) (some (.batch fs.length)) := by
      have : (s.toC c (.batch fs)).k (.client c) = none := hc.1 _
      simp only [step, this]
      rw [clientStep_batch (fs := fs) (by simp [St.toC]) (by show s.queue.length + _ ≤ s.cap; omega) h2]
      rfl
    rw [e2]
    have h' : Inv (setK { (s.toC c (.batch fs)).toC c .idle with queue := s.queue ++ fs } (.client c) (some (.batch fs.length))) :=
      ((hI.cgo c (.batch fs) (by simp) (by simp [hc.2])).cgo c .idle (by simp) (by simp [St.toC])).queued c (s.queue ++ fs) (.batch fs.length) (hc.1 _)
        ⟨h2, by show s.n ≤ 32; omega⟩ rfl
    have := solo_batch h' (by show s.n ≤ 32; omega) (c := c) (m := fs.length) (by simp [setK]) (by show s.n ≤ _; omega)
    intro tr
    obtain ⟨m, hm⟩ := this tr
    refine ⟨m, hm, ?_⟩
    have idle : ∀ (m : Nat) (s : St) (tr : List Ev), s.c c = .idle → (run s tr (List.replicate m (.client c false))).1.c c = .idle := by
      intro m
      induction m with
      | zero => exact fun _ _ => id
      | succ m ih =>
        intro s tr hs
        rw [List.replicate_succ, run]
        apply ih
        simp only [step]
        split
        · rw [(kstep_same _ _ _ _).1]; exact hs
        · simp only [clientStep, hs]
    apply idle
    simp [setK, St.toC]
  obtain ⟨m, ⟨ha, ha'⟩, hci⟩ := fin ((run (init n cap) [] as).2 ++ (step (run (init n cap) [] as).1 (.batch c fs)).2)
  refine ⟨m, ?_⟩
  rw [← hrun] at ha ha' hci
  have hcalm : Calm (run (init n cap) [] (as ++ .batch c fs :: List.replicate m (.client c false))).1 := by
    rw [run_append] at ha hci ⊢
    refine calm_of hc [.client c] ?_ ?_ ?_
    · intro a ha; simp at ha; rcases ha with rfl | ⟨_, rfl⟩ <;> simp [who]
    · intro t ht; simp at ht; subst ht; exact ha
    · intro t ht c' hc'; simp at ht; subst ht; injection hc' with hc'; subst hc'; exact hci
  refine ⟨hcalm, ?_⟩
  obtain ⟨hI', _, _, _⟩ := reach (cap := cap) h1 n64 (as ++ .batch c fs :: List.replicate m (.client c false)) (sup _)
  intro i hi
  rcases hI'.find i (by rw [hi]; rfl) with h' | h' | h'
  · rw [ha'] at h'; simp at h'
  · exact hcalm.no_flight i h'
  · exact hcalm.no_futex i (hI'.fut i hi (by rw [hi] at h'; exact h'))

/-- Three workers sleep. -/
def threeAsleep : List Act := toSleep 0 ++ toSleep 1 ++ toSleep 2

/-- **C54** is false of the code: three workers sleep, `StartFibers` starts two fibers and wakes one worker. -/
theorem C54_few : Calm (run (init 3 8) [] threeAsleep).1 ∧ sleepers (run (init 3 8) [] threeAsleep).1 = 3 ∧
    (run (init 3 8) [] threeAsleep).1.queue = [] ∧
    Calm (run (init 3 8) [] (threeAsleep ++ .batch 0 [7, 8] :: clientSteps 10)).1 ∧
    (run (init 3 8) [] (threeAsleep ++ .batch 0 [7, 8] :: clientSteps 10)).1.queue = [7, 8] ∧
    sleepers (run (init 3 8) [] (threeAsleep ++ .batch 0 [7, 8] :: clientSteps 10)).1 = 2 := by
  refine ⟨calm_of (calm_init 3 8) [.worker 0, .worker 1, .worker 2] ?_ ?_ ?_, ?_, ?_,
    calm_of (calm_init 3 8) [.client 0, .worker 0, .worker 1, .worker 2] ?_ ?_ ?_, ?_, ?_⟩
  case refine_3 => intro t ht c hc; subst hc; simp at ht
  case refine_8 => intro t ht c hc; subst hc; simp at ht; subst ht; decide +kernel
  all_goals decide +kernel

/-- Worker 1 of four runs a fiber and the others sleep. -/
def oneBusy : List Act :=
  toSleep 0 ++ toSleep 2 ++ toSleep 3 ++ [.push 0 5, .client 0 false, .worker 1 false] ++ clientSteps 6 ++ workerSteps 0 10

/-- **C54** is false of the code: three workers sleep, `StartFibers` starts two fibers and wakes nobody. -/
theorem C54_none : Calm (run (init 4 8) [] oneBusy).1 ∧ sleepers (run (init 4 8) [] oneBusy).1 = 3 ∧
    (run (init 4 8) [] oneBusy).1.w 1 = .run ∧ (run (init 4 8) [] oneBusy).1.queue = [] ∧
    Calm (run (init 4 8) [] (oneBusy ++ .batch 0 [7, 8] :: clientSteps 10)).1 ∧
    (run (init 4 8) [] (oneBusy ++ .batch 0 [7, 8] :: clientSteps 10)).1.queue = [7, 8] ∧
    sleepers (run (init 4 8) [] (oneBusy ++ .batch 0 [7, 8] :: clientSteps 10)).1 = 3 := by
  refine ⟨calm_of (calm_init 4 8) [.client 0, .worker 0, .worker 1, .worker 2, .worker 3] ?_ ?_ ?_, ?_, ?_, ?_,
    calm_of (calm_init 4 8) [.client 0, .worker 0, .worker 1, .worker 2, .worker 3] ?_ ?_ ?_, ?_, ?_⟩
  case refine_3 => intro t ht c hc; subst hc; simp at ht; subst ht; decide +kernel
  case refine_9 => intro t ht c hc; subst hc; simp at ht; subst ht; decide +kernel
  all_goals decide +kernel

/-- **C54** is false of the code: in groups of more than 32 workers `StartFibers` may shift an `int` by its width or more. -/
theorem C54_undefined (n cap : Nat) (hn : 32 < n) (hc : n ≤ cap) :
    Ev.ub ∈ (run (init n cap) [] (.batch 0 (List.replicate n 7) :: clientSteps 3)).2 := by
  have h0 : bits 0#64 = 0 := bits_zero
  simp only [clientSteps, List.replicate, run, step, init, and_self, if_pos, St.toC, clientStep, upd_same, List.length_nil, List.length_replicate, Nat.zero_add]
  rw [if_pos hc, if_neg (by omega), if_neg (by omega)]
  simp [setK, kstep, h0, chosen, show ¬n ≤ 32 by omega]

theorem setK_setK (s : St) (t : Thr) (a b : Option K) : setK (setK s t a) t b = setK s t b := by
  simp only [setK, St.mk.injEq, true_and]
  exact funext fun t => by split <;> rfl

theorem setK_setK' (s : St) (t : Thr) (a b : Option K) (m : BitVec 64) : setK { setK s t a with sleep := m } t b = setK { s with sleep := m } t b := by
  simp only [setK, St.mk.injEq, true_and]
  exact funext fun t => by split <;> rfl

/-- **C53**, when no worker spins and each runs a fiber or sleeps: `StartFiber` wakes a sleeping worker, and it takes a fiber. -/
theorem C53_wakes_partial {n cap : Nat} (h1 : 1 ≤ n) (h2 : n ≤ 64) (as : List Act) (ha : ∀ a, a ∈ as → Supported n a)
    (hc : Calm (run (init n cap) [] as).1) (hw : ∀ i, i < n → (run (init n cap) [] as).1.w i = .run ∨ (run (init n cap) [] as).1.w i = .asleep)
    (i : Nat) (hia : (run (init n cap) [] as).1.w i = .asleep) (c f : Nat) (hq : (run (init n cap) [] as).1.queue.length < cap) :
    ∃ j, j < n ∧ (run (init n cap) [] as).1.w j = .asleep ∧
      (run (init n cap) [] (as ++ (.push c f :: List.replicate 7 (.client c false) ++ List.replicate 3 (.worker j false)))).2 =
        (run (init n cap) [] as).2 ++ [.pushed f, .taken j (((run (init n cap) [] as).1.queue ++ [f]).head (by simp))] := by
  obtain ⟨hI, _, _, hn'⟩ := reach (cap := cap) h1 h2 as ha
  have ecap : (run (init n cap) [] as).1.cap = cap := run_cap _ _ _
  simp only [run_append]
  generalize (run (init n cap) [] as).2 = tr
  generalize (run (init n cap) [] as).1 = s at *
  have hspin : s.spin = 0 := by
    apply Classical.byContradiction
    intro h0
    obtain ⟨j, hj⟩ := exists_bit h0
    obtain ⟨h3, h4⟩ := hI.sb j hj
    rcases hw j (by omega) with h | h <;> rw [h] at h4 <;> simp [WPc.inSpin] at h4
  have hcnt : ∀ j, s.w j = .asleep → s.count j = 0 := by
    intro j hj
    have := (hI.pos j).1
    apply Classical.byContradiction
    intro h0
    exact hc.no_futex j (hI.fut j hj (by omega))
  have hsleep : s.sleep ≠ 0 := by
    intro h0
    rcases hI.find i (by rw [hia]; rfl) with h | h | h
    · rw [h0] at h; simp at h
    · exact hc.no_flight i h
    · rw [hcnt i hia, hia] at h; simp [WPc.need, WPc.down] at h
  obtain ⟨hl, _⟩ := lowest_spec hsleep
  obtain ⟨hj, hjw⟩ := hI.lb _ hl
  have hffs := ffs_pred hsleep
  generalize lowest s.sleep = j at *
  have hja : s.w j = .asleep := by
    rcases hw j (by omega) with h | h
    · rw [h] at hjw; simp [WPc.inWait] at hjw
    · exact h
  have hj0 := hcnt j hja
  refine ⟨j, by omega, hja, ?_⟩
  have hbit : s.sleep &&& bit j ≠ 0 := (and_bit _ _).2 hl
  have hkc := hc.1 (.client c)
  have hkw := hc.1 (.worker j)
  have hcc := hc.2 c
  have st : ∀ (s : St) (k : K) (s' : St) (tr : List Ev) (as : List Act), s.k (.client c) = some k → kstep s (.client c) false k = (s', []) →
      run s tr (.client c false :: as) = run s' tr as := by
    intro s k s' tr as h1 h2
    rw [run]
    simp only [step, h1, h2, List.append_nil]
  have wst : ∀ (s s' : St) (e : List Ev) (tr : List Ev) (as : List Act), j < s.n → s.k (.worker j) = none → workerStep s j false = (s', e) →
      run s tr (.worker j false :: as) = run s' (tr ++ e) as := by
    intro s s' e tr as h1 h2 h3
    rw [run]
    simp only [step, h1, if_pos, h2, h3]
  have e1 : run s tr (.push c f :: List.replicate 7 (.client c false)) = run (s.toC c (.push f)) tr (List.replicate 7 (.client c false)) := by
    rw [run]; simp only [step, hcc, hkc, and_self, if_pos, List.append_nil]
  rw [e1]
  generalize hs2 : setK { (s.toC c (.push f)).toC c .idle with queue := s.queue ++ [f] } (.client c) (some .spinLoad) = s2
  have e2 : run (s.toC c (.push f)) tr (List.replicate 7 (.client c false)) = run s2 (tr ++ [.pushed f]) (List.replicate 6 (.client c false)) := by
    rw [List.replicate_succ, run]
    have : (s.toC c (.push f)).k (.client c) = none := hkc
    simp only [step, this]
    rw [clientStep_push (f := f) (by simp [St.toC]) (by show s.queue.length < s.cap; omega), ← hs2]
    rfl
  rw [e2]
  have f2 : s2.k (.client c) = some .spinLoad ∧ s2.spin = 0 ∧ s2.sleep = s.sleep ∧ s2.count = s.count ∧ s2.w = s.w ∧ s2.n = s.n ∧ s2.queue = s.queue ++ [f] ∧
      s2.k (.worker j) = none := by
    subst hs2; simp [setK, St.toC, hspin, hkw]
  clear hs2 e1 e2
  obtain ⟨f1, f2, f3, f4, f5, f6, f7, f8⟩ := f2
  have g1 : run s2 (tr ++ [.pushed f]) (List.replicate 6 (.client c false)) =
      run (setK s2 (.client c) (some .deepLoad)) (tr ++ [.pushed f]) (List.replicate 5 (.client c false)) :=
    st _ _ _ _ _ f1 (by simp only [kstep, if_pos f2])
  have g2 : run (setK s2 (.client c) (some .deepLoad)) (tr ++ [.pushed f]) (List.replicate 5 (.client c false)) =
      run (setK s2 (.client c) (some (.deepClaim j))) (tr ++ [.pushed f]) (List.replicate 4 (.client c false)) :=
    st _ .deepLoad _ _ _ (by simp [setK]) (by
      simp only [kstep]
      rw [show (setK s2 (.client c) (some K.deepLoad)).sleep = s.sleep from f3, if_neg hsleep, hffs]
      rw [setK_setK])
  have g3 : run (setK s2 (.client c) (some (.deepClaim j))) (tr ++ [.pushed f]) (List.replicate 4 (.client c false)) =
      run (setK { s2 with sleep := s.sleep &&& ~~~bit j } (.client c) (some (.add j []))) (tr ++ [.pushed f]) (List.replicate 3 (.client c false)) :=
    st _ (.deepClaim j) _ _ _ (by simp [setK]) (by
      simp only [kstep]
      rw [show (setK s2 (.client c) (some (.deepClaim j))).sleep = s.sleep from f3, if_pos hbit, if_pos (by show j < s2.n; omega)]
      congr 1
      exact setK_setK' _ _ _ _ _)
  have g4 : run (setK { s2 with sleep := s.sleep &&& ~~~bit j } (.client c) (some (.add j []))) (tr ++ [.pushed f]) (List.replicate 3 (.client c false)) =
      run (setK { s2 with sleep := s.sleep &&& ~~~bit j, count := upd s.count j 1 } (.client c) (some (.futex j []))) (tr ++ [.pushed f])
        (List.replicate 2 (.client c false)) :=
    st _ (.add j []) _ _ _ (by simp [setK]) (by
      simp only [kstep, setK, f4, hj0, if_pos, Prod.mk.injEq, and_true, St.mk.injEq, true_and]
      refine ⟨by simp, funext fun t => ?_⟩
      split <;> rfl)
  have g5 : run (setK { s2 with sleep := s.sleep &&& ~~~bit j, count := upd s.count j 1 } (.client c) (some (.futex j []))) (tr ++ [.pushed f])
        (List.replicate 2 (.client c false)) =
      run (setK { s2 with sleep := s.sleep &&& ~~~bit j, count := upd s.count j 1, w := upd s.w j .reload } (.client c) (some (.chk j []))) (tr ++ [.pushed f])
        (List.replicate 1 (.client c false)) :=
    st _ (.futex j []) _ _ _ (by simp [setK]) (by
      simp only [kstep, setK, f5, hja, if_pos, Prod.mk.injEq, and_true, St.mk.injEq, true_and]
      exact funext fun t => by split <;> rfl)
  have g6 : run (setK { s2 with sleep := s.sleep &&& ~~~bit j, count := upd s.count j 1, w := upd s.w j .reload } (.client c) (some (.chk j []))) (tr ++ [.pushed f])
        (List.replicate 1 (.client c false)) =
      run (setK { s2 with sleep := s.sleep &&& ~~~bit j, count := upd s.count j 1, w := upd s.w j .reload } (.client c) none) (tr ++ [.pushed f]) [] :=
    st _ (.chk j []) _ _ _ (by simp [setK]) (by
      simp only [kstep, setK, upd_same, wakeAll]
      refine Prod.ext ?_ (by simp)
      simp only [St.mk.injEq, true_and]
      exact funext fun t => by split <;> rfl)
  rw [g1, g2, g3, g4, g5, g6]
  simp only [run]
  generalize hs3 : setK { s2 with sleep := s.sleep &&& ~~~bit j, count := upd s.count j 1, w := upd s.w j .reload } (.client c) none = s3
  have f9 : s3.k (.worker j) = none ∧ s3.count j = 1 ∧ s3.w j = .reload ∧ s3.queue = s.queue ++ [f] ∧ s3.n = s.n := by
    subst hs3; simp [setK, f8, f7, f6]
  clear hs3 g1 g2 g3 g4 g5 g6
  obtain ⟨p1, p2, p3, p4, p5⟩ := f9
  have k1 : run s3 (tr ++ [.pushed f]) (List.replicate 3 (.worker j false)) = run (s3.toW j .chk) (tr ++ [.pushed f] ++ []) (List.replicate 2 (.worker j false)) :=
    wst _ _ _ _ _ (by omega) p1 (by simp [workerStep, p3, p2])
  have k2 : run (s3.toW j .chk) (tr ++ [.pushed f] ++ []) (List.replicate 2 (.worker j false)) =
      run ((s3.toW j .chk).toW j (.pop .post)) (tr ++ [.pushed f] ++ [] ++ []) (List.replicate 1 (.worker j false)) :=
    wst _ _ _ _ _ (by show j < s3.n; omega) p1 (by simp [workerStep, St.toW, p2])
  obtain ⟨x, q, hx⟩ : ∃ x q, s.queue ++ [f] = x :: q := by cases s.queue <;> simp
  have k3 : run ((s3.toW j .chk).toW j (.pop .post)) (tr ++ [.pushed f] ++ [] ++ []) (List.replicate 1 (.worker j false)) =
      run { ((s3.toW j .chk).toW j (.pop .post)).toW j (found (some x) .post) with queue := q } (tr ++ [.pushed f] ++ [] ++ [] ++ [.taken j x]) [] :=
    wst _ _ _ _ _ (by show j < s3.n; omega) p1 (by simp [workerStep, St.toW, p4, hx])
  rw [k1, k2, k3]
  simp [run, hx]

/-- Stopping a scheduler whose worker sleeps. -/
def stopIt : List Act := toSleep 0 ++ [.stop 0] ++ clientSteps 3

example : Ev.persist 0 ∈ (run (init 1 4) [] stopIt).2 ∧ (run (init 1 4) [] stopIt).1.w 0 = .reload ∧ (run (init 1 4) [] stopIt).1.queue = [] ∧
    (run (init 1 4) [] (stopIt ++ workerSteps 0 5)).1.w 0 = .exited := by decide +kernel

example : Calm (run (init 1 4) [] stopIt).1 := by
  refine calm_of (calm_init 1 4) [.client 0, .worker 0] ?_ ?_ ?_
  case refine_3 => intro t ht c hc; subst hc; simp at ht; subst ht; decide +kernel
  all_goals decide +kernel

example : ∀ a, a ∈ stopIt → Supported 1 a := by intro a _; cases a <;> simp [Supported]

/-- A fiber is ready, everybody sleeps, and the thread that made it ready is waking somebody. -/
example : (run (init 3 8) [] (threeAsleep ++ [.push 0 7] ++ clientSteps 1)).1.queue = [7] ∧
    (run (init 3 8) [] (threeAsleep ++ [.push 0 7] ++ clientSteps 1)).1.stopped = false ∧
    sleepers (run (init 3 8) [] (threeAsleep ++ [.push 0 7] ++ clientSteps 1)).1 = 3 ∧
    (run (init 3 8) [] (threeAsleep ++ [.push 0 7] ++ clientSteps 1)).1.k (.client 0) = some .spinLoad := by decide +kernel

/-- It is woken and takes the fiber. -/
example : (run (init 3 8) [] (threeAsleep ++ ([.push 0 7] ++ clientSteps 7 ++ workerSteps 0 3))).2 = [.pushed 7, .taken 0 7] := by decide +kernel

/-- As many fibers as workers: everybody is woken. -/
example : sleepers (run (init 3 8) [] (threeAsleep ++ .batch 0 [7, 8, 9] :: clientSteps 12)).1 = 0 := by decide +kernel

end Verif.Fiber.Sched
