import Verif.Fiber.SyncQuiet
/-!
# C55, C56, C57: mutex and condition variable of fibers and threads
-/

namespace Verif.Fiber.Sync

/-! ## What the specification says about a course of events -/

theorem Lk.split {l l' : Lk} {a b : List Ev} (h : l.replay (a ++ b) = some l') : ∃ m, l.replay a = some m ∧ m.replay b = some l' := by
  rw [Lk.replay_append] at h
  cases hm : l.replay a with
  | none => rw [hm] at h; simp at h
  | some m => rw [hm] at h; exact ⟨m, rfl, h⟩

theorem Lk.uncons {l l' : Lk} {e : Ev} {b : List Ev} (h : l.replay (e :: b) = some l') : ∃ m, l.next e = some m ∧ m.replay b = some l' := by
  simp only [Lk.replay] at h
  cases hm : l.next e with
  | none => rw [hm] at h; simp at h
  | some m => rw [hm] at h; exact ⟨m, rfl, h⟩

theorem Cv.split {v v' : Cv} {a b : List Ev} (h : v.replay (a ++ b) = some v') : ∃ m, v.replay a = some m ∧ m.replay b = some v' := by
  rw [Cv.replay_append] at h
  cases hm : v.replay a with
  | none => rw [hm] at h; simp at h
  | some m => rw [hm] at h; exact ⟨m, rfl, h⟩

theorem Cv.uncons {v v' : Cv} {e : Ev} {b : List Ev} (h : v.replay (e :: b) = some v') : ∃ m, v.next e = some m ∧ m.replay b = some v' := by
  simp only [Cv.replay] at h
  cases hm : v.next e with
  | none => rw [hm] at h; simp at h
  | some m => rw [hm] at h; exact ⟨m, rfl, h⟩

theorem Lk.keeps {l l' : Lk} {t : Nat} {tr : List Ev} (h : l.replay tr = some l') (ho : l.owner = some t) (hn : .rel t ∉ tr) :
    l'.owner = some t := by
  induction tr generalizing l with
  | nil => simp only [Lk.replay] at h; exact (Option.some.inj h) ▸ ho
  | cons e tr ih =>
    obtain ⟨m, h1, h2⟩ := Lk.uncons h
    simp only [List.mem_cons, not_or] at hn
    refine ih h2 ?_ hn.2
    cases e with
    | rel u =>
      have hut : u ≠ t := fun he => hn.1 (by rw [he])
      simp [Lk.next, ho] at h1
      exact absurd h1.1.symm hut
    | acq u => simp [Lk.next, ho] at h1
    | _ => simp only [Lk.next] at h1; (try split at h1) <;> simp at h1 <;> (rw [← h1]; exact ho)

/-- `t` is in the queue, and `u` is not before it. -/
def Before (t u : Nat) (q : List Nat) : Prop := ∃ x y, q = x ++ t :: y ∧ u ∉ x

theorem Before.of_mem {t u : Nat} {q : List Nat} (h : t ∈ q) (hu : u ∉ q) : Before t u q := by
  obtain ⟨x, y, rfl⟩ := List.append_of_mem h
  exact ⟨x, y, rfl, fun h1 => hu (List.mem_append_left _ h1)⟩

theorem Before.self {t : Nat} {q : List Nat} (h : t ∈ q) : Before t t q := by
  obtain ⟨x, y, he, hx⟩ := List.eq_append_cons_of_mem h
  exact ⟨x, y, he, hx⟩

theorem Before.mem {t u : Nat} {q : List Nat} : Before t u q → t ∈ q := by
  rintro ⟨x, y, rfl, -⟩; simp

theorem Before.push {t u : Nat} {q : List Nat} (h : Before t u q) (w : Nat) : Before t u (q ++ [w]) := by
  obtain ⟨x, y, rfl, hu⟩ := h
  exact ⟨x, y ++ [w], by simp, hu⟩

theorem Before.pop {t u w : Nat} {q : List Nat} (h : Before t u (w :: q)) (hw : w ≠ t) : Before t u q ∧ w ≠ u := by
  obtain ⟨x, y, he, hu⟩ := h
  cases x with
  | nil => simp at he; exact absurd he.1 hw
  | cons z x =>
    simp at he hu
    exact ⟨⟨x, y, he.2, hu.2⟩, by rw [he.1]; exact fun h => hu.1 h.symm⟩

theorem Before.erase {t u w : Nat} {q : List Nat} (h : Before t u q) (hw : w ≠ t) : Before t u (q.erase w) := by
  obtain ⟨x, y, rfl, hu⟩ := h
  by_cases hx : w ∈ x
  · exact ⟨x.erase w, y, by rw [List.erase_append_left _ hx], fun h1 => hu (List.mem_of_mem_erase h1)⟩
  · exact ⟨x, y.erase w, by rw [List.erase_append_right _ hx, List.erase_cons_tail (by simpa using hw.symm)], hu⟩

theorem Lk.before {l l' : Lk} {t u : Nat} {tr : List Ev} (h : l.replay tr = some l') (hb : Before t u l.queue) (hn : .acq t ∉ tr) :
    Before t u l'.queue := by
  induction tr generalizing l with
  | nil => simp only [Lk.replay] at h; exact (Option.some.inj h) ▸ hb
  | cons e tr ih =>
    obtain ⟨m, h1, h2⟩ := Lk.uncons h
    simp only [List.mem_cons, not_or] at hn
    refine ih h2 ?_ hn.2
    cases e with
    | enq w =>
      simp only [Lk.next] at h1
      split at h1
      · simp at h1; rw [← h1]; exact hb.push w
      · simp at h1
    | acq w =>
      have hwt : w ≠ t := fun he => hn.1 (by rw [he])
      simp only [Lk.next] at h1
      split at h1
      · cases hq : l.queue with
        | nil => rw [hq] at hb; exact absurd hb.mem (by simp)
        | cons z q =>
          rw [hq] at h1 hb
          simp only at h1
          split at h1
          · rename_i hz
            simp at h1; rw [← h1]; exact (hb.pop (by rw [hz]; exact hwt)).1
          · simp at h1
      · simp at h1
    | _ => simp only [Lk.next] at h1; (try split at h1) <;> simp at h1 <;> (rw [← h1]; exact hb)

theorem Cv.before {v v' : Cv} {t u : Nat} {tr : List Ev} (h : v.replay tr = some v') (hb : Before t u v.waiting)
    (hn : .noted t ∉ tr) (hn' : .tmo t ∉ tr) : Before t u v'.waiting := by
  induction tr generalizing v with
  | nil => simp only [Cv.replay] at h; exact (Option.some.inj h) ▸ hb
  | cons e tr ih =>
    obtain ⟨m, h1, h2⟩ := Cv.uncons h
    simp only [List.mem_cons, not_or] at hn hn'
    refine ih h2 ?_ hn.2 hn'.2
    cases e with
    | wait w =>
      simp only [Cv.next] at h1
      split at h1
      · simp at h1; rw [← h1]; exact hb.push w
      · simp at h1
    | noted w =>
      have hwt : w ≠ t := fun he => hn.1 (by rw [he])
      simp only [Cv.next] at h1
      cases hq : v.waiting with
      | nil => rw [hq] at hb; exact absurd hb.mem (by simp)
      | cons z q =>
        rw [hq] at h1 hb
        simp only at h1
        split at h1
        · rename_i hz
          simp at h1; rw [← h1]; exact (hb.pop (by rw [hz]; exact hwt)).1
        · simp at h1
    | tmo w =>
      have hwt : w ≠ t := fun he => hn'.1 (by rw [he])
      simp only [Cv.next] at h1
      split at h1
      · simp at h1; rw [← h1]; exact hb.erase hwt
      · simp at h1
    | back w b =>
      simp only [Cv.next] at h1
      split at h1
      · split at h1 <;> simp at h1; rw [← h1]; exact hb
      · simp at h1; rw [← h1]; exact hb
      · simp at h1
    | _ => simp only [Cv.next] at h1; (try split at h1) <;> simp at h1 <;> (rw [← h1]; exact hb)

/-- Without its time being over a wait is not timed out. -/
theorem Cv.intime {v v' : Cv} {t : Nat} {tr : List Ev} (h : v.replay tr = some v') (hp : v.ph t ≠ .timedOut) (ht : .tmo t ∉ tr) :
    v'.ph t ≠ .timedOut := by
  induction tr generalizing v with
  | nil => simp only [Cv.replay] at h; rw [← Option.some.inj h]; exact hp
  | cons e tr ih =>
    obtain ⟨m, h1, h2⟩ := Cv.uncons h
    simp only [List.mem_cons, not_or] at ht
    refine ih h2 ?_ ht.2
    cases e with
    | wait w =>
      simp only [Cv.next] at h1
      split at h1
      · simp at h1; rw [← h1]
        by_cases hwt : t = w
        · subst hwt; simp only [upd_same]; simp
        · simp only [upd_ne _ _ hwt]; exact hp
      · simp at h1
    | rel w =>
      simp only [Cv.next] at h1
      simp at h1; rw [← h1]
      show (if _ then _ else _ : Nat → Ph) t ≠ _
      split
      · by_cases hwt : t = w
        · subst hwt; simp only [upd_same]; simp
        · simp only [upd_ne _ _ hwt]; exact hp
      · exact hp
    | noted w =>
      simp only [Cv.next] at h1
      split at h1
      · simp at h1
      · split at h1
        · simp at h1; rw [← h1]
          by_cases hwt : t = w
          · subst hwt; simp only [upd_same]; simp
          · simp only [upd_ne _ _ hwt]; exact hp
        · simp at h1
    | tmo w =>
      have hwt : t ≠ w := fun he => ht.1 (by rw [he])
      simp only [Cv.next] at h1
      split at h1
      · simp at h1; rw [← h1]; simp only [upd_ne _ _ hwt]; exact hp
      · simp at h1
    | back w b =>
      have key : (upd v.ph w .no) t ≠ .timedOut := by
        by_cases hwt : t = w
        · subst hwt; simp only [upd_same]; simp
        · simp only [upd_ne _ _ hwt]; exact hp
      simp only [Cv.next] at h1
      split at h1
      · split at h1 <;> simp at h1
        rw [← h1]; exact key
      · simp at h1; rw [← h1]; exact key
      · simp at h1
    | _ => simp only [Cv.next] at h1; (try split at h1) <;> simp at h1 <;> (rw [← h1]; exact hp)

/-- Without a notification it is not notified. -/
theorem Cv.unnoted {v v' : Cv} {t : Nat} {tr : List Ev} (h : v.replay tr = some v')
    (hp : v.ph t = .entered ∨ v.ph t = .released) (hb : ∀ b, .back t b ∉ tr) (hn : .noted t ∉ tr) (ht : .tmo t ∉ tr) :
    v'.ph t = .entered ∨ v'.ph t = .released := by
  induction tr generalizing v with
  | nil => simp only [Cv.replay] at h; rw [← Option.some.inj h]; exact hp
  | cons e tr ih =>
    obtain ⟨m, h1, h2⟩ := Cv.uncons h
    have hb' : ∀ b, .back t b ∉ tr := fun b h3 => hb b (List.mem_cons_of_mem _ h3)
    simp only [List.mem_cons, not_or] at ht hn
    refine ih h2 ?_ hb' hn.2 ht.2
    cases e with
    | wait w =>
      simp only [Cv.next] at h1
      split at h1
      · simp at h1; rw [← h1]
        by_cases hwt : t = w
        · subst hwt; left; exact upd_same _ _ _
        · simp only [upd_ne _ _ hwt]; exact hp
      · simp at h1
    | rel w =>
      simp only [Cv.next] at h1
      simp at h1; rw [← h1]
      show (if _ then _ else _ : Nat → Ph) t = _ ∨ _
      split
      · by_cases hwt : t = w
        · subst hwt; right; exact upd_same _ _ _
        · simp only [upd_ne _ _ hwt]; exact hp
      · exact hp
    | noted w =>
      have hwt : t ≠ w := fun he => hn.1 (by rw [he])
      simp only [Cv.next] at h1
      split at h1
      · simp at h1
      · split at h1
        · simp at h1; rw [← h1]; simp only [upd_ne _ _ hwt]; exact hp
        · simp at h1
    | tmo w =>
      have hwt : t ≠ w := fun he => ht.1 (by rw [he])
      simp only [Cv.next] at h1
      split at h1
      · simp at h1; rw [← h1]; simp only [upd_ne _ _ hwt]; exact hp
      · simp at h1
    | back w b =>
      have hwt : t ≠ w := fun he => hb b (by rw [he]; exact List.mem_cons_self)
      simp only [Cv.next] at h1
      split at h1
      · split at h1 <;> simp at h1
        rw [← h1]; simp only [upd_ne _ _ hwt]; exact hp
      · simp at h1; rw [← h1]; simp only [upd_ne _ _ hwt]; exact hp
      · simp at h1
    | _ => simp only [Cv.next] at h1; (try split at h1) <;> simp at h1 <;> (rw [← h1]; exact hp)

/-- Who waits is in the list once, and the others are not. -/
def Cv.Ok (v : Cv) : Prop := v.waiting.Nodup ∧ ∀ t, t ∈ v.waiting → v.ph t = .entered ∨ v.ph t = .released

theorem Cv.Ok.replay {v v' : Cv} {tr : List Ev} (h : v.replay tr = some v') (ok : v.Ok) : v'.Ok := by
  induction tr generalizing v with
  | nil => simp only [Cv.replay] at h; exact (Option.some.inj h) ▸ ok
  | cons e tr ih =>
    obtain ⟨m, h1, h2⟩ := Cv.uncons h
    refine ih h2 ?_
    obtain ⟨nd, hp⟩ := ok
    cases e with
    | wait w =>
      simp only [Cv.next] at h1
      split at h1
      · rename_i hw
        simp at h1; rw [← h1]
        have hn : w ∉ v.waiting := fun h3 => by rcases hp w h3 with h4 | h4 <;> rw [hw] at h4 <;> cases h4
        refine ⟨?_, fun t ht => ?_⟩
        · simp only [List.nodup_append]
          exact ⟨nd, by simp, fun a ha b hb he => by simp at hb; subst hb; exact hn (he ▸ ha)⟩
        · by_cases hwt : t = w
          · subst hwt; left; exact upd_same _ _ _
          · simp only [List.mem_append, List.mem_singleton] at ht
            simp only [upd_ne _ _ hwt]; exact hp t (ht.resolve_right hwt)
      · simp at h1
    | rel w =>
      simp only [Cv.next] at h1
      simp at h1; rw [← h1]
      refine ⟨nd, fun t ht => ?_⟩
      show (if _ then _ else _ : Nat → Ph) t = _ ∨ _
      split
      · by_cases hwt : t = w
        · subst hwt; right; exact upd_same _ _ _
        · simp only [upd_ne _ _ hwt]; exact hp t ht
      · exact hp t ht
    | noted w =>
      simp only [Cv.next] at h1
      split at h1
      · simp at h1
      · rename_i z q hq
        split at h1
        · rename_i hz
          simp at h1; rw [← h1]
          rw [hq] at nd hp
          simp only [List.nodup_cons] at nd
          refine ⟨nd.2, fun t ht => ?_⟩
          have hwt : t ≠ w := fun he => nd.1 (by rw [hz, ← he]; exact ht)
          simp only [upd_ne _ _ hwt]; exact hp t (List.mem_cons_of_mem _ ht)
        · simp at h1
    | tmo w =>
      simp only [Cv.next] at h1
      split at h1
      · simp at h1; rw [← h1]
        refine ⟨nd.erase w, fun t ht => ?_⟩
        have h3 := (List.Nodup.mem_erase_iff nd).1 ht
        simp only [upd_ne _ _ h3.1]; exact hp t h3.2
      · simp at h1
    | back w b =>
      have key : (∀ t ∈ v.waiting, t ≠ w) → Cv.Ok { v with ph := upd v.ph w .no } := fun hn =>
        ⟨nd, fun t ht => by simp only [upd_ne _ _ (hn t ht)]; exact hp t ht⟩
      simp only [Cv.next] at h1
      split at h1
      · rename_i hw
        split at h1 <;> simp at h1
        rw [← h1]
        exact key fun t ht he => by rcases hp t ht with h4 | h4 <;> rw [he, hw] at h4 <;> cases h4
      · rename_i hw
        simp at h1; rw [← h1]
        exact key fun t ht he => by rcases hp t ht with h4 | h4 <;> rw [he, hw] at h4 <;> cases h4
      · simp at h1
    | _ => simp only [Cv.next] at h1; (try split at h1) <;> simp at h1 <;> (rw [← h1]; exact ⟨nd, hp⟩)

theorem run_fib (s : St) (tr : List Ev) (as : List Act) : (run s tr as).1.fib = s.fib := by
  induction as generalizing s tr with
  | nil => rfl
  | cons a as ih => exact (ih _ _).trans (step_fib s a)

/-! ## C55: the mutex -/

/-- The course of events of a run. -/
def trace (fib : Nat → Bool) (as : List Act) : List Ev := (run (init fib) [] as).2

theorem reach (fib : Nat → Bool) (as : List Act) (hs : ∀ a ∈ as, Supported fib a) :
    ∃ l v, lk0.replay (trace fib as) = some l ∧ cv0.replay (trace fib as) = some v ∧
      (∀ e ∈ trace fib as, e ≠ .crash ∧ e ≠ .ub) ∧ Inv (run (init fib) [] as).1 l v :=
  run_inv (init_inv fib) [] lk0 cv0 rfl rfl (by simp) as hs

/-- Whatever fibers and threads do with a mutex and a condition variable, in any interleaving: the mutex behaves as a fair mutex, no
    check of the code fails, no wait block is accessed after it is gone and no fiber is put into the run queue twice. -/
theorem C55_fair_mutex (fib : Nat → Bool) (as : List Act) (hs : ∀ a ∈ as, Supported fib a) :
    (lk0.replay (trace fib as)).isSome = true ∧ ∀ e ∈ trace fib as, e ≠ .crash ∧ e ≠ .ub := by
  obtain ⟨l, v, h1, -, h3, -⟩ := reach fib as hs
  exact ⟨by rw [h1]; rfl, h3⟩

/-- Mutual exclusion: nobody gets the mutex before the one that has it gave it up. -/
theorem C55_mutual_exclusion (fib : Nat → Bool) (as : List Act) (hs : ∀ a ∈ as, Supported fib a) (t u : Nat) (a b c : List Ev)
    (h : trace fib as = a ++ .acq t :: (b ++ .acq u :: c)) : .rel t ∈ b := by
  obtain ⟨l, v, h1, -⟩ := reach fib as hs
  rw [h] at h1
  obtain ⟨m, -, h1⟩ := Lk.split h1
  obtain ⟨m1, h2, h1⟩ := Lk.uncons h1
  obtain ⟨m2, h3, h1⟩ := Lk.split h1
  obtain ⟨m3, h4, -⟩ := Lk.uncons h1
  have ho : m1.owner = some t := by
    simp only [Lk.next] at h2
    split at h2
    · split at h2
      · simp at h2; rw [← h2]
      · split at h2 <;> simp at h2; rw [← h2]
    · simp at h2
  apply Decidable.byContradiction
  intro hn
  have h5 := Lk.keeps h3 ho hn
  simp [Lk.next, h5] at h4

/-- At most one participant is outside of a call and owns the mutex. -/
theorem C55_one_owner (fib : Nat → Bool) (as : List Act) (hs : ∀ a ∈ as, Supported fib a) (t u : Nat)
    (ht : (run (init fib) [] as).1.pc t = .own) (hu : (run (init fib) [] as).1.pc u = .own) : t = u := by
  obtain ⟨l, v, -, -, -, h⟩ := reach fib as hs
  exact (h.sole (by rw [hu]; rfl) (by rw [ht]; rfl))

/-- Fairness: who starts to wait first gets the mutex first. -/
theorem C55_fifo (fib : Nat → Bool) (as : List Act) (hs : ∀ a ∈ as, Supported fib a) (t u : Nat) (a b c d : List Ev)
    (h : trace fib as = a ++ .enq t :: (b ++ .enq u :: (c ++ .acq u :: d))) : .acq t ∈ b ++ c := by
  obtain ⟨l, v, h1, -⟩ := reach fib as hs
  rw [h] at h1
  obtain ⟨m, -, h1⟩ := Lk.split h1
  obtain ⟨m1, h2, h1⟩ := Lk.uncons h1
  obtain ⟨m2, h3, h1⟩ := Lk.split h1
  obtain ⟨m3, h4, h1⟩ := Lk.uncons h1
  obtain ⟨m4, h5, h1⟩ := Lk.split h1
  obtain ⟨m5, h6, -⟩ := Lk.uncons h1
  apply Decidable.byContradiction
  intro hn
  simp only [List.mem_append, not_or] at hn
  have q1 : t ∈ m1.queue := by
    simp only [Lk.next] at h2
    split at h2
    · simp at h2; rw [← h2]; simp
    · simp at h2
  have q2 : t ∈ m2.queue := (Lk.before h3 (Before.self q1) hn.1).mem
  have q3 : Before t u m3.queue ∧ u ≠ t := by
    simp only [Lk.next] at h4
    split at h4
    · rename_i hc
      simp at h4; rw [← h4]
      exact ⟨(Before.of_mem q2 hc.2.1).push u, fun he => hc.2.1 (he ▸ q2)⟩
    · simp at h4
  have q4 := Lk.before h5 q3.1 hn.2
  simp only [Lk.next] at h6
  split at h6
  · cases hq : m4.queue with
    | nil => rw [hq] at q4; exact absurd q4.mem (by simp)
    | cons z q =>
      rw [hq] at h6 q4
      simp only at h6
      split at h6
      · rename_i hz
        exact (q4.pop (by rw [hz]; exact q3.2)).2 hz
      · simp at h6
  · simp at h6

/-- No wake up is lost: when nothing happens any more, whoever still waits for the mutex waits for somebody who has it and is not in
    a call. -/
theorem C55_quiet (fib : Nat → Bool) (as : List Act) (hs : ∀ a ∈ as, Supported fib a) (q : Quiet (run (init fib) [] as).1) (t : Nat)
    (ho : (run (init fib) [] as).1.pc t ≠ .out) (hw : (run (init fib) [] as).1.pc t ≠ .own) :
    (∃ o, (run (init fib) [] as).1.pc o = .own) ∨
      ∃ v, cv0.replay (trace fib as) = some v ∧ (t ∈ v.waiting ∨ fib t = false ∧ v.ph t = .noted true) := by
  obtain ⟨l, v, h1, h2, -, h⟩ := reach fib as hs
  rcases h.quiet q t ho hw with ⟨-, o, -, h3⟩ | ⟨-, h3⟩
  · exact .inl ⟨o, h3⟩
  · rw [run_fib] at h3
    exact .inr ⟨v, h2, h3⟩

/-- Fibers 0 and 1 and thread 2 want the mutex: 0 gets it, 1 and 2 wait, and get it in this order. -/
def mutexRun : List Act :=
  [.call 0 .lock, .step 0 0,
   .call 1 .lock, .step 1 0, .step 1 0, .step 1 0, .step 1 0, .step 1 0, .step 1 0, .step 1 0, .step 1 0,
   .call 2 .lock, .step 2 0, .step 2 0, .step 2 0, .step 2 0, .step 2 0, .step 2 0, .step 2 0,
   .call 0 .unlock, .step 0 0, .step 0 0, .step 0 0, .step 0 0, .step 0 0, .step 0 0, .step 0 0, .step 0 0, .step 0 0, .run 1, .step 1 0,
   .call 1 .unlock, .step 1 0, .step 1 0, .step 1 0, .step 1 0, .step 1 0, .step 1 0, .step 1 0, .step 1 0, .step 2 0,
   .call 2 .unlock, .step 2 0, .step 2 0]

example : trace (fun t => decide (t < 2)) mutexRun = [.acq 0, .enq 1, .enq 2, .rel 0, .acq 1, .rel 1, .acq 2, .rel 2] := by
  decide +kernel

example : ∀ a ∈ mutexRun, Supported (fun t => decide (t < 2)) a := by
  intro a h
  simp only [mutexRun, List.mem_cons, List.not_mem_nil, or_false] at h
  rcases h with h | h | h | h | h | h | h | h | h | h | h | h | h | h | h | h | h | h | h | h | h | h | h | h | h | h | h | h | h | h | h | h |
    h | h | h | h | h | h | h | h | h | h | h | h <;> subst h <;> simp [Supported]

/-! ## C56: the condition variable -/

/-- The condition variable behaves as one: a notification goes to the longest waiting, it is lost only if nobody waits, and `wait`
    returns only after a notification or a time-out. -/
theorem C56_condition_variable (fib : Nat → Bool) (as : List Act) (hs : ∀ a ∈ as, Supported fib a) :
    (cv0.replay (trace fib as)).isSome = true := by
  obtain ⟨l, v, -, h1, -⟩ := reach fib as hs
  rw [h1]; rfl

/-- `wait` starts and returns with the mutex owned. -/
theorem C56_owns (fib : Nat → Bool) (as : List Act) (hs : ∀ a ∈ as, Supported fib a) (t : Nat) (r : Bool) (e : Ev)
    (he : e = .wait t ∨ e = .back t r) (a c : List Ev) (h : trace fib as = a ++ e :: c) :
    ∃ l, lk0.replay a = some l ∧ l.owner = some t := by
  obtain ⟨l, v, h1, -⟩ := reach fib as hs
  rw [h] at h1
  obtain ⟨m, h0, h1⟩ := Lk.split h1
  obtain ⟨m1, h2, -⟩ := Lk.uncons h1
  refine ⟨m, h0, ?_⟩
  rcases he with rfl | rfl <;> (simp [Lk.next] at h2; exact h2.1)

/-- `wait` returns only after a notification or a time-out; it returns `false` only after a time-out. -/
theorem C56_returns (fib : Nat → Bool) (as : List Act) (hs : ∀ a ∈ as, Supported fib a) (t : Nat) (r : Bool) (a b c : List Ev)
    (h : trace fib as = a ++ .wait t :: (b ++ .back t r :: c)) (hb : ∀ r, .back t r ∉ b) :
    (.noted t ∈ b ∨ .tmo t ∈ b) ∧ (r = false → .tmo t ∈ b) := by
  obtain ⟨l, v, -, h1, -⟩ := reach fib as hs
  rw [h] at h1
  obtain ⟨m, -, h1⟩ := Cv.split h1
  obtain ⟨m1, h2, h1⟩ := Cv.uncons h1
  obtain ⟨m2, h3, h1⟩ := Cv.split h1
  obtain ⟨m3, h4, -⟩ := Cv.uncons h1
  have hp : m1.ph t = .entered := by
    simp only [Cv.next] at h2
    split at h2
    · simp at h2; rw [← h2]; exact upd_same _ _ _
    · simp at h2
  constructor
  · apply Decidable.byContradiction
    intro hn
    simp only [not_or] at hn
    rcases Cv.unnoted h3 (.inl hp) hb hn.1 hn.2 with h5 | h5 <;> simp [Cv.next, h5] at h4
  · intro hr
    apply Decidable.byContradiction
    intro hn
    have h5 := Cv.intime h3 (by rw [hp]; simp) hn
    subst hr
    simp only [Cv.next] at h4
    split at h4
    · simp at h4
    · rename_i h6; exact h5 h6
    · simp at h4

/-- Notifications go to the waiting in the order in which they started to wait. -/
theorem C56_fifo (fib : Nat → Bool) (as : List Act) (hs : ∀ a ∈ as, Supported fib a) (t u : Nat) (a b c d : List Ev)
    (h : trace fib as = a ++ .wait t :: (b ++ .wait u :: (c ++ .noted u :: d))) : .noted t ∈ b ++ c ∨ .tmo t ∈ b ++ c := by
  obtain ⟨l, v, -, h1, -⟩ := reach fib as hs
  rw [h] at h1
  obtain ⟨m, h0, h1⟩ := Cv.split h1
  obtain ⟨m1, h2, h1⟩ := Cv.uncons h1
  obtain ⟨m2, h3, h1⟩ := Cv.split h1
  obtain ⟨m3, h4, h1⟩ := Cv.uncons h1
  obtain ⟨m4, h5, h1⟩ := Cv.split h1
  obtain ⟨m5, h6, -⟩ := Cv.uncons h1
  have ok : m2.Ok := by
    have h7 : cv0.replay (a ++ .wait t :: b) = some m2 := by
      rw [Cv.replay_append, h0]; simp only [Option.bind_some, Cv.replay, h2]; exact h3
    exact Cv.Ok.replay h7 ⟨by simp [cv0], by simp [cv0]⟩
  have hp : t ∈ m1.waiting := by
    simp only [Cv.next] at h2
    split at h2
    · simp at h2; rw [← h2]; simp
    · simp at h2
  apply Decidable.byContradiction
  intro hn
  simp only [List.mem_append, not_or] at hn
  have q2 : t ∈ m2.waiting := (Cv.before h3 (Before.self hp) hn.1.1 hn.2.1).mem
  have q3 : Before t u m3.waiting ∧ u ≠ t := by
    simp only [Cv.next] at h4
    split at h4
    · rename_i hc
      simp at h4; rw [← h4]
      have hu : u ∉ m2.waiting := fun h7 => by rcases ok.2 u h7 with h8 | h8 <;> rw [hc] at h8 <;> cases h8
      exact ⟨(Before.of_mem q2 hu).push u, fun he => hu (he ▸ q2)⟩
    · simp at h4
  have q4 := Cv.before h5 q3.1 hn.1.2 hn.2.2
  simp only [Cv.next] at h6
  cases hq : m4.waiting with
  | nil => rw [hq] at q4; exact absurd q4.mem (by simp)
  | cons z q =>
    rw [hq] at h6 q4
    simp only at h6
    split at h6
    · rename_i hz
      exact (q4.pop (by rw [hz]; exact q3.2)).2 hz
    · simp at h6

/-- A notification is lost only if nobody waits. -/
theorem C56_not_lost (fib : Nat → Bool) (as : List Act) (hs : ∀ a ∈ as, Supported fib a) (t : Nat) (a b c : List Ev)
    (h : trace fib as = a ++ .wait t :: (b ++ .nobody :: c)) : .noted t ∈ b ∨ .tmo t ∈ b := by
  obtain ⟨l, v, -, h1, -⟩ := reach fib as hs
  rw [h] at h1
  obtain ⟨m, -, h1⟩ := Cv.split h1
  obtain ⟨m1, h2, h1⟩ := Cv.uncons h1
  obtain ⟨m2, h3, h1⟩ := Cv.split h1
  obtain ⟨m3, h4, -⟩ := Cv.uncons h1
  have hp : t ∈ m1.waiting := by
    simp only [Cv.next] at h2
    split at h2
    · simp at h2; rw [← h2]; simp
    · simp at h2
  apply Decidable.byContradiction
  intro hn
  simp only [not_or] at hn
  have h5 := (Cv.before h3 (Before.self hp) hn.1 hn.2).mem
  simp only [Cv.next] at h4
  split at h4
  · rename_i h6; rw [h6] at h5; exact absurd h5 (by simp)
  · simp at h4

/-- No wake up is lost: when nothing happens any more, whoever is still in `wait` was not notified, or waits for the mutex that
    somebody has; or it is a thread that was notified before it gave the mutex up. -/
theorem C56_quiet (fib : Nat → Bool) (as : List Act) (hs : ∀ a ∈ as, Supported fib a) (q : Quiet (run (init fib) [] as).1)
    (hf : ∀ o, (run (init fib) [] as).1.pc o ≠ .own) (t : Nat) (ho : (run (init fib) [] as).1.pc t ≠ .out) :
    ∃ v, cv0.replay (trace fib as) = some v ∧ (t ∈ v.waiting ∨ fib t = false ∧ v.ph t = .noted true) := by
  rcases C55_quiet fib as hs q t ho (hf t) with ⟨o, h⟩ | h
  · exact absurd h (hf o)
  · exact h

/-- Fiber 0 waits with a time limit, fiber 1 without; the time of 0 is over; 2 notifies twice: 1 is notified, then nobody waits. -/
def condRun : List Act :=
  [.call 0 .lock, .step 0 0, .call 0 (.wait true), .step 0 0, .step 0 0, .step 0 0, .step 0 0, .step 0 0, .step 0 0, .step 0 0, .step 0 0,
   .call 1 .lock, .step 1 0, .call 1 (.wait false), .step 1 0, .step 1 0, .step 1 0, .step 1 0, .step 1 0, .step 1 0, .step 1 0,
   .fire 0, .timer 0, .timer 0, .timer 0, .timer 0, .timer 0, .timer 0, .timer 0, .run 0, .step 0 0, .step 0 0, .step 0 0, .step 0 0,
   .call 2 .one, .step 2 0, .step 2 0, .step 2 0, .step 2 0, .step 2 0, .run 1, .step 1 0, .step 1 0,
   .call 2 .one, .step 2 0,
   .call 0 .unlock, .step 0 0, .step 0 0]

example : trace (fun _ => true) condRun =
    [.acq 0, .wait 0, .rel 0, .acq 1, .wait 1, .rel 1, .tmo 0, .acq 0, .back 0 false, .noted 1, .nobody, .rel 0] := by
  decide +kernel

/-! ## C57: what the condition variable of a thread does not give -/

/-- A thread that is not a fiber waits with a time limit; the notification and the end of the time come together. -/
def timedRun : List Act :=
  [.call 0 .lock, .step 0 0, .call 0 (.wait true), .step 0 0, .step 0 0, .step 0 0, .step 0 0,
   .call 1 .one, .step 1 0, .step 0 2, .step 0 0, .step 0 0]

/-- `wait_until` of a thread may return, with its block, while the notifier still has to access the block (waitable.cc:390-404).  And
    it returns `false` although it used up a notification. -/
theorem C57_timed_wait_of_a_thread :
    trace (fun _ => false) timedRun = [.acq 0, .wait 0, .rel 0, .noted 0, .acq 0, .ub, .back 0 false] := by decide +kernel

/-- Thread 0 starts to wait; before it reads the state of its futex (waitable.cc:369), 1 notifies it. -/
def earlyRun : List Act :=
  [.call 0 .lock, .step 0 0, .call 0 (.wait false), .step 0 0,
   .call 1 .one, .step 1 0, .step 1 0, .step 1 0, .step 1 0,
   .step 0 0, .step 0 0, .step 0 0, .step 0 0]

theorem C57_early_notification :
    trace (fun _ => false) earlyRun = [.acq 0, .wait 0, .noted 0, .rel 0] ∧ Quiet (run (init fun _ => false) [] earlyRun).1 ∧
      (run (init fun _ => false) [] earlyRun).1.pc 0 = .fasleep (.cv false 0) 2 := by
  refine ⟨by decide +kernel, ⟨fun t => ?_, fun t => ?_, fun g => ?_⟩, by decide +kernel⟩
  · by_cases h0 : t = 0
    · subst h0; rfl
    · by_cases h1 : t = 1
      · subst h1; rfl
      · have : (run (init fun _ => false) [] earlyRun).1.pc t = .out := by
          simp [earlyRun, run, step, callStep, threadStep, init, St.to, upd, h0, h1, locked, returned, wakeOne, resumed, unlocked, word]
        unfold threadStep; rw [this]
  · have : (run (init fun _ => false) [] earlyRun).1.rdy t = false := rfl
    unfold runStep; rw [this]; rfl
  · have : (run (init fun _ => false) [] earlyRun).1.tm g = .unused := rfl
    unfold timerStep; simp only [this]

/-- What holds: neither happens to a fiber. -/
theorem C57_fibers_partial (as : List Act) (hn : ∀ t c, .call t c ∈ as → t < 2 ^ 32 - 1) :
    (∀ e ∈ trace (fun _ => true) as, e ≠ .crash ∧ e ≠ .ub) ∧
    (∀ t a b c, trace (fun _ => true) as = a ++ .wait t :: (b ++ .back t false :: c) → (∀ r, .back t r ∉ b) → .tmo t ∈ b) ∧
    (Quiet (run (init fun _ => true) [] as).1 → (∀ o, (run (init fun _ => true) [] as).1.pc o ≠ .own) → ∀ t,
      (run (init fun _ => true) [] as).1.pc t ≠ .out → ∃ v, cv0.replay (trace (fun _ => true) as) = some v ∧ t ∈ v.waiting) := by
  have hs : ∀ a ∈ as, Supported (fun _ => true) a := by
    intro a ha
    cases a with
    | call t c => exact ⟨hn t c ha, fun _ => rfl⟩
    | _ => trivial
  refine ⟨(C55_fair_mutex _ as hs).2, fun t a b c h hb => (C56_returns _ as hs t false a b c h hb).2 rfl, fun q hf t ho => ?_⟩
  obtain ⟨v, h1, h2 | h2⟩ := C56_quiet _ as hs q hf t ho
  · exact ⟨v, h1, h2⟩
  · exact absurd h2.1 (by simp)

end Verif.Fiber.Sync
