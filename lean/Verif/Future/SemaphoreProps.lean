import Verif.Future.SemaphoreLemmas
/-!
# C25, C39, C40: the asynchronous semaphore
-/

namespace Verif.Future.Sem

theorem inv_run (u : Nat) (as : List Act) : Inv u (run (init u) [] as).1 (run (init u) [] as).2 :=
  (Inv.init u).run as

/-- **C25.** Never more units are handed out than there were and have been deposited (no 64-bit overflow of the
deposits); between calls, until `Broke`, the rest is available. -/
theorem C25_units_conserved (u : Nat) (as : List Act) (hu : u + deposited (run (init u) [] as).2 < 2 ^ 64) :
    handedOut (run (init u) [] as).2 ≤ u + deposited (run (init u) [] as).2 ∧
    ((run (init u) [] as).1.stack = [] → .broke ∉ (run (init u) [] as).2 →
      available (run (init u) [] as).1 + handedOut (run (init u) [] as).2 =
        u + deposited (run (init u) [] as).2) := by
  have h := inv_run u as
  have h1 := h.units_le hu
  refine ⟨by omega, fun hs hb => ?_⟩
  have hb' : (run (init u) [] as).1.broken = false := by
    cases e : (run (init u) [] as).1.broken with
    | false => rfl
    | true => exact absurd (h.said.1 e) hb
  have := h1.2 hb'
  rw [hs] at this
  simpa [available, readyOf] using this

/-- Without the bound on the deposits `count_` wraps and units are lost. -/
example : available (run (init 1) [] [.signal (2 ^ 64 - 1)]).1 = 0 := by decide +kernel

/-- **C25.** Waiters are served in order of arrival, each at most once. -/
theorem C25_fifo (u : Nat) (as : List Act) :
    served (run (init u) [] as).2 <+: arrivals (run (init u) [] as).2 ∧
    (arrivals (run (init u) [] as).2).map Entry.id = List.range (arrivals (run (init u) [] as).2).length := by
  have h := inv_run u as
  refine ⟨⟨_, by rw [← h.order]; simp only [List.append_assoc]; rfl⟩, ?_⟩
  have := h.ids
  rw [this]
  congr 1
  have := congrArg List.length this
  simpa using this.symm

theorem mayProceed_rest {s : St} {n : Nat} (h : mayProceed s n = true) : rest s = [] := by
  simp [mayProceed] at h
  simp [rest, h.2]

/-- **C25.** A request made outside callbacks is granted at once only if everybody who came before has been
answered. -/
theorem C25_no_overtaking (u : Nat) (as : List Act) (a : Act) (n : Nat)
    (hs : (run (init u) [] as).1.stack = [])
    (hg : .granted n ∈ (step (run (init u) [] as).1 a).2 ∨ .tried n true ∈ (step (run (init u) [] as).1 a).2) :
    AllAnswered (run (init u) [] as).2 := by
  have h := inv_run u as
  generalize run (init u) [] as = r at *
  have hp : ∃ n, mayProceed r.1 n = true := by
    unfold step at hg
    split at hg
    · simp at hg
    · cases a with
      | wait m =>
        simp only [wait] at hg
        split at hg
        · next e => exact ⟨m, e⟩
        · split at hg <;> simp at hg
      | tryWait m =>
        simp only [tryWait] at hg
        split at hg
        · next e => exact ⟨m, e⟩
        · simp at hg
      | signal m =>
        simp only [signal] at hg
        split at hg
        · simp at hg
        · split at hg
          · simp at hg
          · unfold serve at hg; split at hg <;> simp at hg
      | broke => simp only [broke, fail] at hg; split at hg <;> (try split at hg) <;> (try split at hg) <;> simp at hg
      | ret => simp only [ret, hs] at hg; simp at hg
  obtain ⟨m, hp⟩ := hp
  have := h.order
  rw [hs, mayProceed_rest hp] at this
  simpa [AllAnswered, readyOf] using this

/-- A request made inside a callback is granted only if everybody who came before has been answered or has had the
units set aside; its future may be ready first. -/
theorem C25_no_overtaking_inside (u : Nat) (as : List Act) (n : Nat)
    (hg : .granted n ∈ (step (run (init u) [] as).1 (.wait n)).2) :
    served (run (init u) [] as).2 ++ readyOf (run (init u) [] as).1.stack ++ failed (run (init u) [] as).2 =
      arrivals (run (init u) [] as).2 := by
  have h := inv_run u as
  generalize run (init u) [] as = r at *
  have hp : mayProceed r.1 n = true := by
    unfold step at hg
    split at hg
    · simp at hg
    · simp only [wait] at hg
      split at hg
      · assumption
      · split at hg <;> simp at hg
  have := h.order
  rw [mayProceed_rest hp] at this
  simpa using this

/-! ### Wake-ups -/

/-- The first waiter asks for more than there is. -/
def Blocked (s : St) : Prop := ∀ e ∈ s.waiting.head?, s.count < e.num

theorem serve_blocked {s : St} (r : List Entry) (h : Blocked s) : Blocked (serve s r).1 := by
  cases r <;> exact h

theorem readyOf_nil {fs : List Frame} (h : ∀ r, .sig r ∈ fs → r = []) : readyOf fs = [] := by
  induction fs with
  | nil => rfl
  | cons f fs ih =>
    cases f with
    | sig r => simp [readyOf, h r (by simp), ih (fun r hr => h r (by simp [hr]))]
    | brk => simpa [readyOf] using ih (fun r hr => h r (by simp [hr]))

theorem blocked_step {u : Nat} {s : St} {tr : List Ev} (hi : Inv u s tr) (h : s.broken = false → Blocked s) (a : Act)
    (ha : (∃ n, a = .signal n) → ∀ r, .sig r ∈ s.stack → r = []) :
    (step s a).1.broken = false → Blocked (step s a).1 := by
  unfold step
  split
  · exact h
  · cases a with
    | wait n =>
      simp only [wait]
      split
      · next hp => intro hb e he; simp [mayProceed] at hp; simp [hp.2] at he
      · next hp =>
        split
        · exact h
        · intro hb e he
          simp only [List.head?_append, Option.mem_def, Option.or_eq_some_iff, List.head?_cons] at he
          rcases he with he | ⟨he, hn⟩
          · exact h hb e he
          · simp only [Option.some.injEq] at hn
            subst hn
            simp only [List.head?_eq_none_iff] at he
            simp [mayProceed, he] at hp
            exact hp
    | tryWait n =>
      simp only [tryWait]
      split
      · next hp => intro hb e he; simp [mayProceed] at hp; simp [hp.2] at he
      · exact h
    | signal n =>
      simp only [signal]
      split
      · next hb => intro hb'; simp [hb] at hb'
      · have hd : s.doing = 0 := by rw [hi.doing, readyOf_nil (ha ⟨n, rfl⟩)]; rfl
        rw [if_neg (by simp [hd])]
        intro _
        exact serve_blocked _ (scan_eq _ _).2.2
    | broke =>
      simp only [broke, fail]
      split <;> (try split) <;> (try split) <;> simp
    | ret =>
      simp only [ret]
      split
      · exact h
      · next r fs e =>
        intro hb
        refine serve_blocked _ (h ?_)
        cases r <;> exact hb
      · split
        · exact h
        · next fs e _ x w hw =>
          have hb : s.broken = true := by
            cases hb : s.broken with
            | true => rfl
            | false => exact absurd (by simp [e]) (hi.clean hb).2.2
          simp only [fail]
          split <;> (try split) <;> (try split) <;> simp [hb]

/-- **C25, C39.** If callbacks signal only at the end of a batch, the first waiter always asks for more than there
is: no wake-up is lost. -/
theorem C39_no_lost_wakeup_partial (u : Nat) (as : List Act) (h : SignalsAtEnd (init u) as)
    (hb : .broke ∉ (run (init u) [] as).2) :
    ∀ e ∈ (run (init u) [] as).1.waiting.head?, available (run (init u) [] as).1 < e.num := by
  have key : ∀ (as : List Act) (s : St) (tr : List Ev), Inv u s tr → (s.broken = false → Blocked s) →
      SignalsAtEnd s as → (run s tr as).1.broken = false → Blocked (run s tr as).1 := by
    intro as
    induction as with
    | nil => intro s tr _ h _; exact h
    | cons a as ih => intro s tr hi h ha; exact ih _ _ (hi.step a) (blocked_step hi h a ha.1) ha.2
  refine key as (init u) [] (Inv.init u) (fun _ e he => by simp [init] at he) h ?_
  cases e : (run (init u) [] as).1.broken with
  | false => rfl
  | true => exact absurd ((inv_run u as).said.1 e) hb

/-- Non-vacuity: three waiters, a callback of the last one of a batch signals. -/
example : SignalsAtEnd (init 0) [.wait 1, .wait 2, .wait 1, .signal 1, .signal 1, .signal 1, .ret, .ret] ∧
    (run (init 0) [] [.wait 1, .wait 2, .wait 1, .signal 1, .signal 1, .signal 1, .ret, .ret]).2 =
      [.queued ⟨0, 1⟩, .queued ⟨1, 2⟩, .queued ⟨2, 1⟩, .signalled 1 true, .resolved ⟨0, 1⟩, .signalled 1 true,
       .signalled 1 true, .resolved ⟨1, 2⟩] := by
  constructor
  · simp [SignalsAtEnd, step, wait, signal, ret, mayProceed, init, serve, scan]
  · decide +kernel

/-- **C39 is false.** The callback of the first of two waiters served by `Signal(2)` deposits a unit: afterwards a
unit is available, nobody is running, and the third waiter waits for one unit. -/
theorem C39_lost_wakeup :
    (run (init 0) [] [.wait 1, .wait 1, .wait 1, .signal 2, .signal 1, .ret, .ret]).1 =
      { count := 1, waiting := [⟨2, 1⟩], broken := false, doing := 0, stack := [], frontSet := false, dead := false,
        next := 3 } := by decide +kernel

/-! ### `Broke` -/

/-- **C25.** After `Broke`, requests for at least one unit and deposits fail. -/
theorem C25_after_broke (u : Nat) (as : List Act) (hb : .broke ∈ (run (init u) [] as).2) (n : Nat) :
    (0 < n → ∀ m, .granted m ∉ (step (run (init u) [] as).1 (.wait n)).2 ∧
      .tried m true ∉ (step (run (init u) [] as).1 (.tryWait n)).2) ∧
    .queued ⟨(run (init u) [] as).1.next, n⟩ ∉ (step (run (init u) [] as).1 (.wait n)).2 ∧
    .signalled n true ∉ (step (run (init u) [] as).1 (.signal n)).2 := by
  have h := inv_run u as
  generalize run (init u) [] as = r at *
  have hb := h.said.2 hb
  have hc := (h.broken hb).1
  unfold step
  refine ⟨fun hn m => ?_, ?_, ?_⟩
  · have : mayProceed r.1 n = false := by simp [mayProceed, hc]; omega
    constructor
    · split <;> simp [wait, this, hb]
    · split <;> simp [tryWait, this]
  · split
    · simp
    · simp only [wait, hb, if_true]; split <;> simp
  · split <;> simp [signal, hb]

/-- **C25.** When `Broke` and all callbacks have returned, every waiter has been answered, and those that were not
served before have failed. -/
theorem C25_broke_answers_all (u : Nat) (as : List Act) (hb : .broke ∈ (run (init u) [] as).2)
    (hs : (run (init u) [] as).1.stack = []) : AllAnswered (run (init u) [] as).2 := by
  have h := inv_run u as
  generalize run (init u) [] as = r at *
  have hb := h.said.2 hb
  have hw : r.1.waiting = [] := by
    by_cases e : r.1.waiting = []
    · exact e
    · have := ((h.broken hb).2 e).2; simp [hs] at this
  have := h.order
  rw [hs] at this
  simpa [AllAnswered, readyOf, rest, hw] using this

/-- What keeps the process alive: at most one `Broke` is active and its current waiter is first in the list. -/
structure Alive (s : St) : Prop where
  dead : s.dead = false
  one : (s.stack.filter (· == .brk)).length ≤ 1
  front : .brk ∈ s.stack → s.frontSet = true ∧ s.waiting ≠ []

theorem alive_serve {s : St} (r : List Entry) (h : Alive s) : Alive (serve s r).1 := by
  cases r with
  | nil => exact h
  | cons e r => exact ⟨h.dead, by simpa [serve, List.filter_cons] using h.one, by simpa [serve] using h.front⟩

theorem alive_step {u : Nat} {s : St} {tr : List Ev} (hi : Inv u s tr) (h : Alive s) (a : Act)
    (ha : a = .broke → .brk ∉ s.stack) : Alive (step s a).1 := by
  unfold step
  rw [h.dead]
  simp only [Bool.false_eq_true, if_false]
  have aux : ∀ (s : St) w, s.dead = false → .brk ∉ s.stack → s.frontSet = false → Alive (fail s w).1 := by
    intro s w hd hs hf
    have h0 : s.stack.filter (· == .brk) = [] := by
      rw [List.filter_eq_nil_iff]; intro x hx; simp; rintro rfl; exact hs hx
    cases w with
    | nil => exact ⟨hd, by simp [fail, h0], by simp [fail, hs]⟩
    | cons e w =>
      simp only [fail, hf, Bool.false_eq_true, if_false]
      exact ⟨hd, by simp [h0], by simp⟩
  cases a with
  | wait n =>
    simp only [wait]
    split
    · exact ⟨h.dead, h.one, h.front⟩
    · split
      · exact h
      · exact ⟨h.dead, h.one, fun hb => ⟨(h.front hb).1, by simp⟩⟩
  | tryWait n =>
    simp only [tryWait]
    split
    · exact ⟨h.dead, h.one, h.front⟩
    · exact h
  | signal n =>
    simp only [signal]
    split
    · exact h
    · next hb =>
      simp only [Bool.not_eq_true] at hb
      have hn := (hi.clean hb).2.2
      split
      · exact ⟨h.dead, h.one, h.front⟩
      · exact alive_serve _ ⟨h.dead, h.one, fun hc => absurd hc hn⟩
  | broke =>
    have hn := ha rfl
    simp only [broke]
    have hf : s.frontSet = false := by
      cases hb : s.broken with
      | false => exact (hi.clean hb).2.1
      | true =>
        cases e : s.frontSet with
        | false => rfl
        | true => exact absurd ((hi.broken hb).2 (hi.front e)).2 hn
    exact aux _ _ h.dead hn hf
  | ret =>
    simp only [ret]
    split
    · exact h
    · next r fs e =>
      refine alive_serve _ ⟨h.dead, ?_, ?_⟩
      · have := h.one; rw [e] at this; simpa [List.filter_cons] using this
      · have := h.front; rw [e] at this; simpa using this
    · next fs e =>
      split
      · next hw => exact absurd hw (h.front (by simp [e])).2
      · refine aux _ _ h.dead ?_ rfl
        have := h.one
        rw [e] at this
        simp [List.length_eq_zero_iff] at this
        exact fun hx => this _ hx rfl

/-- **C25, C40.** If `Broke` is not called from a callback run by `Broke`, nothing crashes. -/
theorem C40_no_crash_partial (u : Nat) (as : List Act) (h : BrokeNotNested (init u) as) :
    (run (init u) [] as).1.dead = false := by
  have key : ∀ (as : List Act) (s : St) (tr : List Ev), Inv u s tr → Alive s → BrokeNotNested s as →
      Alive (run s tr as).1 := by
    intro as
    induction as with
    | nil => intro s tr _ h _; exact h
    | cons a as ih => intro s tr hi h ha; exact ih _ _ (hi.step a) (alive_step hi h a ha.1) ha.2
  exact (key as (init u) [] (Inv.init u) ⟨rfl, by simp [init], by simp [init]⟩ h).dead

/-- Non-vacuity: `Broke` with two waiters, whose callbacks make further requests. -/
example : BrokeNotNested (init 1) [.wait 2, .wait 1, .broke, .wait 1, .ret, .signal 1, .ret] ∧
    (run (init 1) [] [.wait 2, .wait 1, .broke, .wait 1, .ret, .signal 1, .ret]).2 =
      [.queued ⟨0, 2⟩, .queued ⟨1, 1⟩, .broke, .rejected ⟨0, 2⟩, .refused, .rejected ⟨1, 1⟩, .signalled 1 false] := by
  constructor
  · simp [BrokeNotNested, step, wait, signal, broke, fail, ret, mayProceed, init]
  · decide +kernel

/-- **C40 is false.** `Wait(0)` succeeds after `Broke`. -/
theorem C40_wait_zero_after_broke (u : Nat) : (run (init u) [] [.broke, .wait 0]).2 = [.broke, .granted 0] := by
  simp [run, step, broke, fail, wait, mayProceed, init]

/-- **C40 is false.** A waiter whose units were set aside is served after `Broke`. -/
theorem C40_served_after_broke :
    (run (init 0) [] [.wait 1, .wait 1, .signal 2, .broke, .ret]).2 =
      [.queued ⟨0, 1⟩, .queued ⟨1, 1⟩, .signalled 2 true, .resolved ⟨0, 1⟩, .broke, .resolved ⟨1, 1⟩] := by
  decide +kernel

/-- **C40 is false.** `Broke` from the callback of a waiter failed by `Broke` crashes. -/
theorem C40_nested_broke_crashes :
    (run (init 0) [] [.wait 1, .broke, .broke, .ret]).2 =
      [.queued ⟨0, 1⟩, .broke, .rejected ⟨0, 1⟩, .broke, .crash] := by decide +kernel

end Verif.Future.Sem
