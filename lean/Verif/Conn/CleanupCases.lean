import Verif.Conn.CleanupProofs

/-! Runs of the cleanup of a fiber connection, and what goes wrong (C84). -/

namespace Verif.Conn.Cleanup

/-- The state behind the steps, or the first step that fails. -/
def State.run (keep : Bool) (s : State) : List Act → Option State
  | [] => some s
  | a :: l => match s.step keep a with
    | .ok s' => s'.run keep l
    | _ => none

theorem Reach.run {keep ext l l' s s'} (h : Reach keep ext l s) (hr : s.run keep l' = some s') : Reach keep ext (l ++ l') s' := by
  induction l' generalizing l s with
  | nil => simp [State.run] at hr; subst hr; simpa using h
  | cons a l' ih =>
    simp only [State.run] at hr
    split at hr
    · next t ht =>
      have := ih (h.step ht) hr
      simpa using this
    · cases hr

/-- A read event whose callback ends the connection; the reactor resets the counter and finds that it may clean up. -/
def exampleRun : List Act :=
  [.event .read, .start .read, .sendLock, .kill, .killSubmit, .ret .read .leaving, .next .read, .task, .reactor false, .reactor false,
   .check 0, .check 0, .sendUnlock, .task, .reactor false, .reactor false, .reactor false, .reactor false, .reactor false, .reactor false,
   .cleanStart, .cleanClose, .sendLock, .cleanEnd]

example : ((State.run false (.init 1) exampleRun).map fun s => (s.cl, s.cleanups, s.killed, s.writing, s.refs)) = some (.done, 1, true, false, 1) := by
  decide +kernel

/-- While the callback runs nothing is cleaned up. -/
example : ((State.run false (.init 1) (exampleRun.take 12)).map fun s => (s.cl, s.pending, s.events .read)) = some (.none, true, 1) := by decide +kernel

/-- The same without anyone else: the connection is destroyed with the last reference. -/
example : ((State.run false (.init 0) exampleRun).map fun s => s.refs) = some 0 := by decide +kernel

/-- In the mode where `cleanup_task` runs in a fiber of its own: the task of the reactor that reset a counter holds no reference. A fiber sees the zero
before the task does, the connection is cleaned up and destroyed, and the task goes on. -/
theorem C84_keep_running_partial : ∃ l s, Reach true 0 l s ∧ s.cl = .done ∧ s.refs = 0 ∧ s.step true (.reactor false) = .fail := by
  let l : List Act := [.event .read, .start .read, .kill, .killSubmit, .ret .read .leaving, .next .read, .task, .reactor false, .reactor false, .task,
    .check 0, .check 0, .check 0, .check 0, .check 0, .check 0, .cleanStart, .cleanClose, .cleanEnd]
  have hr : ∃ s, State.run true (.init 0) l = some s ∧ s.cl = .done ∧ s.refs = 0 ∧ s.step true (.reactor false) = .fail := ⟨_, rfl, rfl, rfl, rfl⟩
  obtain ⟨s, h1, h2⟩ := hr
  exact ⟨[] ++ l, s, Reach.init.run h1, h2⟩

/-! `WaitForCleanup` (lines 307-310) and the end of `cleanup_task` (lines 387-389), which calls `notify_one`. -/

inductive JPc where
  /-- has the mutex, before the predicate -/
  | test
  | asleep
  | returned
  deriving DecidableEq

structure Join where
  waiters : List JPc
  completed : Bool

inductive JStep : Join → Join → Prop where
  /-- the predicate, and the sleep if it is false -/
  | test {j} (k : Nat) : j.waiters[k]? = some .test →
      JStep j { j with waiters := j.waiters.set k (if j.completed then .returned else .asleep) }
  /-- one who sleeps is woken -/
  | complete {j} (k : Nat) : j.completed = false → j.waiters[k]? = some .asleep → JStep j ⟨j.waiters.set k .test, true⟩
  | completeNone {j} : j.completed = false → .asleep ∉ j.waiters → JStep j { j with completed := true }

inductive JReach (n : Nat) : Join → Prop where
  | init : JReach n ⟨.replicate n .test, false⟩
  | step {j j'} : JReach n j → JStep j j' → JReach n j'

/-- Two who wait, and the cleanup: nothing more happens, and one of them still sleeps. -/
theorem C84_join_partial : ∃ j, JReach 2 j ∧ j.completed = true ∧ (∀ j', ¬ JStep j j') ∧ .asleep ∈ j.waiters := by
  have h0 : JReach 2 ⟨[.test, .test], false⟩ := .init
  have h1 : JReach 2 ⟨[.asleep, .test], false⟩ := h0.step (.test 0 rfl)
  have h2 : JReach 2 ⟨[.asleep, .asleep], false⟩ := h1.step (.test 1 rfl)
  have h3 : JReach 2 ⟨[.test, .asleep], true⟩ := h2.step (.complete 0 rfl rfl)
  have h4 : JReach 2 ⟨[.returned, .asleep], true⟩ := h3.step (.test 0 rfl)
  refine ⟨_, h4, rfl, ?_, by simp⟩
  intro j' h
  cases h with
  | test k hk => match k, hk with
    | 0, hk => simp at hk
    | 1, hk => simp at hk
    | k + 2, hk => simp at hk
  | complete k hc => cases hc
  | completeNone hc => cases hc

/-- One who waits alone returns. -/
theorem C84_join_one {j} (h : JReach 1 j) (hc : j.completed = true) (hs : ∀ j', ¬ JStep j j') : j.waiters = [.returned] := by
  have key : ∃ p, j.waiters = [p] ∧ (j.completed = true → p ≠ .asleep) := by
    clear hc hs
    induction h with
    | init => exact ⟨.test, rfl, by simp⟩
    | step _ hst ih =>
      obtain ⟨p, h1, h2⟩ := ih
      cases hst with
      | test k hk =>
        rw [h1] at hk ⊢
        cases k with
        | zero => refine ⟨_, rfl, ?_⟩; intro hc; rw [if_pos hc]; simp
        | succ k => simp at hk
      | complete k _ hk =>
        rw [h1] at hk
        cases k with
        | zero => rw [h1]; exact ⟨_, rfl, by simp⟩
        | succ k => simp at hk
      | completeNone _ hk =>
        refine ⟨p, h1, ?_⟩
        rintro _ rfl
        exact hk (by rw [h1]; simp)
  obtain ⟨p, h1, h2⟩ := key
  cases p with
  | test => exact absurd (.test 0 (by rw [h1]; rfl)) (hs _)
  | asleep => exact absurd rfl (h2 hc)
  | returned => exact h1

example : ∃ j, JReach 1 j ∧ j.completed = true ∧ j.waiters = [.returned] := by
  have h0 : JReach 1 ⟨[.test], false⟩ := .init
  have h1 : JReach 1 ⟨[.asleep], false⟩ := h0.step (.test 0 rfl)
  have h2 : JReach 1 ⟨[.test], true⟩ := h1.step (.complete 0 rfl rfl)
  have h3 : JReach 1 ⟨[.returned], true⟩ := h2.step (.test 0 rfl)
  exact ⟨_, h3, rfl, rfl⟩

end Verif.Conn.Cleanup
