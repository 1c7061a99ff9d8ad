import Verif.Runtime.PeripheryRefs

/-! # Theorems on the periphery scheduler (C140, C141) -/

namespace Verif.Runtime.Periphery

/-- The callback does not run twice at a time, and that of a task that is not periodic runs at most once. -/
theorem C140_once {iv : Nat → Nat} {naive calm p : Bool} {t0 n : Nat} {s : S} (h : Reach iv naive calm p t0 n s) :
    (∀ i j, s.wk i = .run → s.wk j = .run → i = j) ∧ (p = false → s.hist.length ≤ 1) :=
  ⟨fun i j hi hj => h.j.uniq i j (by rw [hi]; rfl) (by rw [hj]; rfl), fun hp => (h.j.os hp).1⟩

/-- The callback is not started before its time. -/
theorem C140_time {iv : Nat → Nat} {naive calm p : Bool} {t0 n : Nat} {s : S} (h : Reach iv naive calm p t0 n s) (k t : Nat) (hk : s.hist[k]? = some t) : due iv t0 k ≤ t :=
  h.j.hs k t hk

theorem Step.cancelled_mono {iv : Nat → Nat} {naive calm : Bool} {s s' : S} (hs : Step iv naive calm s s') (h : s.cancelled = true) : s'.cancelled = true ∧ s'.hist = s.hist := by
  cases hs <;> simp_all [S.w, S.owner, S.touch, S.up, S.down, S.ret]

/-- After `StopTask` or `RemoveTask` returned true, the callback is not started any more. -/
theorem C140_stop {iv : Nat → Nat} {naive calm p : Bool} {t0 n : Nat} {s s' : S} (h : Reach iv naive calm p t0 n s) (hr : (.stop, true) ∈ s.res ∨ (.remove, true) ∈ s.res) (hs : Steps iv naive calm s s') : s'.hist = s.hist := by
  have hc : s.cancelled = true := h.j.cn (hr.elim .inl fun x => .inr (.inl x))
  have : s'.cancelled = true ∧ s'.hist = s.hist := by
    induction hs with
    | refl => exact ⟨hc, rfl⟩
    | tail _ hs ih => exact ⟨(hs.cancelled_mono ih.1).1, (hs.cancelled_mono ih.1).2.trans ih.2⟩
  exact this.2

theorem Steps.reach {iv : Nat → Nat} {naive calm p : Bool} {t0 n : Nat} {s s' : S} (h : Reach iv naive calm p t0 n s) (hs : Steps iv naive calm s s') : Reach iv naive calm p t0 n s' := by
  induction hs with
  | refl => exact h
  | tail _ hs ih => exact ih.step hs

/-- Nothing runs, and nothing will. -/
def Quiet (s : S) : Prop := s.done = true ∨ s.cancelled = true ∧ s.running = false

theorem Quiet.step {iv : Nat → Nat} {naive calm p : Bool} {t0 : Nat} {s s' : S} (hj : J iv p t0 s) (h : Quiet s) (hs : Step iv naive calm s s') : Quiet s' ∧ s'.hist = s.hist := by
  have hg : ∀ i, s.done = true → s.wk i ≠ .got := fun i hd hw => by
    have := (hj.dn hd).2 i (by rw [hw]; rfl)
    rw [hw] at this
    cases this
  unfold Quiet at *
  cases hs <;> simp only [S.w, S.owner, S.touch, S.up, S.down, S.ret] <;> grind

theorem Quiet.norun {iv : Nat → Nat} {p : Bool} {t0 : Nat} {s : S} (hj : J iv p t0 s) (h : Quiet s) (i : Nat) : s.wk i ≠ .run := fun hw => by
  rcases h with hd | ⟨_, hr⟩
  · have := (hj.dn hd).2 i (by rw [hw]; rfl)
    rw [hw] at this
    cases this
  · rw [hj.run i (.inl hw)] at hr
    cases hr

/-- After `JoinTask` returned true while the scheduler was not stopped, the callback does not run and is not started any more. -/
theorem C140_join {iv : Nat → Nat} {naive calm p : Bool} {t0 n : Nat} {s s' : S} (h : Reach iv naive calm p t0 n s) (hr : (.join, true) ∈ s.res) (he : s.exited = false) (hs : Steps iv naive calm s s') :
    s'.hist = s.hist ∧ ∀ i, s'.wk i ≠ .run := by
  have hq : Quiet s := by
    have := h.j.jn (.inl hr)
    unfold S.ended at this
    rw [he] at this
    unfold Quiet
    grind
  have : Quiet s' ∧ s'.hist = s.hist := by
    induction hs with
    | refl => exact ⟨hq, rfl⟩
    | tail hs' hs ih =>
      have := ih.1.step (Steps.reach h hs').j hs
      exact ⟨this.1, this.2.trans ih.2⟩
  exact ⟨this.2, this.1.norun (Steps.reach h hs).j⟩

/-- A task that is not finished is not lost: it is in the queue, once, or one worker has it. -/
theorem C140_kept {iv : Nat → Nat} {naive calm p : Bool} {t0 n : Nat} {s : S} (h : Reach iv naive calm p t0 n s) (hd : s.done = false) (hr : s.d = .run) :
    (s.q = 1 ∧ ∀ i, (s.wk i).has = false) ∨ s.q = 0 ∧ ∃ i, (s.wk i).has = true ∧ ∀ j, (s.wk j).has = true → j = i := by
  rcases h.j.one with h0 | h1
  · rcases h.j.kept hd hr with h2 | ⟨i, hi⟩
    · omega
    · exact .inr ⟨h0, i, hi, fun j hj => h.j.uniq j i hj hi⟩
  · exact .inl h1

/-- A task is finished only if it is not periodic and has run, or was cancelled. -/
theorem C140_done {iv : Nat → Nat} {naive calm p : Bool} {t0 n : Nat} {s : S} (h : Reach iv naive calm p t0 n s) (hd : s.done = true) : s.cancelled = true ∨ p = false ∧ s.hist.length = 1 := by
  induction h with
  | init => cases hd
  | @step s s' h hs ih =>
    have hj := h.j
    have hmono : s.cancelled = true → s'.cancelled = true := fun hc => (hs.cancelled_mono hc).1
    have hb : ∀ i, s.wk i = .got → s.done = false := fun i hi => by
      cases e : s.done
      · rfl
      · have := (hj.dn e).2 i (by rw [hi]; rfl)
        rw [hi] at this
        cases this
    have hp := hj.per
    have htr := hj.tr
    have hos := hj.os
    cases hs <;> simp only [S.w, S.owner, S.touch, S.up, S.down, S.ret] at * <;> grind

/-- A worker that looks at the queue when the task is due runs its callback. -/
theorem C140_runs {iv : Nat → Nat} {naive calm p : Bool} {t0 n : Nat} {s : S} (h : Reach iv naive calm p t0 n s) (i : Nat) (hi : s.wk i = .wait) (hq : s.q = 1) (hc : s.cancelled = false) (ht : due iv t0 s.hist.length ≤ s.now) :
    ∃ s', Steps iv naive calm s s' ∧ s'.wk i = .run ∧ s'.hist = s.hist ++ [s.now] := by
  have h1 : Steps iv naive calm s _ := .tail .refl (.take i hi (by omega) (by rw [h.j.tq hq]; exact ht))
  exact ⟨_, h1.tail (.begin i (upd_same ..) hc), upd_same .., rfl⟩

/-- If the functions are called as their comments say, and not while the scheduler is destroyed, no task is accessed after it was destroyed. -/
theorem C140_safe {iv : Nat → Nat} {p : Bool} {t0 n : Nat} {s : S} (h : Reach iv false true p t0 n s) : s.bad = false := h.r.good

/-- A task is destroyed when its id was given up and no worker and no queue has it, and at the end if it was not finished before. -/
theorem C140_freed {iv : Nat → Nat} {p : Bool} {t0 n : Nat} {s : S} (h : Reach iv false true p t0 n s) (hw : ∀ i, (s.wk i).has = false) :
    (s.q = 0 → s.tok = .gone → s.o = .idle → s.freed = true) ∧ (s.d = .over → s.done = false → s.freed = true) := by
  have hr := h.r
  obtain ⟨m, hm, hc⟩ := hr.cnt
  have hm0 : m = 0 := by
    rcases hm with ⟨_, i, hi⟩ | h0
    · rw [hw i] at hi; cases hi
    · exact h0.1
  have key : s.q = 0 → s.tok = .gone → s.o = .idle → s.freed = true := fun hq ht ho => by
    rw [hr.fr, hc, hm0, hq, ht, ho]
    rfl
  refine ⟨key, fun ho hd => ?_⟩
  have hne : s.d ≠ .run := by rw [ho]; nofun
  have hq : s.q = 0 := by
    clear key hc hm hm0 hw hr hd hne m
    induction h with
    | init => cases ho
    | @step s s' h hs ih =>
      have := h.j.off
      cases hs <;> simp only [S.w, S.owner, S.touch, S.up, S.down, S.ret] at * <;> grind
  exact key hq (hr.over hne hq hd) (hr.idle hne)

/-- While a function is under way, the task is not destroyed. -/
theorem C140_ref {iv : Nat → Nat} {p : Bool} {t0 n : Nat} {s : S} (h : Reach iv false true p t0 n s) (ho : s.o ≠ .idle) : s.freed = false := by
  have hr := h.r
  cases e : s.freed
  · rfl
  · obtain ⟨m, hm, hc⟩ := hr.cnt
    rw [hr.fr.1 e] at hc
    have := hr.call ho
    rw [if_neg this] at hc
    omega

end Verif.Runtime.Periphery
