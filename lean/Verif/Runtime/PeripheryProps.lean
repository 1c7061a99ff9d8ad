import Verif.Runtime.Periphery

/-! # Invariants of the periphery scheduler -/

namespace Verif.Runtime.Periphery

/-- Where the task is and what is known then. -/
structure J (iv : Nat → Nat) (p : Bool) (t0 : Nat) (s : S) : Prop where
  per : s.periodic = p
  uniq : ∀ i j, (s.wk i).has = true → (s.wk j).has = true → i = j
  one : s.q = 0 ∨ s.q = 1 ∧ ∀ i, (s.wk i).has = false
  run : ∀ i, s.wk i = .run ∨ s.wk i = .ran → s.running = true
  ran : s.running = true → ∃ i, s.wk i = .run ∨ s.wk i = .ran
  dn : s.done = true → s.q = 0 ∧ ∀ i, (s.wk i).has = true → s.wk i = .drop
  dp : ∀ i, s.wk i = .drop → s.done = true
  kept : s.done = false → s.d = .run → s.q = 1 ∨ ∃ i, (s.wk i).has = true
  tq : s.q = 1 → s.at_ = due iv t0 s.hist.length
  tg : ∀ i, s.wk i = .got ∨ s.wk i = .push → s.at_ = due iv t0 s.hist.length
  tr : ∀ i, s.wk i = .run ∨ s.wk i = .ran → ∃ k, s.hist.length = k + 1 ∧ s.at_ = due iv t0 k
  tn : ∀ i, s.wk i = .got → s.at_ ≤ s.now
  hs : ∀ k t, s.hist[k]? = some t → due iv t0 k ≤ t
  os : p = false → s.hist.length ≤ 1 ∧ (s.q = 1 → s.hist = []) ∧ ∀ i, s.wk i ≠ .push ∧ (s.wk i = .got → s.hist = [])
  fr : ∀ c r, s.o = .fin c r → r = true
  cn : (.stop, true) ∈ s.res ∨ (.remove, true) ∈ s.res ∨ s.o = .fin .stop true ∨ s.o = .fin .remove true → s.cancelled = true
  jn : (.join, true) ∈ s.res ∨ s.o = .woken ∨ s.o = .fin .join true → s.ended = true
  off : s.d ≠ .run → s.exited = true ∧ ∀ i, s.wk i = .off

theorem J.init (iv : Nat → Nat) (p : Bool) (t0 n : Nat) : J iv p t0 (.init p t0 n) := by
  have h : ∀ i, (S.init p t0 n).wk i = .loop ∨ (S.init p t0 n).wk i = .off := fun i => by
    by_cases e : i < n
    · exact .inl (if_pos e)
    · exact .inr (if_neg e)
  have h' : ∀ i, ((S.init p t0 n).wk i).has = false := fun i => by rcases h i with e | e <;> rw [e] <;> rfl
  constructor <;> grind [S.init, due, S.ended]

set_option maxHeartbeats 4000000 in
theorem J.step {iv : Nat → Nat} {naive calm p : Bool} {t0 : Nat} {s s' : S} (h : J iv p t0 s) (hs : Step iv naive calm s s') : J iv p t0 s' := by
  obtain ⟨per, uniq, one, run, ran, dn, dp, kept, tq, tg, tr, tn, hss, os, fr, cn, jn, off⟩ := h
  cases hs <;> constructor <;> simp only [S.w, S.owner, S.touch, S.up, S.down, S.ret, S.ended, upd_apply] at * <;> grind [W.has, due]

theorem Reach.j {iv : Nat → Nat} {naive calm p : Bool} {t0 n : Nat} {s : S} (h : Reach iv naive calm p t0 n s) : J iv p t0 s := by
  induction h with
  | init => exact J.init ..
  | step _ hs ih => exact ih.step hs

end Verif.Runtime.Periphery
