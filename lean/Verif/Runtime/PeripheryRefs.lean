import Verif.Runtime.PeripheryProps

/-! # References to a task of the periphery scheduler -/

namespace Verif.Runtime.Periphery

/-- Who refers to the task. -/
structure R (s : S) : Prop where
  good : s.bad = false
  cnt : ∃ n, ((n = 1 ∧ ∃ i, (s.wk i).has = true) ∨ (n = 0 ∧ ∀ i, (s.wk i).has = false)) ∧
    s.ref = s.q + n + (if s.tok = .gone then 0 else 1) + (if s.o = .test ∨ s.o = .sleep then 1 else 0) + (if s.o = .fin .stop true then 1 else 0)
  fr : s.freed = true ↔ s.ref = 0
  call : s.o ≠ .idle → s.tok ≠ .gone
  fail : ∀ c, s.o = .fail c → s.ref = 1
  idle : s.d ≠ .run → s.o = .idle
  pop : s.d = .pop → s.tok = .gone ∧ s.q = 1
  over : s.d ≠ .run → s.q = 0 → s.done = false → s.tok = .gone

theorem R.init (p : Bool) (t0 n : Nat) : R (.init p t0 n) := by
  have h : ∀ i, (S.init p t0 n).wk i = .loop ∨ (S.init p t0 n).wk i = .off := fun i => by
    by_cases e : i < n
    · exact .inl (if_pos e)
    · exact .inr (if_neg e)
  have h' : ∀ i, ((S.init p t0 n).wk i).has = false := fun i => by rcases h i with e | e <;> rw [e] <;> rfl
  refine ⟨rfl, ⟨0, .inr ⟨rfl, h'⟩, rfl⟩, ?_, ?_, ?_, ?_, ?_, ?_⟩ <;> simp [S.init]

set_option maxHeartbeats 4000000 in
theorem R.step {iv : Nat → Nat} {p : Bool} {t0 : Nat} {s s' : S} (hj : J iv p t0 s) (h : R s) (hs : Step iv false true s s') : R s' := by
  obtain ⟨per, uniq, one, run, ran, dn, dp, kept, tq, tg, tr, tn, hss, os, fr', cn, jn, off⟩ := hj
  clear per run ran tq tg tr tn hss os cn jn
  obtain ⟨good, ⟨n, hn, cnt⟩, fr, call, fail, idle, pop, over⟩ := h
  cases hs <;> constructor <;> simp only [S.w, S.owner, S.touch, S.up, S.down, S.ret, S.ended, upd_apply, allowed] at *
  all_goals first | done | grind [W.has]

theorem Reach.r {iv : Nat → Nat} {p : Bool} {t0 n : Nat} {s : S} (h : Reach iv false true p t0 n s) : R s := by
  induction h with
  | init => exact R.init ..
  | step h hs ih => exact ih.step h.j hs

end Verif.Runtime.Periphery
