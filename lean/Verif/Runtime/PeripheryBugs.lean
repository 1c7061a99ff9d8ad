import Verif.Runtime.PeripheryThms

/-! # What the periphery scheduler does not guarantee (C141) -/

namespace Verif.Runtime.Periphery

theorem w_at (s : S) (i : Nat) (x : W) : (s.w i x).wk i = x := upd_same ..

/-- A task that is not periodic has run, and its worker has dropped it. -/
theorem ran_once (iv : Nat → Nat) (naive calm : Bool) (t0 n : Nat) (hn : 0 < n) :
    ∃ s, Reach iv naive calm false t0 n s ∧ s.wk 0 = .loop ∧ (∀ i, i ≠ 0 → s.wk i = .loop ∨ s.wk i = .off) ∧ s.q = 0 ∧ s.ref = 1 ∧ s.freed = false ∧ s.bad = false ∧ s.o = .idle ∧ s.tok = .fresh ∧ s.res = [] ∧
      s.exited = false ∧ s.d = .run ∧ s.hist = [t0] ∧ s.done = true := by
  have h0 : (S.init false t0 n).wk 0 = .loop := if_pos hn
  have r0 := Reach.init (iv := iv) (naive := naive) (calm := calm) (periodic := false) (t0 := t0) (n := n)
  have r1 := r0.step (.check 0 h0 rfl)
  have r2 := r1.step (.take 0 (w_at ..) Nat.one_pos (Nat.le_refl t0))
  have r3 := r2.step (.begin 0 (w_at ..) rfl)
  have r4 := r3.step (.finish 0 (w_at ..))
  have r5 := r4.step (.last 0 (w_at ..) (.inl rfl))
  have r6 := r5.step (.drop 0 (w_at ..))
  refine ⟨_, r6, w_at .., fun i hi => ?_, rfl, rfl, rfl, rfl, rfl, rfl, rfl, rfl, rfl, rfl, rfl⟩
  by_cases e : i < n
  · refine .inl ?_
    simp [S.w, S.down, S.touch, upd_apply, hi, S.init, e]
  · refine .inr ?_
    simp [S.w, S.down, S.touch, upd_apply, hi, S.init, e]

/-- `StopTask` of a task that has finished destroys it and returns false; `JoinTask` after that accesses it. -/
theorem C141_stopped_partial (iv : Nat → Nat) (t0 n : Nat) (hn : 0 < n) : ∃ s, Reach iv true true false t0 n s ∧ s.res = [(.stop, false)] ∧ s.freed = true ∧ ∃ s', Step iv true true s s' ∧ ∃ s'', Step iv true true s' s'' ∧ s''.bad = true := by
  obtain ⟨s, r, hw, hw', hq, href, hf, hb, ho, ht, hres, he, hd, _, _⟩ := ran_once iv true true t0 n hn
  have r1 := r.step (.call .stop ho (.inl ht) he)
  have r2 := r1.step (.missing .stop rfl (Nat.le_of_eq href))
  have r3 := r2.step (.failed .stop rfl)
  refine ⟨_, r3, ?_, ?_, _, .call .join rfl ?_ he, _, .missing .join rfl ?_, ?_⟩
  · show (_, _) :: s.res = _
    rw [hres]
  · show (s.freed || s.ref == 1) = true
    rw [href]; simp
  · refine .inr (.inr ⟨rfl, rfl, ?_⟩)
    show (_, _) :: s.res = _
    rw [hres]
  · show s.ref - 1 ≤ 1
    omega
  · show (((s.bad || s.freed) || s.freed) || (s.freed || s.ref == 1)) = true
    rw [href]; simp

/-- `JoinTask` of a task that has finished returns false. -/
theorem C141_false_partial (iv : Nat → Nat) (t0 n : Nat) (hn : 0 < n) : ∃ s, Reach iv false true false t0 n s ∧ s.done = true ∧ s.res = [(.join, false)] := by
  obtain ⟨s, r, hw, hw', hq, href, hf, hb, ho, ht, hres, he, hd, _, hdn⟩ := ran_once iv false true t0 n hn
  have r1 := r.step (.call .join ho (.inl ht) he)
  have r2 := r1.step (.missing .join rfl (Nat.le_of_eq href))
  refine ⟨_, r2.step (.failed .join rfl), hdn, ?_⟩
  show (_, _) :: s.res = _
  rw [hres]

/-- A task that is not periodic, and whose id nobody used, is not destroyed, not even at the end. -/
theorem C141_leak_partial (iv : Nat → Nat) (t0 : Nat) : ∃ s, Reach iv false true false t0 1 s ∧ s.d = .over ∧ s.done = true ∧ ∀ s', Steps iv false true s s' → s'.freed = false := by
  obtain ⟨s, r, hw, hw', hq, href, hf, hb, ho, ht, hres, he, hd, _, hdn⟩ := ran_once iv false true t0 1 (by decide)
  have r1 := r.step (.exit he)
  have r2 := r1.step (.leave 0 (.inl hw) rfl)
  have r3 := r2.step (.joined hd rfl ?_ fun _ => ho)
  · have r4 := r3.step (.over rfl hq)
    refine ⟨_, r4, rfl, hdn, fun s' hs => ?_⟩
    have : s'.exited = true ∧ s'.d = .over ∧ s'.o = .idle ∧ (∀ i, s'.wk i = .off) ∧ s'.freed = false := by
      induction hs with
      | refl => exact ⟨rfl, rfl, ho, (r4.j.off (by nofun)).2, hf⟩
      | @tail t u _ hs ih =>
        obtain ⟨a, b, c, d, e⟩ := ih
        cases hs <;> simp only [S.w, S.owner, S.touch, S.up, S.down, S.ret] at * <;> grind
    exact this.2.2.2.2
  · have r2j := r2.j
    intro i
    by_cases e : i = 0
    · rw [e]; exact w_at ..
    · show upd s.wk 0 .off i = .off
      rw [upd_ne _ _ e]
      rcases hw' i e with h | h
      · exfalso
        have : ∀ s, Reach iv false true false t0 1 s → ∀ i, i ≠ 0 → s.wk i = .off := by
          intro s h
          induction h with
          | init => intro i hi; exact if_neg (by omega)
          | step _ hs ih => cases hs <;> simp only [S.w, S.owner, S.touch, S.up, S.down, S.ret, upd_apply] <;> grind
        rw [this s r i e] at h
        cases h
      · exact h

/-- `JoinTask` returns true while the callback runs, if the scheduler was stopped. -/
theorem C141_join_partial (iv : Nat → Nat) (p : Bool) (t0 n : Nat) (hn : 0 < n) : ∃ s, Reach iv false true p t0 n s ∧ s.res = [(.join, true)] ∧ s.wk 0 = .run := by
  have h0 : (S.init p t0 n).wk 0 = .loop := if_pos hn
  have r0 := Reach.init (iv := iv) (naive := false) (calm := true) (periodic := p) (t0 := t0) (n := n)
  have r1 := r0.step (.check 0 h0 rfl)
  have r2 := r1.step (.take 0 (w_at ..) Nat.one_pos (Nat.le_refl t0))
  have r3 := r2.step (.begin 0 (w_at ..) rfl)
  have r4 := r3.step (.call .join rfl (.inl rfl) rfl)
  have r5 := r4.step (.found .join rfl (Nat.lt_succ_self 1))
  have r6 := r5.step (.enter rfl)
  have r7 := r6.step (.exit rfl)
  have r8 := r7.step (.yes rfl rfl)
  have r9 := r8.step (.unlock rfl)
  exact ⟨_, r9.step (.fin .join true rfl), rfl, upd_same (upd (upd (S.init p t0 n).wk 0 W.wait) 0 W.got) 0 W.run⟩

/-- `JoinTask` that waits while the scheduler ends accesses the task after it was destroyed. -/
theorem C141_shutdown_partial (iv : Nat → Nat) (p : Bool) (t0 : Nat) : ∃ s, Reach iv false false p t0 1 s ∧ s.freed = true ∧ s.o = .woken ∧ s.bad = false ∧ ∃ s', Step iv false false s s' ∧ s'.bad = true := by
  have h0 : (S.init p t0 1).wk 0 = .loop := rfl
  have r0 := Reach.init (iv := iv) (naive := false) (calm := false) (periodic := p) (t0 := t0) (n := 1)
  have r1 := r0.step (.call .join rfl (.inl rfl) rfl)
  have r2 := r1.step (.found .join rfl (Nat.lt_succ_self 1))
  have r3 := r2.step (.enter rfl)
  have r4 := r3.step (.no rfl rfl)
  have r5 := r4.step (.exit rfl)
  have r6 := r5.step (.leave 0 (.inl rfl) rfl)
  have r7 := r6.step (.joined rfl rfl (fun i => ?_) nofun)
  · have r8 := r7.step (.more rfl Nat.one_pos (show 1 < 3 by decide))
    have r9 := r8.step (.pop rfl)
    have r10 := r9.step (.wake rfl)
    have r11 := r10.step (.yes rfl rfl)
    exact ⟨_, r11, rfl, rfl, rfl, _, .unlock rfl, rfl⟩
  · by_cases e : i = 0
    · rw [e]; exact w_at ..
    · show upd (S.init p t0 1).wk 0 .off i = .off
      rw [upd_ne _ _ e]
      exact if_neg (by omega)

/-! ## The theorems say something -/

/-- A periodic task that is run, stopped and joined. -/
example : ∃ s, Reach (fun _ => 10) false true true 5 1 s ∧ s.res = [(.join, true), (.stop, true)] ∧ s.hist = [5] ∧ s.exited = false ∧ s.q = 1 := by
  have r0 := Reach.init (iv := fun _ => 10) (naive := false) (calm := true) (periodic := true) (t0 := 5) (n := 1)
  have r1 := r0.step (.check 0 rfl rfl)
  have r2 := r1.step (.take 0 rfl (by decide) (by decide))
  have r3 := r2.step (.begin 0 rfl rfl)
  have r4 := r3.step (.finish 0 rfl)
  have r5 := r4.step (.next 0 rfl rfl rfl)
  have r6 := r5.step (.push 0 rfl)
  have r7 := r6.step (.call .stop rfl (.inl rfl) rfl)
  have r8 := r7.step (.found .stop rfl (by decide))
  have r9 := r8.step (.cancelStop rfl)
  have r10 := r9.step (.fin .stop true rfl)
  have r11 := r10.step (.call .join rfl (.inr (.inl ⟨rfl, nofun⟩)) rfl)
  have r12 := r11.step (.found .join rfl (by decide))
  have r13 := r12.step (.enter rfl)
  have r14 := r13.step (.yes rfl rfl)
  have r15 := r14.step (.unlock rfl)
  exact ⟨_, r15.step (.fin .join true rfl), rfl, rfl, rfl, rfl⟩

end Verif.Runtime.Periphery
