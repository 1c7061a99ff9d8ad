import Verif.Fiber.SyncTimer
/-!
# Every step keeps the invariant
-/

namespace Verif.Fiber.Sync

theorem Inv.timed_no {s : St} {l : Lk} {v : Cv} {t st : Nat} {w : W} (h : Inv s l v)
    (hp : s.pc t = .fwait w st ∨ s.pc t = .fasleep w st) : w.timed = false := by
  have hk := h.ok t
  rcases hp with hp | hp <;> (rw [Ok, hp] at hk; cases w <;> first | rfl | exact hk.2.1 | exact hk.elim)

theorem Inv.threadStep {s : St} {l : Lk} {v : Cv} (h : Inv s l v) (t c : Nat) :
    Good (threadStep s t c).1 (threadStep s t c).2 l v := by
  cases hp : s.pc t with
  | res g r w =>
    cases g with
    | look => exact h.lookStep hp
    | rpush => exact h.rpushStep hp
    | dswap => exact h.dswapStep hp
    | fadd => exact h.faddStep hp
    | fsys => exact h.fsysStep hp
    | rlock =>
      simp only [Sync.threadStep, hp]
      split
      · rename_i h0; exact h.lockStage hp (.inl ⟨rfl, rfl⟩) h0
      · exact .nil h
    | dlock =>
      simp only [Sync.threadStep, hp]
      split
      · rename_i h0; exact h.lockStage hp (.inr ⟨rfl, rfl⟩) h0
      · exact .nil h
    | rset => simp only [Sync.threadStep, hp]; exact h.setStage hp (.inl ⟨rfl, rfl, rfl⟩)
    | dset => simp only [Sync.threadStep, hp]; exact h.setStage hp (.inr ⟨rfl, rfl, rfl⟩)
  | nwake r => exact h.nwakeStep hp
  | out => simp only [Sync.threadStep, hp]; exact .nil h
  | own => simp only [Sync.threadStep, hp]; exact .nil h
  | try_ a k =>
    simp only [Sync.threadStep, hp]
    split
    · rename_i h0; exact h.tryOk hp h0
    · rename_i h0
      cases a
      · exact h.tryBusy hp h0
      · exact h.trySlow hp
  | slow k =>
    simp only [Sync.threadStep, hp]
    split
    · rename_i h0; exact h.slowStep hp h0
    · exact .nil h
  | add k =>
    simp only [Sync.threadStep, hp]
    by_cases h0 : s.count = 0
    · have := h.addFree hp h0
      simp only [h0, if_true]
      exact this
    · simp only [h0, if_false]
      exact h.addEnq hp h0
  | free k => simp only [Sync.threadStep, hp]; exact h.freeStep hp
  | slk k =>
    simp only [Sync.threadStep, hp]
    split
    · rename_i h0; exact h.slkStep hp h0
    · exact .nil h
  | enq k => simp only [Sync.threadStep, hp]; exact h.enqStep hp
  | st k => simp only [Sync.threadStep, hp]; exact h.stStep hp
  | rel k st => simp only [Sync.threadStep, hp]; exact h.relStep hp
  | susp w =>
    have := h.suspStep hp
    simp only [Sync.threadStep, hp, this.1, if_true]
    exact this.2
  | swap w => simp only [Sync.threadStep, hp]; exact h.swapStep hp
  | parked w => simp only [Sync.threadStep, hp]; exact .nil h
  | check k =>
    have := h.checkStep hp
    simp only [Sync.threadStep, hp, this.1, if_false]
    exact this.2
  | fwait w st =>
    have ht := h.timed_no (.inl hp)
    simp only [Sync.threadStep, hp, ht, Bool.false_eq_true, and_false, if_false]
    split
    · rename_i h0; exact h.sleepStep hp h0
    · rename_i h0; exact h.futexStep (.inl hp) h0
  | fasleep w st =>
    have ht := h.timed_no (.inr hp)
    simp only [Sync.threadStep, hp, ht, Bool.false_eq_true, and_false, if_false]
    split
    · exact h.againStep (.inl hp)
    · exact .nil h
  | fcheck w st =>
    simp only [Sync.threadStep, hp]
    split
    · exact h.againStep (.inr hp)
    · rename_i h0; exact h.futexStep (.inr (.inr hp)) h0
  | ul u => simp only [Sync.threadStep, hp]; exact h.ulStep hp
  | sub u p =>
    simp only [Sync.threadStep, hp]
    by_cases h0 : s.count = 1
    · have := h.subFree hp h0
      simp only [h0, if_true]
      exact this
    · have := h.subDuty hp h0
      simp only [h0, if_false, this.1]
      exact this.2
  | usl u p =>
    simp only [Sync.threadStep, hp]
    split
    · rename_i h0; exact h.uslStep hp h0
    · exact .nil h
  | wake u p =>
    obtain ⟨w, q, h1, h2⟩ := h.wakeStep hp
    simp only [Sync.threadStep, hp, h1]
    exact h2
  | urel u p w => simp only [Sync.threadStep, hp]; exact h.urelStep hp
  | swapped r =>
    simp only [Sync.threadStep, hp]
    split
    · exact h.swappedStep hp
    · exact .nil h
  | cslk a =>
    simp only [Sync.threadStep, hp]
    split
    · rename_i h0; exact h.cslkStep hp h0
    · exact .nil h
  | cadd a => simp only [Sync.threadStep, hp]; exact h.caddStep hp
  | ctimer => simp only [Sync.threadStep, hp]; exact h.ctimerStep hp
  | cpost a g => simp only [Sync.threadStep, hp]; exact h.cpostStep hp
  | crem a g => simp only [Sync.threadStep, hp]; exact h.cremStep hp
  | crm g b => simp only [Sync.threadStep, hp]; exact h.crmStep hp
  | cawake g b =>
    simp only [Sync.threadStep, hp]
    split
    · rename_i h0; exact h.cawakeStep hp h0
    · exact .nil h
  | padd a => simp only [Sync.threadStep, hp]; exact h.paddStep hp
  | pst a => simp only [Sync.threadStep, hp]; exact h.pstStep hp
  | prem b => simp only [Sync.threadStep, hp]; exact h.premEnd hp

/-- A call starts. -/
theorem Inv.startCall {s : St} {l : Lk} {v : Cv} {t : Nat} {p' : Pc} (h : Inv s l v) (ht : t < 2 ^ 32 - 1)
    (hp : s.pc t = .out ∨ s.pc t = .own) (hok : Ok (s.to t p') v t) (h1 : p'.hs = false) (h2 : p'.self (s.fib t) = false)
    (h3 : p'.rs = none) (h4 : p'.mc = none) (h5 : p'.cc = none) (h6 : p'.ow = (s.pc t).ow) (h7 : p'.qd = false)
    (h8 : p'.pre = false) (h9 : p'.duty = false) (h10 : p'.cur = none) (h11 : ∀ g r w, p' ≠ .res g r w)
    (h12 : ∀ w st, p' ≠ .fasleep w st) : Inv (s.to t p') l v := by
  have hpc : (s.to t p').pc = upd s.pc t p' := rfl
  refine h.build (t := t) (x := t) ⟨fun u hu => by rw [hpc, upd_ne _ _ hu], fun u hu _ => ?_, rfl,
    .inl (by rcases hp with hp | hp <;> rw [hp] <;> rfl), fun r y hy => by rcases hp with hp | hp <;> (rw [hp] at hy; simp at hy),
    by rw [hpc, upd_same, h10]; rcases hp with hp | hp <;> rw [hp] <;> rfl, fun _ => ht, .inl rfl⟩ ⟨rfl, rfl, rfl, rfl, rfl⟩
    hok (by simp) (Lnk.none (by rw [hpc, upd_same]) h11) (Fs.none (by rw [hpc, upd_same]) h12) (by simp)
    (PSlow.keep h.slow hpc rfl ?_) (PSlk.keep h.slk hpc rfl rfl ?_ ?_ rfl rfl) (PM.keep h.mref hpc rfl ?_)
    (PC.keep h.cref hpc rfl ?_ rfl rfl) (PL.keep h.pl hpc rfl rfl h6 ?_ ?_ ?_) (h.pv.keep rfl rfl rfl rfl)
  · constructor <;> first | rfl | (simp [St.to, upd, hu]; done) | exact id | exact fun h _ => h | exact fun _ => rfl
  · rw [h1]; rcases hp with hp | hp <;> rw [hp] <;> rfl
  · rw [h2]; rcases hp with hp | hp <;> rw [hp] <;> rfl
  · rw [h3]; rcases hp with hp | hp <;> rw [hp] <;> rfl
  · rw [h4]; rcases hp with hp | hp <;> rw [hp] <;> rfl
  · rw [h5]; rcases hp with hp | hp <;> rw [hp] <;> rfl
  · rw [h7]; rcases hp with hp | hp <;> rw [hp] <;> rfl
  · rw [h8]; rcases hp with hp | hp <;> rw [hp] <;> rfl
  · rw [h9]; rcases hp with hp | hp <;> rw [hp] <;> rfl

theorem Inv.callStep {s : St} {l : Lk} {v : Cv} {t : Nat} {c : Call} (h : Inv s l v) (ht : t < 2 ^ 32 - 1)
    (hc : c = .wait true → s.fib t = true) : Inv (callStep s t c) l v := by
  have hk := h.ok t
  have same : ∀ p', (p' = .try_ true .user ∨ p' = .try_ false .user) → s.pc t = .out → Inv (s.to t p') l v := by
    intro p' hp' hp
    rw [Ok, hp] at hk
    refine h.startCall ht (.inl hp) ?_ ?_ ?_ ?_ ?_ ?_ ?_ ?_ ?_ ?_ ?_ ?_ ?_ <;> try rw [hp]
    · rw [Ok, show (s.to t p').pc = upd s.pc t p' from rfl, upd_same]
      rcases hp' with hp' | hp' <;> (rw [hp']; exact ⟨hk.1, hk.2.1, hk.2.2.1, hk.2.2.2, by simp⟩)
    all_goals rcases hp' with hp' | hp' <;> (rw [hp']; first | rfl | simp)
  have note : ∀ r, (∀ u p, r ≠ .unlock u p) → (s.pc t = .out ∧ r.own = false ∨ s.pc t = .own ∧ r.own = true) →
      Inv (s.to t (.nwake r)) l v := by
    intro r hr hp
    have hk' : Run s t ∧ NoM s t ∧ NoC s t ∧ v.ph t = .no := by
      rcases hp with hp | hp <;> (rw [Ok, hp.1] at hk; exact hk)
    refine h.startCall ht (hp.imp And.left And.left) ?_ rfl rfl rfl rfl rfl ?_ rfl rfl rfl rfl (by simp) (by simp)
    · rw [Ok, show (s.to t _).pc = upd s.pc t _ from rfl, upd_same]
      exact ⟨hk'.1, hk'.2.1, hk'.2.2.1, hk'.2.2.2, hr⟩
    · rcases hp with hp | hp <;> (rw [hp.1]; exact hp.2)
  cases hp : s.pc t with
  | out =>
    cases c with
    | lock => simp only [Sync.callStep, hp]; exact same _ (.inl rfl) hp
    | tryLock => simp only [Sync.callStep, hp]; exact same _ (.inr rfl) hp
    | one => simp only [Sync.callStep, hp]; exact note _ (by simp) (.inl ⟨hp, rfl⟩)
    | all => simp only [Sync.callStep, hp]; exact note _ (by simp) (.inl ⟨hp, rfl⟩)
    | unlock => simp only [Sync.callStep, hp]; exact h
    | wait timed => simp only [Sync.callStep, hp]; exact h
  | own =>
    cases c with
    | lock => simp only [Sync.callStep, hp]; exact h
    | tryLock => simp only [Sync.callStep, hp]; exact h
    | one => simp only [Sync.callStep, hp]; exact note _ (by simp) (.inr ⟨hp, rfl⟩)
    | all => simp only [Sync.callStep, hp]; exact note _ (by simp) (.inr ⟨hp, rfl⟩)
    | unlock =>
      simp only [Sync.callStep, hp]
      rw [Ok, hp] at hk
      refine h.startCall ht (.inr hp) ?_ rfl (by simp [Pc.self, U.wait?]) rfl rfl rfl (by rw [hp]; rfl) rfl rfl rfl rfl (by simp) (by simp)
      rw [Ok, show (s.to t _).pc = upd s.pc t _ from rfl, upd_same]
      exact ⟨hk.1, hk.2.1, ⟨hk.2.2.1, hk.2.2.2⟩, by simp [U.wait?]⟩
    | wait timed =>
      simp only [Sync.callStep, hp]
      rw [Ok, hp] at hk
      cases hf : s.fib t
      · have htf : timed = false := by
          cases timed
          · rfl
          · rw [hc rfl] at hf; simp at hf
        simp only [Bool.false_eq_true, if_false]
        refine h.startCall ht (.inr hp) ?_ rfl rfl rfl rfl rfl (by rw [hp]; rfl) rfl rfl rfl rfl (by simp) (by simp)
        rw [Ok, show (s.to t _).pc = upd s.pc t _ from rfl, upd_same]; exact ⟨hf, htf, hk⟩
      · simp only [if_true]
        refine h.startCall ht (.inr hp) ?_ rfl rfl rfl rfl rfl (by rw [hp]; rfl) rfl rfl rfl rfl (by simp) (by simp)
        rw [Ok, show (s.to t _).pc = upd s.pc t _ from rfl, upd_same]; exact ⟨hf, hk⟩
  | _ => simp only [Sync.callStep, hp]; exact h

theorem Inv.step {s : St} {l : Lk} {v : Cv} {a : Act} (h : Inv s l v) (hs : Supported s.fib a) :
    Good (step s a).1 (step s a).2 l v := by
  cases a with
  | call t c => exact .nil (h.callStep hs.1 hs.2)
  | step t c => exact h.threadStep t c
  | run t => exact h.runStep t
  | fire g =>
    simp only [Sync.step]
    split
    · rename_i ha; exact .nil (h.fireStep ha (.inl rfl))
    · exact .nil h
  | timer g => exact h.timerStep g

theorem threadStep_fib (s : St) (t c : Nat) : (threadStep s t c).1.fib = s.fib := by
  have hr : ∀ (s : St) k, (returned s t k).1.fib = s.fib := by intro s k; cases k <;> rfl
  have hl : ∀ (s : St) k, (lockedSlow s t k).1.fib = s.fib := by intro s k; cases k <;> rfl
  have hf : ∀ b w, (futexed s t b w).1.fib = s.fib := by intro b w; cases w <;> simp [futexed, hl, St.to]
  cases hp : s.pc t with
  | res g r w =>
    cases g
    case look => simp only [threadStep, hp]; split <;> (try rfl); cases r <;> rfl
    case dswap => simp only [threadStep, hp]; cases s.pc w <;> rfl
    case fadd => simp only [threadStep, hp]; cases r <;> rfl
    case rlock => simp only [threadStep, hp]; split <;> rfl
    case dlock => simp only [threadStep, hp]; split <;> rfl
    all_goals simp only [threadStep, hp]; rfl
  | nwake r => simp only [threadStep, hp]; split <;> rfl
  | try_ a k => simp only [threadStep, hp]; split; exact hr _ k; split <;> rfl
  | slow k => simp only [threadStep, hp]; split <;> rfl
  | free k => simp only [threadStep, hp]; exact hr _ k
  | slk k => simp only [threadStep, hp]; split <;> rfl
  | susp w => simp only [threadStep, hp]; split <;> rfl
  | check k => simp only [threadStep, hp]; split; rfl; exact hl _ k
  | fwait w st => simp only [threadStep, hp]; split; exact hf _ w; split; rfl; exact hf _ w
  | fasleep w st => simp only [threadStep, hp]; split; rfl; split; exact hf _ w; rfl
  | fcheck w st => simp only [threadStep, hp]; split; rfl; exact hf _ w
  | usl u p => simp only [threadStep, hp]; split <;> rfl
  | wake u p => simp only [threadStep, hp]; cases s.mq <;> rfl
  | swapped r => simp only [threadStep, hp]; split <;> rfl
  | cslk a => simp only [threadStep, hp]; split <;> rfl
  | cawake g b => simp only [threadStep, hp]; split <;> rfl
  | _ => simp only [threadStep, hp] <;> rfl

theorem timerStep_fib (s : St) (g : Nat) : (timerStep s g).1.fib = s.fib := by
  unfold timerStep
  simp only
  split <;> (try rfl) <;> (try (split <;> rfl))

theorem runStep_fib (s : St) (t : Nat) : (runStep s t).1.fib = s.fib := by
  unfold runStep
  split <;> (try rfl) <;> (try (split <;> (try rfl) <;> (try (split <;> rfl))))

theorem callStep_fib (s : St) (t : Nat) (c : Call) : (callStep s t c).fib = s.fib := by
  unfold callStep
  split <;> rfl

theorem step_fib (s : St) (a : Act) : (step s a).1.fib = s.fib := by
  cases a with
  | call t c => exact callStep_fib s t c
  | step t c => exact threadStep_fib s t c
  | run t => exact runStep_fib s t
  | fire g => rfl
  | timer g => exact timerStep_fib s g

/-- After any supported run the invariant holds for what was replayed. -/
theorem run_inv {s : St} {l : Lk} {v : Cv} (h : Inv s l v) (tr : List Ev) (l0 : Lk) (v0 : Cv) (hl : l0.replay tr = some l)
    (hv : v0.replay tr = some v) (ht : ∀ e ∈ tr, e ≠ .crash ∧ e ≠ .ub) (as : List Act) (hs : ∀ a ∈ as, Supported s.fib a) :
    ∃ l' v', l0.replay (run s tr as).2 = some l' ∧ v0.replay (run s tr as).2 = some v' ∧
      (∀ e ∈ (run s tr as).2, e ≠ .crash ∧ e ≠ .ub) ∧ Inv (run s tr as).1 l' v' := by
  induction as generalizing s l v tr with
  | nil => exact ⟨l, v, hl, hv, ht, h⟩
  | cons a as ih =>
    obtain ⟨l', v', h1, h2, h3, h4⟩ := h.step (hs a List.mem_cons_self)
    refine ih h4 _ (by rw [Lk.replay_append, hl]; exact h1) (by rw [Cv.replay_append, hv]; exact h2) ?_ ?_
    · intro e he
      rcases List.mem_append.1 he with he | he
      · exact ht e he
      · exact h3 e he
    · intro b hb; rw [step_fib]; exact hs b (List.mem_cons_of_mem _ hb)

end Verif.Fiber.Sync
