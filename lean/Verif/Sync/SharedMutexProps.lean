import Verif.Sync.SharedMutexInv

/-!
# C110, C111: the shared mutex of fibers
-/

namespace Verif.Sync.Shared

/-- **C110a.** A fiber that holds the lock holds it alone; checks do not fail. -/
theorem C110_exclusive {k n : Nat} (hk : n < k) {s : S} (h : Reach k n s) {i : Nat} (hi : s.pc[i]? = some .W) :
    (∀ j : Nat, s.pc[j]? ≠ some .R) ∧ ∀ j : Nat, s.pc[j]? = some .W → j = i := by
  have inv := h.inv hk
  have f := facts inv.len
  have g1 : fGot .W ≤ wsum fGot s.pc := wsum_mem hi
  have hg := inv.ar.got (by show wsum fGot s.pc ≠ 0; simp only [fGot] at g1; omega)
  refine ⟨?_, ?_⟩
  · intro j hj
    have h1 : fHold .R ≤ wsum fHold s.pc := wsum_mem hj
    have h2 : wsum fHold s.pc = 0 := hg.1
    simp only [fHold] at h1
    omega
  · intro j hj
    by_cases e : j = i
    · exact e
    · have h1 : fWlk .W + fWlk .W ≤ wsum fWlk s.pc := wsum_two hj hi e
      have h2 : wsum fWlk s.pc = s.wlk.toNat := inv.ar.ewlk
      have h3 := inv.ar.lwlk
      simp only [fWlk] at h1
      omega

/-- **C110b.** No check fails with fewer than `kMaxReaders` fibers. -/
theorem C110_checks {k n : Nat} (hk : n < k) {s : S} (h : Reach k n s) : s.crash = false := (h.inv hk).ok

theorem pos_of {f : Pc → Nat} {l : List Pc} {i : Nat} {a : Pc} (h : l[i]? = some a) (hf : f a = 1) : wsum f l ≠ 0 := by
  have := wsum_mem (f := f) h
  omega

theorem all_zero {f : Pc → Nat} {l : List Pc} (h : ∀ (i : Nat) (a : Pc), l[i]? = some a → f a = 0) : wsum f l = 0 := by
  by_cases hz : 0 < wsum f l
  · obtain ⟨i, a, h1, h2⟩ := wsum_pos hz
    have := h i a h1
    omega
  · omega

/-- **C110c.** Nobody waits for nothing: if no function that was called can go on, and one was called, somebody holds the lock. -/
theorem C110_progress {k n : Nat} (hk : n < k) {s : S} (h : Reach k n s) (hstuck : ∀ s', ¬ Step k s s') (hfree : ∀ i : Nat, s.pc[i]? ≠ some .R ∧ s.pc[i]? ≠ some .W) :
    ∀ (i : Nat) (a : Pc), s.pc[i]? = some a → a = .idle := by
  have inv := h.inv hk
  have f := facts inv.len
  -- nobody has the inner lock
  have hwl : s.wl = false := by
    by_cases hw : s.wl = true
    · exfalso
      have h1 : wsum fWl s.pc = 1 := by have : wsum fWl s.pc = s.wl.toNat := inv.ar.ewl; rw [this, hw]; rfl
      obtain ⟨i, a, h2, h3⟩ := wsum_pos (f := fWl) (l := s.pc) (by omega)
      cases a <;> simp only [fWl] at h3 <;> try omega
      · exact hstuck _ (.rwl i h2)
      · exact hstuck _ (.rwr i h2)
      · exact hstuck _ (.rk2 i h2)
      · exact hstuck _ (.w2 i _ h2)
      · exact hstuck _ (.w3 i h2)
      · exact hstuck _ (.w3z i h2)
      · exact hstuck _ (.w5 i h2)
      · exact hstuck _ (.u2 i _ h2)
      · exact hstuck _ (.u2b i h2)
    · simpa using hw
  -- who is left
  have left : ∀ (i : Nat) (a : Pc), s.pc[i]? = some a → a = .idle ∨ a = .rz ∨ a = .wz ∨ a = .wq := by
    intro i a ha
    cases a with
    | idle => exact .inl rfl
    | rz => exact .inr (.inl rfl)
    | wz => exact .inr (.inr (.inl rfl))
    | wq => exact .inr (.inr (.inr rfl))
    | R => exact absurd ha (hfree i).1
    | W => exact absurd ha (hfree i).2
    | rq => exact absurd (.rq i ha) (hstuck _)
    | rw0 => exact absurd (.rw0 i ha hwl) (hstuck _)
    | rwl => exact absurd (.rwl i ha) (hstuck _)
    | rwr => exact absurd (.rwr i ha) (hstuck _)
    | ru => exact absurd (.ru i ha) (hstuck _)
    | rp => exact absurd (.rp i ha) (hstuck _)
    | rk1 => exact absurd (.rk1 i ha hwl) (hstuck _)
    | rk2 => exact absurd (.rk2 i ha) (hstuck _)
    | rk3 =>
      by_cases hz : ∃ j : Nat, s.pc[j]? = some .wz
      · obtain ⟨j, hj⟩ := hz
        exact absurd (.rk3 i j ha hj) (hstuck _)
      · exact absurd (.rk3n i ha (fun j hj => hz ⟨j, hj⟩)) (hstuck _)
    | sq => exact absurd (.sq i ha) (hstuck _)
    | sc was => exact absurd (.sc i was ha) (hstuck _)
    | w0 => exact absurd (.w0 i ha) (hstuck _)
    | w1 p => exact absurd (.w1 i p ha hwl) (hstuck _)
    | w2 p => exact absurd (.w2 i p ha) (hstuck _)
    | w3 => exact absurd (.w3 i ha) (hstuck _)
    | w3z => exact absurd (.w3z i ha) (hstuck _)
    | w4 => exact absurd (.w4 i ha hwl) (hstuck _)
    | w5 => exact absurd (.w5 i ha) (hstuck _)
    | wu => exact absurd (.wu i ha) (hstuck _)
    | u1 m => exact absurd (.u1 i m ha hwl) (hstuck _)
    | u2 m => exact absurd (.u2 i m ha) (hstuck _)
    | u2b => exact absurd (.u2b i ha) (hstuck _)
    | u3 => exact absurd (.u3 i ha) (hstuck _)
    | u4 => exact absurd (.u4 i ha) (hstuck _)
    | tq => exact absurd (.tq i ha) (hstuck _)
    | t0 => exact absurd (.t0 i ha) (hstuck _)
    | tc => exact absurd (.tc i ha) (hstuck _)
    | t1 => exact absurd (.t1 i ha) (hstuck _)
  have zero : ∀ g : Pc → Nat, g .idle = 0 → g .rz = 0 → g .wz = 0 → g .wq = 0 → wsum g s.pc = 0 := by
    intro g g1 g2 g3 g4
    apply all_zero
    intro i a ha
    rcases left i a ha with rfl | rfl | rfl | rfl
    · exact g1
    · exact g2
    · exact g3
    · exact g4
  have zh : wsum fHold s.pc = 0 := zero _ rfl rfl rfl rfl
  have zr : wsum fRp s.pc = 0 := zero _ rfl rfl rfl rfl
  have zn : wsum fNot s.pc = 0 := zero _ rfl rfl rfl rfl
  have zk : wsum fRk s.pc = 0 := zero _ rfl rfl rfl rfl
  have zu : wsum fU s.pc = 0 := zero _ rfl rfl rfl rfl
  have zp : wsum fP s.pc = 0 := zero _ rfl rfl rfl rfl
  have hwr : wsum fWait s.pc = wsum fRz s.pc := by
    have h1 : wsum (fun x => fWait x - fRz x) s.pc = 0 := zero _ rfl rfl rfl rfl
    have h2 : wsum fWait s.pc = wsum (fun x => (fWait x - fRz x) + fRz x) s.pc := wsum_congr (by intro x; cases x <;> rfl)
    rw [wsum_add] at h2
    omega
  have hiz : wsum fIn s.pc = wsum fWz s.pc := by
    have h1 : wsum (fun x => fIn x - fWz x) s.pc = 0 := zero _ rfl rfl rfl rfl
    have h2 : wsum fIn s.pc = wsum (fun x => (fIn x - fWz x) + fWz x) s.pc := wsum_congr (by intro x; cases x <;> rfl)
    rw [wsum_add] at h2
    omega
  have hrz : wsum fRz s.pc ≠ 0 → s.granted = 0 := by
    intro h1
    by_cases h2 : s.granted = 0
    · exact h2
    · exact absurd zn (inv.ar.rz h1 h2)
  have hg := inv.ar.grant
  -- no writer sleeps
  have hw0 : wsum fWz s.pc = 0 := by
    by_cases hw : wsum fWz s.pc = 0
    · exact hw
    · exfalso
      obtain ⟨-, h2, h3⟩ := inv.ar.inn (show wsum fIn s.pc ≠ 0 by omega)
      have h2 : s.pend + wsum fP s.pc = wsum fHold s.pc + s.granted + wsum fRp s.pc := h2
      have h3 : s.granted ≤ wsum fWait s.pc := h3
      by_cases hp : s.pend = 0
      · exact inv.ar.wz hw hp zk
      · have := hrz (by omega)
        omega
  -- no reader sleeps
  have hr0 : wsum fRz s.pc = 0 := by
    by_cases hr : wsum fRz s.pc = 0
    · exact hr
    · exfalso
      obtain ⟨-, -, -, h2⟩ := inv.ar.out (show wsum fIn s.pc = 0 by omega)
      have h2 : (wsum fWait s.pc : Int) = s.granted + wsum fU s.pc := h2
      have := hrz hr
      omega
  -- the outer lock is free
  have hwlk : s.wlk = false := by
    by_cases hw : s.wlk = true
    · exfalso
      have h1 : wsum fWlk s.pc = 1 := by have : wsum fWlk s.pc = s.wlk.toNat := inv.ar.ewlk; rw [this, hw]; rfl
      obtain ⟨i, a, h2, h3⟩ := wsum_pos (f := fWlk) (l := s.pc) (by omega)
      rcases left i a h2 with rfl | rfl | rfl | rfl
      · simp [fWlk] at h3
      · simp [fWlk] at h3
      · exact pos_of h2 rfl hw0
      · simp [fWlk] at h3
    · simpa using hw
  intro i a ha
  rcases left i a ha with rfl | rfl | rfl | rfl
  · rfl
  · exact absurd hr0 (pos_of ha rfl)
  · exact absurd hw0 (pos_of ha rfl)
  · exact absurd (.wq i ha hwlk) (hstuck _)

/-- Readers that are before a writer: those who hold the lock, who were granted it and who are about to leave. -/
def ahead (s : S) : Int := wsum fHold s.pc + s.granted + wsum fRp s.pc

/-- Some writer has announced itself and does not have the lock yet, or has it. -/
def announced (s : S) : Prop := wsum fIn s.pc ≠ 0

set_option hygiene false in
local macro "diff" b:term : tactic => `(tactic| (
  have d1 := wsum_set (f := fHold) (b := $b) h
  have d2 := wsum_set (f := fRp) (b := $b) h
  have d3 := wsum_set (f := fIn) (b := $b) h
  have d4 := wsum_set (f := fU1) (b := $b) h
  have d5 := wsum_set (f := fOth) (b := $b) h
  simp only [fHold, fRp, fIn, fU1, fOth] at d1 d2 d3 d4 d5
  try dsimp only [S.check] at ha' ⊢
  omega))

/-- **C110d.** From the moment a writer has announced itself until it leaves, no reader is added to those who are before it: it waits for these only, and new readers wait for it. -/
theorem C110_writers_first {k n : Nat} (hk : n < k) {s s' : S} (h : Reach k n s) (hs : Step k s s') (ha : announced s) (ha' : announced s') : ahead s' ≤ ahead s := by
  have inv := h.inv hk
  obtain ⟨q1, q2, q3⟩ := inv.ar.inn ha
  have f2 : wsum fIn s.pc + wsum fU1 s.pc + wsum fNot s.pc + wsum fOth s.pc = wsum fWlk s.pc := (facts inv.len).f2
  have e1 : wsum fWlk s.pc = s.wlk.toNat := inv.ar.ewlk
  have e2 := inv.ar.lwlk
  have hq : s.quota ≤ 0 := by omega
  unfold announced at ha ha'
  unfold ahead
  clear h q1 q2 q3
  cases hs with
  | rq i h =>
    rw [if_neg (by omega)] at ha' ⊢
    diff .rw0
  | rw0 i h hl => diff .rwl
  | rwl i h =>
    split at ha'
    · rename_i hg; rw [if_pos hg]; diff .rwr
    · rename_i hg; rw [if_neg hg]; diff .rz
  | rwr i h => diff .R
  | ru i h =>
    rw [if_neg (by omega)] at ha' ⊢
    diff .rp
  | rp i h =>
    dsimp only at ha' ⊢
    split at ha'
    · rename_i hg; rw [if_pos hg]; diff .rk1
    · rename_i hg; rw [if_neg hg]; diff .idle
  | rk1 i h hl => diff .rk2
  | rk2 i h => diff .rk3
  | rk3 i j h hj =>
    have hij : i ≠ j := by intro e; rw [e, hj] at h; cases h
    have h2 : (s.pc.set i .idle)[j]? = some .wz := by rw [List.getElem?_set_ne hij]; exact hj
    have d1 := wsum_set (f := fHold) (b := .idle) h
    have d2 := wsum_set (f := fRp) (b := .idle) h
    have d3 := wsum_set (f := fHold) (b := .w4) h2
    have d4 := wsum_set (f := fRp) (b := .w4) h2
    simp only [fHold, fRp] at d1 d2 d3 d4
    dsimp only
    omega
  | rk3n i h hj => diff .idle
  | sq i h =>
    rw [show shared s.quota = .idle from if_pos hq] at ha' ⊢
    diff .idle
  | sc i was h =>
    have hb : fBad (.sc was) ≤ wsum fBad s.pc := wsum_mem h
    have hb2 : wsum fBad s.pc = 0 := inv.ar.bad
    have hw : 0 < was := by
      rw [hb2] at hb
      simp only [fBad] at hb
      split at hb <;> omega
    rw [if_neg (by omega), show shared s.quota = .idle from if_pos hq] at ha' ⊢
    diff .idle
  | wq i h hl => diff .w0
  | w0 i h =>
    have : fOth .w0 ≤ wsum fOth s.pc := wsum_mem h
    simp only [fOth] at this
    omega
  | w1 i p h hl => diff (.w2 p)
  | w2 i p h =>
    dsimp only at ha' ⊢
    split at ha'
    · rename_i hg; rw [if_pos hg]; diff .w3
    · rename_i hg; rw [if_neg hg]; diff .w5
  | w3 i h =>
    dsimp only at ha' ⊢
    split at ha'
    · rename_i hg; rw [if_pos hg]; diff .w5
    · rename_i hg; rw [if_neg hg]; diff .w3z
  | w3z i h => diff .wz
  | w4 i h hl => diff .w3
  | w5 i h => diff .W
  | tq i h =>
    split at ha'
    · rename_i hg; rw [if_pos hg]; diff .idle
    · rename_i hg; rw [if_neg hg]; diff .t0
  | t0 i h =>
    dsimp only at ha' ⊢
    split at ha'
    · rename_i hg; rw [if_pos hg]; diff .t1
    · rename_i hg; rw [if_neg hg]; diff .tc
  | tc i h =>
    split at ha'
    · rename_i hg; rw [if_pos hg]; diff .W
    · rename_i hg; rw [if_neg hg]; diff .t1
  | t1 i h => diff .idle
  | wu i h =>
    exfalso
    have d3 := wsum_set (f := fIn) (b := if s.quota ≠ 0 then .u1 (-s.quota).toNat else .u4) h
    have : fIn (if s.quota ≠ 0 then .u1 (-s.quota).toNat else .u4) = 0 := by split <;> rfl
    rw [this, show fIn .wu = 1 from rfl] at d3
    dsimp only [S.check] at ha'
    omega
  | u1 i m h hl => diff (.u2 m)
  | u2 i m h =>
    have : fU1 (.u2 m) ≤ wsum fU1 s.pc := wsum_mem h
    simp only [fU1] at this
    omega
  | u2b i h => diff .u3
  | u3 i h =>
    dsimp only at ha' ⊢
    rw [wsum_map] at ha'
    rw [wsum_map, wsum_map, wsum_congr (f := fun x => fHold (wake x)) (g := fHold) (by intro x; cases x <;> rfl), wsum_congr (f := fun x => fRp (wake x)) (g := fRp) (by intro x; cases x <;> rfl)]
    have d1 := wsum_set (f := fHold) (b := .u4) h
    have d2 := wsum_set (f := fRp) (b := .u4) h
    simp only [fHold, fRp] at d1 d2
    omega
  | u4 i h => diff .idle

/-! ## Runs -/

/-- Steps and calls through states with a property. -/
inductive Run (k : Nat) (P : S → Prop) : S → S → Prop
  | refl (s : S) (h : P s) : Run k P s s
  | call {s t u : S} (h : Run k P s t) (hc : Call t u) (hp : P u) : Run k P s u
  | step {s t u : S} (h : Run k P s t) (hs : Step k t u) (hp : P u) : Run k P s u

/-- A writer and a reader: the reader reads, the writer waits for it, then writes. -/
def got2 : S := ⟨-1, 0, 0, true, false, false, [.rz, .W, .idle]⟩

theorem got2_reach : Reach 1073741823 3 got2 := by
  have h := (Reach.init (k := 1073741823) (n := 3)).call (.lock 1 rfl)
  have h := h.step (.wq 1 rfl rfl)
  have h := h.step (.w0 1 rfl)
  have h := h.call (.lockShared 0 rfl)
  have h := h.step (.rq 0 rfl)
  have h := h.step (.rw0 0 rfl rfl)
  have h := h.step (.rwl 0 rfl)
  exact h

example : ∃ s, Reach 1073741823 3 s ∧ s.pc[1]? = some .W := ⟨_, got2_reach, rfl⟩

/-- **C111a.** A reader can wait for ever while others get the lock again and again: in this cycle of states fiber 0 waits all the time, fiber 1 writes and fiber 2 reads. -/
theorem C111_starve_partial : ∃ s a : S, Reach 1073741823 3 s ∧ s.pc[1]? = some .W ∧ a.pc[2]? = some .R ∧
    Run 1073741823 (fun x => ∃ p, x.pc[0]? = some p ∧ fWait p = 1) s a ∧ Run 1073741823 (fun x => ∃ p, x.pc[0]? = some p ∧ fWait p = 1) a s := by
  have h := Run.refl (k := 1073741823) (P := fun x => ∃ p, x.pc[0]? = some p ∧ fWait p = 1) got2 ⟨_, rfl, rfl⟩
  have h := h.call (.unlock 1 rfl) ⟨_, rfl, rfl⟩
  have h := h.step (.wu 1 rfl) ⟨_, rfl, rfl⟩
  have h := h.step (.u1 1 _ rfl rfl) ⟨_, rfl, rfl⟩
  have h := h.step (.u2 1 _ rfl) ⟨_, rfl, rfl⟩
  have h := h.step (.u2b 1 rfl) ⟨_, rfl, rfl⟩
  have h := h.step (.u3 1 rfl) ⟨_, rfl, rfl⟩
  have h := h.step (.u4 1 rfl) ⟨_, rfl, rfl⟩
  have h := h.call (.lock 1 rfl) ⟨_, rfl, rfl⟩
  have h := h.step (.wq 1 rfl rfl) ⟨_, rfl, rfl⟩
  have h := h.step (.w0 1 rfl) ⟨_, rfl, rfl⟩
  have h := h.call (.lockShared 2 rfl) ⟨_, rfl, rfl⟩
  have h := h.step (.rq 2 rfl) ⟨_, rfl, rfl⟩
  have h := h.step (.rw0 2 rfl rfl) ⟨_, rfl, rfl⟩
  have h := h.step (.rwl 2 rfl) ⟨_, rfl, rfl⟩
  have h := h.step (.rwr 2 rfl) ⟨_, rfl, rfl⟩
  refine ⟨got2, _, got2_reach, rfl, ?_, h, ?_⟩
  · rfl
  clear h
  have h := Run.refl (k := 1073741823) (P := fun x => ∃ p, x.pc[0]? = some p ∧ fWait p = 1) (⟨-2, 0, 0, true, false, false, [.rw0, .w1 1, .R]⟩ : S) ⟨_, rfl, rfl⟩
  have h := h.step (.rw0 0 rfl rfl) ⟨_, rfl, rfl⟩
  have h := h.step (.rwl 0 rfl) ⟨_, rfl, rfl⟩
  have h := h.call (.unlockShared 2 rfl) ⟨_, rfl, rfl⟩
  have h := h.step (.ru 2 rfl) ⟨_, rfl, rfl⟩
  have h := h.step (.rp 2 rfl) ⟨_, rfl, rfl⟩
  have h := h.step (.w1 1 _ rfl rfl) ⟨_, rfl, rfl⟩
  have h := h.step (.w2 1 _ rfl) ⟨_, rfl, rfl⟩
  have h := h.step (.w5 1 rfl) ⟨_, rfl, rfl⟩
  exact h

/-- **C111b.** A reader that leaves can use the mutex after a writer has got it, has released it and may have destroyed it: fiber 0 is about to lock `wakeup_lock_`. -/
theorem C111_late_partial : ∃ s a : S, Reach 1073741823 2 s ∧ s.pc = [.rk1, .W] ∧ Run 1073741823 (fun x => x.pc[0]? = some .rk1) s a ∧ a.pc = [.rk1, .idle] := by
  have h := (Reach.init (k := 1073741823) (n := 2)).call (.lockShared 0 rfl)
  have h := h.step (.rq 0 rfl)
  have h := h.call (.lock 1 rfl)
  have h := h.step (.wq 1 rfl rfl)
  have h := h.step (.w0 1 rfl)
  have h := h.step (.w1 1 _ rfl rfl)
  have h := h.step (.w2 1 _ rfl)
  have h := h.call (.unlockShared 0 rfl)
  have h := h.step (.ru 0 rfl)
  have h := h.step (.rp 0 rfl)
  have h := h.step (.w3 1 rfl)
  have h := h.step (.w5 1 rfl)
  have g := Run.refl (k := 1073741823) (P := fun x => x.pc[0]? = some .rk1) (⟨0, 0, 0, true, false, false, [.rk1, .W]⟩ : S) rfl
  have g := g.call (.unlock 1 rfl) rfl
  have g := g.step (.wu 1 rfl) rfl
  have g := g.step (.u4 1 rfl) rfl
  exact ⟨_, _, h, rfl, g, rfl⟩

end Verif.Sync.Shared
