import Verif.Pool.ObjectsInv

/-!
# C157: the object pool
-/

namespace Verif.Pool.Objects

/-- **C157.** No block is handed out again before it was given back. -/
theorem C157_once {oom : Bool} {max : Nat} (hm : 0 < max) {s : S} (h : Reach oom max s) : s.user.Nodup := by
  have v := h.inv hm
  rw [List.nodup_iff_count]
  intro b
  cases b with
  | pool n =>
    have := v.one n
    have ht : tot s.avail n ≤ 1 := by unfold tot; split <;> omega
    omega
  | sys n =>
    have := v.sys n
    split at this <;> omega

theorem wsum_mem' {α : Type} {f : α → Nat} {l : List α} {a : α} (h : a ∈ l) : f a ≤ wsum f l := by
  obtain ⟨i, hi⟩ := List.getElem?_of_mem h
  exact wsum_mem hi

/-- **C157.** A block that somebody has is in no free list. -/
theorem C157_apart {oom : Bool} {max : Nat} (hm : 0 < max) {s : S} (h : Reach oom max s) {b : Blk} (hb : b ∈ s.user) : (∀ t ∈ s.th, b ∉ t.free) ∧ ∀ p ∈ s.lists, b ∉ p.1 := by
  have v := h.inv hm
  cases b with
  | sys n =>
    refine ⟨fun t ht hf => ?_, fun p hp hf => ?_⟩
    · obtain ⟨m, hm⟩ := (v.th t ht).pools _ hf; cases hm
    · obtain ⟨m, hm⟩ := (v.lists p hp).pools _ hf; cases hm
  | pool n =>
    have h1 := v.one n
    have h2 := List.count_pos_iff.2 hb
    have ht : tot s.avail n ≤ 1 := by unfold tot; split <;> omega
    refine ⟨fun t ht hf => ?_, fun p hp hf => ?_⟩
    · have h3 := List.count_pos_iff.2 hf
      have h4 := wsum_mem' (f := fb n) ht
      have h5 : t.free.count (.pool n) ≤ fb n t := by unfold fb; omega
      omega
    · have h3 := List.count_pos_iff.2 hf
      have h4 := wsum_mem' (f := fl n) hp
      have h5 : p.1.count (.pool n) ≤ fl n p := by unfold fl; omega
      omega

/-- **C157.** No block gets lost: each is with somebody, in a free list, or still in the `BlockList` of a running thread, or in none that was given to a thread. -/
theorem C157_kept {oom : Bool} {max : Nat} (hm : 0 < max) {s : S} (h : Reach oom max s) (n : Nat) (hn : n < 1024 * s.avail) :
    Blk.pool n ∈ s.user ∨ (∃ t ∈ s.th, t.pc ≠ .dead ∧ (Blk.pool n ∈ t.free ∨ ∃ l k, t.blist = some (l, k) ∧ k < 32 ∧ 32 * l + k ≤ n ∧ n < 32 * l + 32)) ∨
      (∃ p ∈ s.lists, Blk.pool n ∈ p.1) ∨ 1024 * (s.avail - 1) + 32 * s.idx ≤ n := by
  have v := h.inv hm
  have h1 := v.one n
  rw [tot, if_pos hn] at h1
  by_cases hu : Blk.pool n ∈ s.user
  · exact .inl hu
  by_cases hw : 0 < wsum (fb n) s.th
  · right; left
    obtain ⟨i, t, hi, ht⟩ := wsum_pos hw
    have hmem := List.mem_of_getElem? hi
    have ok := v.th t hmem
    refine ⟨t, hmem, ?_, ?_⟩
    · intro hd
      have e1 := ok.pc (.inr (.inr (.inr hd)))
      have e2 := ok.used (.inr hd)
      rw [fb, e1] at ht
      cases e : t.blist with
      | none => simp [e] at ht
      | some p =>
        obtain ⟨l, k⟩ := p
        have := e2 l k e
        subst this
        simp only [e, rg] at ht
        rw [if_neg (by omega)] at ht
        simp at ht
    · by_cases hf : Blk.pool n ∈ t.free
      · exact .inl hf
      · right
        rw [fb, List.count_eq_zero_of_not_mem hf] at ht
        cases e : t.blist with
        | none => simp [e] at ht
        | some p =>
          obtain ⟨l, k⟩ := p
          simp only [e, rg] at ht
          split at ht
          · rename_i hr
            exact ⟨l, k, rfl, by omega, hr.1, hr.2⟩
          · simp at ht
  by_cases hl : 0 < wsum (fl n) s.lists
  · right; right; left
    obtain ⟨i, p, hi, hp⟩ := wsum_pos hl
    exact ⟨p, List.mem_of_getElem? hi, List.count_pos_iff.1 hp⟩
  · right; right; right
    have := List.count_eq_zero_of_not_mem hu
    have h2 : un s.avail s.idx n = 1 := by omega
    unfold un at h2
    split at h2
    · omega
    · cases h2

/-- **C157.** The pool exceeds its limit by less than one chunk. -/
theorem C157_bound {oom : Bool} {max : Nat} (hm : 0 < max) {s : S} (h : Reach oom max s) : 1024 * s.avail < max + 1024 := by
  have := (h.inv hm).av
  omega

/-- **C157.** Without an error of the system, it is asked for a single object only at the limit. -/
theorem C157_system {max : Nat} (hm : 0 < max) {s : S} (h : Reach false max s) (hb : s.popBlocks.2 = none ∨ (false = true ∧ 32 ≤ s.idx)) : max ≤ 1024 * s.avail := by
  have hx := (h.inv hm).hmax
  rcases hb with hb | ⟨hb, -⟩
  · unfold S.popBlocks at hb
    split at hb
    · cases hb
    · split at hb
      · omega
      · cases hb
  · cases hb

/-- **C157.** No null pointer is followed. -/
theorem C157_safe {oom : Bool} {max : Nat} (hm : 0 < max) {s : S} (h : Reach oom max s) : s.crash = false := by
  induction h with
  | init => rfl
  | @step s s' h hc hs ih =>
    have v := h.inv hm
    cases hs with
    | popped i t l n ls h hp hl =>
      have okp := v.lists (l, n) (by rw [hl]; simp)
      cases l with
      | nil => exact absurd rfl okp.ne
      | cons b r => exact hc
    | fresh i l t h hp hb =>
      unfold S.popBlocks at hb
      split at hb
      · simp only [Prod.mk.injEq] at hb; rw [← hb.1]; exact hc
      · split at hb
        · cases hb
        · simp only [Prod.mk.injEq] at hb; rw [← hb.1]; exact hc
    | free i t n h hp hu => split <;> exact hc
    | unload i t l k h hp => split <;> exact hc
    | gone i t h hp => split <;> exact hc
    | _ => exact hc

/-! ## Runs -/

/-- What a lone thread has after `n` calls of New. -/
structure Alone (max n : Nat) (s : S) : Prop where
  hmax : s.max = max
  crash : s.crash = false
  lists : s.lists = []
  user : s.user.length = n
  pools : ∀ b ∈ s.user, ∃ m, b = Blk.pool m
  av : 1 ≤ s.avail
  idx : s.idx ≤ 32
  th : (s.th = [{}] ∧ n = 0 ∧ s.avail = 1 ∧ s.idx = 0) ∨ ∃ l k, s.th = [{ blist := some (l, k) }] ∧ k ≤ 32 ∧ n + 32 = 1024 * (s.avail - 1) + 32 * s.idx + k

theorem alone (oom : Bool) {max : Nat} (hm : 0 < max) : ∀ n, n ≤ 1024 * ((max + 1023) / 1024) → ∃ s, Reach oom max s ∧ Alone max n s := by
  intro n
  induction n with
  | zero =>
    intro _
    exact ⟨_, (Reach.init (oom := oom) (max := max)).step rfl .spawn, ⟨rfl, rfl, rfl, rfl, by simp [S.init], by simp [S.init], by simp [S.init], .inl ⟨rfl, rfl, rfl, rfl⟩⟩⟩
  | succ n ih =>
    intro hn
    obtain ⟨s, h, a⟩ := ih (by omega)
    obtain ⟨bl, hth, hbl⟩ : ∃ bl, s.th = [{ blist := bl }] ∧ ((bl = none ∧ n = 0 ∧ s.avail = 1 ∧ s.idx = 0) ∨ ∃ l k, bl = some (l, k) ∧ k ≤ 32 ∧ n + 32 = 1024 * (s.avail - 1) + 32 * s.idx + k) := by
      rcases a.th with ⟨h1, h2⟩ | ⟨l, k, h1, h2⟩
      · exact ⟨none, h1, .inl ⟨rfl, h2⟩⟩
      · exact ⟨some (l, k), h1, .inr ⟨l, k, rfl, h2⟩⟩
    obtain ⟨mx, av, ix, li, th, us, ns, cr⟩ := s
    have a1 := a.hmax; have a2 := a.crash; have a3 := a.lists; have a4 := a.user; have a5 := a.pools; have a6 := a.av; have a7 := a.idx
    simp only at a1 a2 a3 a4 a5 a6 a7 hth hbl
    subst a1 a2 a3 hth
    have h : Reach oom mx ⟨mx, av, ix, [], [{ blist := bl, pc := .a1 }], us, ns, false⟩ := h.step rfl (.ask 0 { blist := bl } rfl rfl rfl)
    have h : Reach oom mx ⟨mx, av, ix, [], [{ blist := bl, pc := .a2 }], us, ns, false⟩ := h.step rfl (.empty 0 { blist := bl, pc := .a1 } rfl rfl rfl)
    by_cases hk : ∃ l k, bl = some (l, k) ∧ k < 32
    · obtain ⟨l, k, rfl, hk⟩ := hk
      have h : Reach oom mx ⟨mx, av, ix, [], [{ blist := some (l, k + 1) }], blk l k :: us, ns, false⟩ := h.step rfl (.block 0 { blist := some (l, k), pc := .a2 } l k rfl rfl rfl hk)
      refine ⟨_, h, ⟨rfl, rfl, rfl, by simp [a4], ?_, a6, a7, .inr ⟨l, k + 1, rfl, by omega, ?_⟩⟩⟩
      · intro b hb
        simp at hb
        rcases hb with rfl | hb
        · exact ⟨_, rfl⟩
        · exact a5 b hb
      · rcases hbl with ⟨e, _⟩ | ⟨l', k', e, _, hn'⟩
        · cases e
        · cases e; simp only at hn' ⊢; omega
    · have hused : ∀ l k : Nat, bl = some (l, k) → ¬ k < 32 := fun l k e hk' => hk ⟨l, k, e, hk'⟩
      have h : Reach oom mx ⟨mx, av, ix, [], [{ blist := bl, pc := .a3 }], us, ns, false⟩ := h.step rfl (.used 0 { blist := bl, pc := .a2 } rfl rfl hused)
      have hcount : n = 1024 * (av - 1) + 32 * ix := by
        rcases hbl with ⟨_, h1, h2, h3⟩ | ⟨l, k, e, h1, h2⟩
        · omega
        · have := hused l k e; omega
      have hpools : ∀ l, ∀ b ∈ blk l 0 :: us, ∃ m, b = Blk.pool m := by
        intro l b hb
        simp at hb
        rcases hb with rfl | hb
        · exact ⟨_, rfl⟩
        · exact a5 b hb
      by_cases hi : ix < 32
      · have h : Reach oom mx ⟨mx, av, ix + 1, [], [{ blist := some (32 * (av - 1) + ix, 1) }], blk (32 * (av - 1) + ix) 0 :: us, ns, false⟩ :=
          h.step rfl (.fresh (s1 := ⟨mx, av, ix + 1, [], [{ blist := bl, pc := .a3 }], us, ns, false⟩) 0 (32 * (av - 1) + ix) { blist := bl, pc := .a3 } rfl rfl (by simp [S.popBlocks, hi]))
        refine ⟨_, h, ⟨rfl, rfl, rfl, by simp [a4], hpools _, a6, ?_, .inr ⟨_, 1, rfl, by omega, ?_⟩⟩⟩
        · simp only; omega
        · simp only; omega
      · have h1 : ¬ mx ≤ 1024 * av := by omega
        have h : Reach oom mx ⟨mx, av + 1, 1, [], [{ blist := some (32 * av, 1) }], blk (32 * av) 0 :: us, ns, false⟩ :=
          h.step rfl (.fresh (s1 := ⟨mx, av + 1, 1, [], [{ blist := bl, pc := .a3 }], us, ns, false⟩) 0 (32 * av) { blist := bl, pc := .a3 } rfl rfl (by simp [S.popBlocks, hi, h1]))
        refine ⟨_, h, ⟨rfl, rfl, rfl, by simp [a4], hpools _, by simp, by simp, .inr ⟨_, 1, rfl, by omega, ?_⟩⟩⟩
        simp only; omega

/-- 3000 objects handed out, from three chunks. -/
example : ∃ s, Reach false 16384 s ∧ s.user.length = 3000 := by
  obtain ⟨s, h, a⟩ := alone false (max := 16384) (by omega) 3000 (by omega)
  exact ⟨s, h, a.user⟩

/-- All that the pool may have can be handed out. -/
theorem C157_full {max : Nat} (hm : 0 < max) : ∃ s, Reach false max s ∧ s.user.length = 1024 * ((max + 1023) / 1024) := by
  obtain ⟨s, h, a⟩ := alone false hm _ (Nat.le_refl _)
  exact ⟨s, h, a.user⟩

end Verif.Pool.Objects
