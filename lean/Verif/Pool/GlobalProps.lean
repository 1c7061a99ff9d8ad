import Verif.Pool.GlobalInv

/-!
# C120, C121: blocks of the memory pool
-/

namespace Verif.Pool.Global

/-- **C120.** No block is handed out again before it was given back. -/
theorem C120_once {ex : Bool} {max : Nat} (hm : 0 < max) {s : S} (h : Reach ex max s) (hc : s.crash = false) : s.user.Nodup := by
  have v := h.inv hm hc
  rw [List.nodup_iff_count]
  intro b
  cases b with
  | pool n =>
    have := v.one n
    have ht : tot s.avail n ≤ 1 := by unfold tot; split <;> omega
    omega
  | sys n =>
    have := v.sys n
    split at this <;> omega

theorem wsum_mem' {α : Type} {f : α → Nat} {l : List α} {a : α} (h : a ∈ l) : f a ≤ wsum f l := by
  obtain ⟨i, hi⟩ := List.getElem?_of_mem h
  exact wsum_mem hi

/-- **C120.** A block that somebody has is in no free list. -/
theorem C120_apart {ex : Bool} {max : Nat} (hm : 0 < max) {s : S} (h : Reach ex max s) (hc : s.crash = false) {b : Blk} (hb : b ∈ s.user) : (∀ t ∈ s.th, b ∉ t.free) ∧ ∀ p ∈ s.lists, b ∉ p.1 := by
  have v := h.inv hm hc
  cases b with
  | sys n =>
    refine ⟨fun t ht hf => ?_, fun p hp hf => ?_⟩
    · obtain ⟨m, hm⟩ := (v.th t ht).pools _ hf; cases hm
    · obtain ⟨m, hm⟩ := (v.lists p hp).pools _ hf; cases hm
  | pool n =>
    have h1 := v.one n
    have h2 := List.count_pos_iff.2 hb
    have ht : tot s.avail n ≤ 1 := by unfold tot; split <;> omega
    refine ⟨fun t ht hf => ?_, fun p hp hf => ?_⟩
    · have h3 := List.count_pos_iff.2 hf
      have h4 := wsum_mem' (f := fb n) ht
      have h5 : t.free.count (.pool n) ≤ fb n t := by unfold fb; omega
      omega
    · have h3 := List.count_pos_iff.2 hf
      have h4 := wsum_mem' (f := fl n) hp
      have h5 : p.1.count (.pool n) ≤ fl n p := by unfold fl; omega
      omega

/-- **C120.** No block gets lost: each is with somebody, in a free list, or still in the `BlockList` of a running thread, or in none that was given to a thread. -/
theorem C120_kept {ex : Bool} {max : Nat} (hm : 0 < max) {s : S} (h : Reach ex max s) (hc : s.crash = false) (n : Nat) (hn : n < 1024 * s.avail) :
    Blk.pool n ∈ s.user ∨ (∃ t ∈ s.th, t.pc ≠ .dead ∧ (Blk.pool n ∈ t.free ∨ ∃ l k, t.blist = some (l, k) ∧ k < 32 ∧ 32 * l + k ≤ n ∧ n < 32 * l + 32)) ∨
      (∃ p ∈ s.lists, Blk.pool n ∈ p.1) ∨ 1024 * (s.avail - 1) + 32 * s.idx ≤ n := by
  have v := h.inv hm hc
  have h1 := v.one n
  rw [tot, if_pos hn] at h1
  by_cases hu : Blk.pool n ∈ s.user
  · exact .inl hu
  by_cases hw : 0 < wsum (fb n) s.th
  · right; left
    obtain ⟨i, t, hi, ht⟩ := wsum_pos hw
    have hmem := List.mem_of_getElem? hi
    have ok := v.th t hmem
    refine ⟨t, hmem, ?_, ?_⟩
    · intro hd
      have e1 := ok.pc (.inr (.inr (.inr hd)))
      have e2 := ok.used (.inr hd)
      rw [fb, e1] at ht
      cases e : t.blist with
      | none => simp [e] at ht
      | some p =>
        obtain ⟨l, k⟩ := p
        have := e2 l k e
        subst this
        simp only [e, rg] at ht
        rw [if_neg (by omega)] at ht
        simp at ht
    · by_cases hf : Blk.pool n ∈ t.free
      · exact .inl hf
      · right
        rw [fb, List.count_eq_zero_of_not_mem hf] at ht
        cases e : t.blist with
        | none => simp [e] at ht
        | some p =>
          obtain ⟨l, k⟩ := p
          simp only [e, rg] at ht
          split at ht
          · rename_i hr
            exact ⟨l, k, rfl, by omega, hr.1, hr.2⟩
          · simp at ht
  by_cases hl : 0 < wsum (fl n) s.lists
  · right; right; left
    obtain ⟨i, p, hi, hp⟩ := wsum_pos hl
    exact ⟨p, List.mem_of_getElem? hi, List.count_pos_iff.1 hp⟩
  · right; right; right
    have := List.count_eq_zero_of_not_mem hu
    have h2 : un s.avail s.idx n = 1 := by omega
    unfold un at h2
    split at h2
    · omega
    · cases h2

/-- **C120.** The pool exceeds its limit by less than one chunk. -/
theorem C120_bound {ex : Bool} {max : Nat} (hm : 0 < max) {s : S} (h : Reach ex max s) (hc : s.crash = false) : 1024 * s.avail < max + 1024 := by
  have := (h.inv hm hc).av
  omega

/-- **C120.** The system is asked for a single block only at the limit. -/
theorem C120_system {ex : Bool} {max : Nat} (hm : 0 < max) {s s1 : S} (h : Reach ex max s) (hc : s.crash = false) (hb : s.popBlocks = (s1, none)) : max ≤ 1024 * s.avail ∧ s1 = s := by
  have v := h.inv hm hc
  have hx := v.hmax
  have hav := v.av
  unfold S.popBlocks at hb
  split at hb
  · cases hb
  · split at hb
    · rename_i h2
      simp at hb
      exact ⟨by omega, hb.symm⟩
    · split at hb
      · rename_i h3
        unfold S.chunks at h3
        omega
      · cases hb

theorem nodup_bound {l : List Blk} {n : Nat} (h : l.Nodup) (hl : ∀ x ∈ l, ∃ m, x = Blk.pool m ∧ m < n) : l.length ≤ n := by
  have := List.Nodup.length_le_of_subset (l₂ := (List.range n).map Blk.pool) h (fun x hx => by
    obtain ⟨m, rfl, hm⟩ := hl x hx
    exact List.mem_map.2 ⟨m, List.mem_range.2 hm, rfl⟩)
  simpa using this

theorem count_flatten (b : Nat) (ls : List (List Blk × Nat)) : ((ls.map Prod.fst).flatten).count (.pool b) = wsum (fl b) ls := by
  induction ls with
  | nil => rfl
  | cons p ls ih => simp [wsum_cons, fl] at ih ⊢; omega

theorem length_flatten {ls : List (List Blk × Nat)} (h : ∀ p ∈ ls, p.1.length = 32) : ((ls.map Prod.fst).flatten).length = 32 * ls.length := by
  induction ls with
  | nil => rfl
  | cons p ls ih =>
    have := h p (by simp)
    have := ih (fun q hq => h q (by simp [hq]))
    simp at this ⊢; omega

/-- With full lists only, there is room for one more. -/
theorem room {max : Nat} (hm : 481 ≤ max) {s : S} (v : Inv false max s) {t : L} (ht : t ∈ s.th) (h32 : t.len = 32) : s.lists.length < s.vec := by
  have ok := v.th t ht
  have hl : ∀ p ∈ s.lists, p.1.length = 32 := fun p hp => by
    have a := (v.lists p hp).len
    have b := (v.lists p hp).ex rfl
    omega
  have hlen := length_flatten hl
  have hc : ∀ n, (t.free ++ (s.lists.map Prod.fst).flatten).count (.pool n) ≤ tot s.avail n := by
    intro n
    have h1 := v.one n
    have h4 := wsum_mem' (f := fb n) ht
    have h5 : t.free.count (.pool n) ≤ fb n t := by unfold fb; omega
    rw [List.count_append, count_flatten]
    omega
  have hpool : ∀ x ∈ t.free ++ (s.lists.map Prod.fst).flatten, ∃ m, x = Blk.pool m := by
    intro x hx
    simp only [List.mem_append, List.mem_flatten, List.mem_map] at hx
    rcases hx with hx | ⟨l, ⟨p, hp, rfl⟩, hx⟩
    · exact ok.pools x hx
    · exact (v.lists p hp).pools x hx
  have hnd : (t.free ++ (s.lists.map Prod.fst).flatten).Nodup := by
    rw [List.nodup_iff_count]
    intro b
    by_cases hb : b ∈ t.free ++ (s.lists.map Prod.fst).flatten
    · obtain ⟨m, rfl⟩ := hpool b hb
      have := hc m
      have : tot s.avail m ≤ 1 := by unfold tot; split <;> omega
      omega
    · rw [List.count_eq_zero_of_not_mem hb]; omega
  have hb := nodup_bound (n := 1024 * s.avail) hnd (fun x hx => by
    obtain ⟨m, rfl⟩ := hpool x hx
    refine ⟨m, rfl, ?_⟩
    have h1 := hc m
    have h2 := List.count_pos_iff.2 hx
    have h3 : 0 < tot s.avail m := by omega
    unfold tot at h3
    split at h3
    · assumption
    · cases h3)
  rw [List.length_append, hlen, ← ok.len, h32] at hb
  have hav := v.av
  have hmx := v.hmax
  unfold S.vec
  omega

/-- **C120.** As long as no thread ends, and with a limit of 481 blocks or more, nothing is written outside of a vector and no null pointer is followed. -/
theorem C120_safe {max : Nat} (hm : 481 ≤ max) {s : S} (h : Reach false max s) : s.crash = false := by
  induction h with
  | init => rfl
  | @step s s' h hc hs ih =>
    have v := h.inv (by omega) hc
    cases hs with
    | popped i t l n ls h hp hl =>
      have okp := v.lists (l, n) (by rw [hl]; simp)
      cases l with
      | nil => exact absurd rfl okp.ne
      | cons b r => exact hc
    | fresh i l t h hp hb =>
      unfold S.popBlocks at hb
      split at hb
      · simp only [Prod.mk.injEq] at hb; rw [← hb.1]; exact hc
      · split at hb
        · cases hb
        · split at hb
          · cases hb
          · simp only [Prod.mk.injEq] at hb; rw [← hb.1]; exact hc
    | system i t ok h' hp hb =>
      have := (C120_system (by omega) h hc hb).2
      subst this
      exact hc
    | free i t n h hp hu =>
      split
      · rename_i h32
        have := room hm v (List.mem_of_getElem? h) h32
        simp only [S.push, S.at]
        rw [if_pos this]
        exact hc
      · exact hc
    | exit i t h hp he => cases he
    | unload i t l k h hp =>
      exact absurd hp ((v.th t (List.mem_of_getElem? h)).ex rfl).1
    | gone i t h hp =>
      exact absurd hp ((v.th t (List.mem_of_getElem? h)).ex rfl).1
    | _ => exact hc

/-! ## Runs -/

/-- What a lone thread has after `n` allocations. -/
structure Alone (max n : Nat) (s : S) : Prop where
  hmax : s.max = max
  crash : s.crash = false
  lists : s.lists = []
  user : s.user.length = n
  pools : ∀ b ∈ s.user, ∃ m, b = Blk.pool m
  av : 1 ≤ s.avail
  idx : s.idx ≤ 32
  th : (s.th = [{}] ∧ n = 0 ∧ s.avail = 1 ∧ s.idx = 0) ∨ ∃ l k, s.th = [{ blist := some (l, k) }] ∧ k ≤ 32 ∧ n + 32 = 1024 * (s.avail - 1) + 32 * s.idx + k

theorem alone (ex : Bool) {max : Nat} (hm : 0 < max) : ∀ n, n ≤ 1024 * ((max + 1023) / 1024) → ∃ s, Reach ex max s ∧ Alone max n s := by
  intro n
  induction n with
  | zero =>
    intro _
    exact ⟨_, (Reach.init (ex := ex) (max := max)).step rfl .spawn, ⟨rfl, rfl, rfl, rfl, by simp [S.init], by simp [S.init], by simp [S.init], .inl ⟨rfl, rfl, rfl, rfl⟩⟩⟩
  | succ n ih =>
    intro hn
    obtain ⟨s, h, a⟩ := ih (by omega)
    obtain ⟨bl, hth, hbl⟩ : ∃ bl, s.th = [{ blist := bl }] ∧ ((bl = none ∧ n = 0 ∧ s.avail = 1 ∧ s.idx = 0) ∨ ∃ l k, bl = some (l, k) ∧ k ≤ 32 ∧ n + 32 = 1024 * (s.avail - 1) + 32 * s.idx + k) := by
      rcases a.th with ⟨h1, h2⟩ | ⟨l, k, h1, h2⟩
      · exact ⟨none, h1, .inl ⟨rfl, h2⟩⟩
      · exact ⟨some (l, k), h1, .inr ⟨l, k, rfl, h2⟩⟩
    obtain ⟨mx, av, ix, li, th, us, ns, cr⟩ := s
    have a1 := a.hmax; have a2 := a.crash; have a3 := a.lists; have a4 := a.user; have a5 := a.pools; have a6 := a.av; have a7 := a.idx
    simp only at a1 a2 a3 a4 a5 a6 a7 hth hbl
    subst a1 a2 a3 hth
    have h : Reach ex mx ⟨mx, av, ix, [], [{ blist := bl, pc := .a1 }], us, ns, false⟩ := h.step rfl (.ask 0 { blist := bl } rfl rfl rfl)
    have h : Reach ex mx ⟨mx, av, ix, [], [{ blist := bl, pc := .a2 }], us, ns, false⟩ := h.step rfl (.empty 0 { blist := bl, pc := .a1 } rfl rfl rfl)
    by_cases hk : ∃ l k, bl = some (l, k) ∧ k < 32
    · obtain ⟨l, k, rfl, hk⟩ := hk
      have h : Reach ex mx ⟨mx, av, ix, [], [{ blist := some (l, k + 1) }], blk l k :: us, ns, false⟩ := h.step rfl (.block 0 { blist := some (l, k), pc := .a2 } l k rfl rfl rfl hk)
      refine ⟨_, h, ⟨rfl, rfl, rfl, by simp [a4], ?_, a6, a7, .inr ⟨l, k + 1, rfl, by omega, ?_⟩⟩⟩
      · intro b hb
        simp at hb
        rcases hb with rfl | hb
        · exact ⟨_, rfl⟩
        · exact a5 b hb
      · rcases hbl with ⟨e, _⟩ | ⟨l', k', e, _, hn'⟩
        · cases e
        · cases e; simp only at hn' ⊢; omega
    · have hused : ∀ l k : Nat, bl = some (l, k) → ¬ k < 32 := fun l k e hk' => hk ⟨l, k, e, hk'⟩
      have h : Reach ex mx ⟨mx, av, ix, [], [{ blist := bl, pc := .a3 }], us, ns, false⟩ := h.step rfl (.used 0 { blist := bl, pc := .a2 } rfl rfl hused)
      have hcount : n = 1024 * (av - 1) + 32 * ix := by
        rcases hbl with ⟨_, h1, h2, h3⟩ | ⟨l, k, e, h1, h2⟩
        · omega
        · have := hused l k e; omega
      have hpools : ∀ l, ∀ b ∈ blk l 0 :: us, ∃ m, b = Blk.pool m := by
        intro l b hb
        simp at hb
        rcases hb with rfl | hb
        · exact ⟨_, rfl⟩
        · exact a5 b hb
      by_cases hi : ix < 32
      · have h : Reach ex mx ⟨mx, av, ix + 1, [], [{ blist := some (32 * (av - 1) + ix, 1) }], blk (32 * (av - 1) + ix) 0 :: us, ns, false⟩ :=
          h.step rfl (.fresh (s1 := ⟨mx, av, ix + 1, [], [{ blist := bl, pc := .a3 }], us, ns, false⟩) 0 (32 * (av - 1) + ix) { blist := bl, pc := .a3 } rfl rfl (by simp [S.popBlocks, hi]))
        refine ⟨_, h, ⟨rfl, rfl, rfl, by simp [a4], hpools _, a6, ?_, .inr ⟨_, 1, rfl, by omega, ?_⟩⟩⟩
        · simp only; omega
        · simp only; omega
      · have h1 : ¬ mx ≤ 1024 * av := by omega
        have h2 : ¬ (mx + 1023) / 1024 * 2 ≤ av := by omega
        have h : Reach ex mx ⟨mx, av + 1, 1, [], [{ blist := some (32 * av, 1) }], blk (32 * av) 0 :: us, ns, false⟩ :=
          h.step rfl (.fresh (s1 := ⟨mx, av + 1, 1, [], [{ blist := bl, pc := .a3 }], us, ns, false⟩) 0 (32 * av) { blist := bl, pc := .a3 } rfl rfl (by simp [S.popBlocks, hi, h1, S.chunks, h2]))
        refine ⟨_, h, ⟨rfl, rfl, rfl, by simp [a4], hpools _, by simp, by simp, .inr ⟨_, 1, rfl, by omega, ?_⟩⟩⟩
        simp only; omega

/-- 300 blocks handed out: the pool has a limit of 481, so C120_safe applies. -/
example : ∃ s, Reach false 481 s ∧ s.user.length = 300 ∧ s.crash = false := by
  obtain ⟨s, h, a⟩ := alone false (max := 481) (by omega) 300 (by omega)
  exact ⟨s, h, a.user, a.crash⟩

/-! ## C121 -/

/-- A new thread gives one block back and ends. -/
theorem leave {max : Nat} {s : S} (h : Reach true max s) (hc : s.crash = false) {n : Nat} (hn : Blk.pool n ∈ s.user) :
    ∃ s', Reach true max s' ∧ s'.max = s.max ∧ s'.user = s.user.erase (.pool n) ∧ s'.crash = !decide (s.lists.length < s.vec) ∧ (s.lists.length < s.vec → s'.lists.length = s.lists.length + 1) := by
  obtain ⟨mx, av, ix, li, th, us, ns, cr⟩ := s
  simp only at hc hn
  subst hc
  have h : Reach true max ⟨mx, av, ix, li, th ++ [({} : L)], us, ns, false⟩ := h.step rfl .spawn
  have g : ∀ t : L, (th ++ [t])[th.length]? = some t := fun t => by simp
  have st : ∀ t t' : L, (th ++ [t]).set th.length t' = th ++ [t'] := fun t t' => by simp
  have h1 := h.step rfl (.free th.length {} n (g _) rfl hn)
  simp only [S.at, st, Nat.reduceEqDiff, if_false] at h1
  have h2 := h1.step rfl (.exit th.length { free := [.pool n], len := 1 } (g _) rfl rfl)
  simp only [S.at, st] at h2
  have h3 := h2.step rfl (.gone th.length { free := [.pool n], len := 1, pc := .x } (g _) rfl (by simp))
  simp only [S.at] at h3
  refine ⟨_, h3, ?_⟩
  rw [if_pos (by omega)]
  by_cases hl : li.length < (mx + 31) / 32 * 2
  · simp [S.push, S.vec, hl]
  · simp [S.push, S.vec, hl]

theorem leaves {max : Nat} : ∀ (k : Nat) {s : S}, Reach true max s → s.crash = false → (∀ b ∈ s.user, ∃ m, b = Blk.pool m) → s.user.length = k → s.lists.length ≤ s.vec → s.vec < s.lists.length + k → ∃ s', Reach true max s' ∧ s'.crash = true := by
  intro k
  induction k with
  | zero =>
    intro s _ _ _ _ hle hv
    omega
  | succ k ih =>
    intro s h hc hp hu hle hv
    obtain ⟨b, r, hb⟩ : ∃ b r, s.user = b :: r := by
      cases e : s.user with
      | nil => rw [e] at hu; simp at hu
      | cons b r => exact ⟨b, r, rfl⟩
    obtain ⟨n, rfl⟩ := hp b (by rw [hb]; simp)
    obtain ⟨s', h', e1, e2, e3, e4⟩ := leave h hc (n := n) (by rw [hb]; simp)
    by_cases hl : s.lists.length < s.vec
    · refine ih h' (by simpa [hl] using e3) ?_ ?_ ?_ ?_
      · intro b hb'
        rw [e2] at hb'
        exact hp b (List.mem_of_mem_erase hb')
      · rw [e2, hb, List.erase_cons_head]
        rw [hb] at hu
        simpa using hu
      · have := e4 hl
        have : s'.vec = s.vec := by unfold S.vec; rw [e1]
        omega
      · have := e4 hl
        have : s'.vec = s.vec := by unfold S.vec; rw [e1]
        omega
    · exact ⟨s', h', by simpa [hl] using e3⟩

/-- Whatever the limit: if threads end that have some blocks, `PushFreeBlockList` writes outside of its vector. -/
theorem C121_threads_partial {max : Nat} (hm : 0 < max) : ∃ s, Reach true max s ∧ s.crash = true := by
  obtain ⟨s, h, a⟩ := alone true hm ((max + 31) / 32 * 2 + 1) (by omega)
  refine leaves _ h a.crash a.pools a.user ?_ ?_
  · rw [a.lists]; simp
  · rw [a.lists]; simp [S.vec, a.hmax]

/-- What a lone thread has after `d` of its `n` blocks were given back. -/
theorem frees {max n : Nat} {s0 : S} (h0 : Reach false max s0) (a0 : Alone max n s0) : ∀ d, d ≤ n → (∃ s, Reach false max s ∧ s.crash = true) ∨
    ∃ s bl f len, Reach false max s ∧ s.crash = false ∧ s.max = max ∧ s.th = [{ blist := bl, free := f, len := len }] ∧ s.user.length = n - d ∧ (∀ b ∈ s.user, ∃ m, b = Blk.pool m) ∧
      d = 32 * s.lists.length + len ∧ len ≤ 32 ∧ s.lists.length ≤ s.vec := by
  intro d
  induction d with
  | zero =>
    intro _
    right
    rcases a0.th with ⟨h1, _⟩ | ⟨l, k, h1, _⟩
    · exact ⟨s0, none, [], 0, h0, a0.crash, a0.hmax, h1, by simp [a0.user], a0.pools, by simp [a0.lists], by omega, by simp [a0.lists]⟩
    · exact ⟨s0, some (l, k), [], 0, h0, a0.crash, a0.hmax, h1, by simp [a0.user], a0.pools, by simp [a0.lists], by omega, by simp [a0.lists]⟩
  | succ d ih =>
    intro hd
    rcases ih (by omega) with h | ⟨s, bl, f, len, h, hc, hmx, hth, hu, hp, hd', hl, hv⟩
    · exact .inl h
    · obtain ⟨b, r, hb⟩ : ∃ b r, s.user = b :: r := by
        cases e : s.user with
        | nil => rw [e] at hu; simp at hu; omega
        | cons b r => exact ⟨b, r, rfl⟩
      obtain ⟨m, rfl⟩ := hp b (by rw [hb]; simp)
      have h' := h.step hc (.free 0 { blist := bl, free := f, len := len } m (by rw [hth]; rfl) rfl (by rw [hb]; simp))
      have hul : (s.user.erase (.pool m)).length = n - (d + 1) := by
        rw [hb, List.erase_cons_head]; rw [hb] at hu; simp at hu; omega
      have hpp : ∀ b ∈ s.user.erase (.pool m), ∃ m, b = Blk.pool m := fun b hb' => hp b (List.mem_of_mem_erase hb')
      by_cases h32 : len = 32
      · rw [if_pos h32] at h'
        by_cases hr : s.lists.length < s.vec
        · right
          refine ⟨_, bl, [.pool m], 1, h', ?_⟩
          simp only [S.push, if_pos hr, S.at, hth]
          refine ⟨hc, hmx, rfl, hul, hpp, ?_, by omega, ?_⟩
          · simp only [List.length_cons]; omega
          · simp only [List.length_cons, S.vec] at hr ⊢; omega
        · left
          refine ⟨_, h', ?_⟩
          simp [S.push, hr, S.at]
      · rw [if_neg h32] at h'
        right
        refine ⟨_, bl, .pool m :: f, len + 1, h', ?_⟩
        simp only [S.at, hth]
        exact ⟨hc, hmx, rfl, hul, hpp, by omega, by omega, hv⟩

/-- With a limit of 480 blocks or less, one thread is enough: it gives back what the pool handed out. -/
theorem C121_small_partial {max : Nat} (hm : 0 < max) (hs : max ≤ 480) : ∃ s, Reach false max s ∧ s.crash = true := by
  obtain ⟨s, h, a⟩ := alone false hm 1024 (by omega)
  rcases frees h a 1024 (Nat.le_refl _) with h | ⟨s, bl, f, len, h, hc, hmx, hth, hu, hp, hd', hl, hv⟩
  · exact h
  · unfold S.vec at hv
    rw [hmx] at hv
    omega

end Verif.Pool.Global
