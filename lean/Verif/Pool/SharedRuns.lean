import Verif.Pool.SharedOwn

/-!
# C123: what the pool with one pool for each thread does not do
-/

namespace Verif.Pool.Shared

theorem short_empty {t : L} (h1 : t.free = []) (h2 : t.xcpu = []) (h3 : t.front = []) : t.short ∧ t.find = t := by
  have e : t.drain = t := by
    obtain ⟨a, b, c, d, e, f, g⟩ := t
    simp only at h1 h2
    subst h1 h2
    rfl
  have e2 : t.find = t := by unfold L.find; rw [e, if_pos h1, h3]; rfl
  exact ⟨⟨by rw [e]; exact h1, by rw [e2, h1]; simp⟩, e2⟩

theorem not_short {t : L} (h2 : t.xcpu = []) (h1 : t.free ≠ []) : ¬ t.short ∧ t.find = t := by
  have e : t.drain = t := by
    obtain ⟨a, b, c, d, e, f, g⟩ := t
    simp only at h1 h2
    subst h2
    rfl
  exact ⟨fun h => h1 (by have := h.1; rw [e] at this; exact this), by unfold L.find; rw [e, if_neg h1]⟩

/-- A lone thread after `n` allocations. -/
structure Alone (thr cm n : Nat) (s : S) (t : L) : Prop where
  cfg : s.thr = thr ∧ s.cm = cm
  crash : s.crash = false
  th : s.th = [t]
  pc : t.pc = .idle
  lists : t.xcpu = [] ∧ t.back = [] ∧ t.front = []
  own : ∀ b ∈ t.free, ∃ c k, b = Blk.pool 0 c k
  user : ∀ p ∈ s.user, ∃ c k, p = (Blk.pool 0 c k, 0)
  len : s.user.length = n
  free : t.free.length + n = 32 * t.cid ∧ t.free.length < 32
  n : s.n = t.cid
  freed : s.freed = [] ∧ s.nsys = 0

theorem alone (x ex oom : Bool) {thr cm : Nat} (N : Nat) (hN : ∀ m, m < N → m * cm % 2 ^ 32 < thr) : ∀ n, n ≤ 32 * N → ∃ s t, Reach x ex oom thr cm s ∧ Alone thr cm n s t := by
  intro n
  induction n with
  | zero =>
    intro _
    have h := (Reach.init (x := x) (ex := ex) (oom := oom) (thr := thr) (cm := cm)).step rfl .spawn
    rw [if_pos (by simp [S.init])] at h
    exact ⟨_, {}, h, ⟨⟨rfl, rfl⟩, rfl, rfl, rfl, ⟨rfl, rfl, rfl⟩, by simp, by simp [S.init], rfl, ⟨rfl, by simp⟩, rfl, ⟨rfl, rfl⟩⟩⟩
  | succ n ih =>
    intro hn
    obtain ⟨s, t, h, a⟩ := ih (by omega)
    have h0 : s.th[0]? = some t := by rw [a.th]; rfl
    cases e : t.free with
    | cons b r =>
      obtain ⟨h1, h2⟩ := not_short (t := t) a.lists.1 (by rw [e]; simp)
      have h' := h.step a.crash (.take 0 t b r h0 a.pc h1 (by rw [h2]; exact e))
      rw [h2] at h'
      refine ⟨_, t.hand r, h', ⟨a.cfg, a.crash, by simp [S.give, S.at, a.th], rfl, a.lists, ?_, ?_, by simp [S.give, a.len], ?_, a.n, a.freed⟩⟩
      · intro b' hb'
        exact a.own b' (by rw [e]; exact List.mem_cons_of_mem _ hb')
      · intro p hp
        simp only [S.give, List.mem_cons] at hp
        rcases hp with rfl | hp
        · obtain ⟨c, k, rfl⟩ := a.own b (by rw [e]; simp)
          exact ⟨c, k, rfl⟩
        · exact a.user p hp
      · have := a.free
        rw [e] at this
        simp only [List.length_cons] at this
        simp only [L.hand]; omega
    | nil =>
      obtain ⟨h1, h2⟩ := short_empty e a.lists.1 a.lists.2.2
      have h3 := h.step a.crash (.look 0 t h0 a.pc h1)
      rw [h2] at h3
      have hcid : t.cid < N := by have := a.free; rw [e] at this; simp at this; omega
      have h4 := h3.step a.crash (.below 0 (t.to .need) (by simp [S.at, a.th]) rfl (by
        unfold S.full
        have := hN t.cid hcid
        simp only [S.at, a.cfg.1, a.cfg.2, a.n]
        omega))
      have h5 := h4.step a.crash (.grow 0 (t.to .grow) (.pool 0 (t.cid + 1) 31) ((blocks 0 (t.cid + 1)).tail ++ []) (by simp [S.at, a.th, L.to]) rfl (by
        simp only [L.chunk, L.to, e]; rfl))
      refine ⟨_, ((t.to .grow).chunk 0).hand ((blocks 0 (t.cid + 1)).tail ++ []), h5, ⟨a.cfg, a.crash, by simp [S.give, S.at, a.th], rfl, a.lists, ?_, ?_, by simp [S.give, S.at, a.len], ?_, by simp [S.at, L.hand, L.chunk, L.to, a.n], a.freed⟩⟩
      · intro b hb
        simp only [L.hand, List.append_nil] at hb
        have := List.mem_of_mem_tail hb
        simp [blocks] at this
        obtain ⟨k, _, rfl⟩ := this
        exact ⟨_, k, rfl⟩
      · intro p hp
        simp only [S.give, S.at, List.mem_cons] at hp
        rcases hp with rfl | hp
        · exact ⟨_, _, rfl⟩
        · exact a.user p hp
      · have := a.free
        rw [e] at this
        simp [L.hand, L.chunk, L.to, blocks] at this ⊢; omega

/-- 40 blocks handed out to one thread: C122 is about this run, too. -/
example : ∃ s, Reach false true false 1000000 4096 s ∧ s.user.length = 40 ∧ s.crash = false ∧ s.th.length < 1024 := by
  obtain ⟨s, t, h, a⟩ := alone false true false (thr := 1000000) (cm := 4096) 2 (by intro m hm; omega) 40 (by omega)
  exact ⟨s, h, a.len, a.crash, by rw [a.th]; simp⟩

/-- A second thread gives back what the first one has. -/
theorem crosses {ex oom : Bool} {thr cm : Nat} : ∀ (n : Nat) {s : S} {t t1 : L}, Reach true ex oom thr cm s → s.crash = false → s.th = [t, t1] → t1.pc = .idle → (∀ p ∈ s.user, ∃ c k, p = (Blk.pool 0 c k, 0)) → s.user.length = n →
    ∃ s' t1', Reach true ex oom thr cm s' ∧ s'.crash = false ∧ s'.th = [t, t1'] ∧ s'.user = [] ∧ s'.n = s.n ∧ s'.thr = s.thr ∧ s'.cm = s.cm := by
  intro n
  induction n with
  | zero =>
    intro s t t1 h hc ht _ _ hl
    exact ⟨s, t1, h, hc, ht, List.length_eq_zero_iff.1 hl, rfl, rfl, rfl⟩
  | succ n ih =>
    intro s t t1 h hc ht hp hu hl
    obtain ⟨p, r, e⟩ : ∃ p r, s.user = p :: r := by
      cases e : s.user with
      | nil => rw [e] at hl; simp at hl
      | cons p r => exact ⟨p, r, rfl⟩
    obtain ⟨c, k, rfl⟩ := hu p (by rw [e]; simp)
    have h' := h.step hc (.cross 1 0 c k 0 t1 (by rw [ht]; rfl) hp (by rw [e]; simp) (by omega) rfl)
    rw [e, List.erase_cons_head] at h'
    obtain ⟨s', t1', g1, g2, g3, g4, g5, g6, g7⟩ := ih (t := t) (t1 := { t1 with xcpu := .pool 0 c k :: t1.xcpu }) h' hc (by simp only [S.at, ht]; rfl) hp (fun p hp => hu p (by rw [e]; exact List.mem_cons_of_mem _ hp)) (by rw [e] at hl; simpa using hl)
    exact ⟨s', t1', g1, g2, g3, g4, g5, g6, g7⟩

/-- Blocks that another thread gives back do not come back: every block of the pool is free, and the thread that made them all asks the system for one. -/
theorem C123_lost_partial {thr cm : Nat} (ht : 0 < thr) (hc : 0 < cm) (hw : thr + cm ≤ 2 ^ 32) : ∃ s t, Reach true false false thr cm s ∧ s.user = [] ∧ 0 < s.n ∧ s.th[0]? = some t ∧ t.pc = .sys := by
  have hN1 : (thr + cm - 1) / cm * cm ≤ thr + cm - 1 := Nat.div_mul_le_self _ _
  have hN2 : thr ≤ (thr + cm - 1) / cm * cm := by
    have := Nat.mod_lt (thr + cm - 1) hc
    have e := Nat.div_add_mod (thr + cm - 1) cm
    rw [Nat.mul_comm] at e
    omega
  generalize (thr + cm - 1) / cm = N at hN1 hN2
  have hlt : ∀ m, m < N → m * cm < thr := by
    intro m hm
    have : (m + 1) * cm ≤ N * cm := Nat.mul_le_mul_right _ hm
    rw [Nat.add_mul] at this
    omega
  obtain ⟨s, t, h, a⟩ := alone true false false (thr := thr) (cm := cm) N (fun m hm => Nat.lt_of_le_of_lt (Nat.mod_le _ _) (hlt m hm)) (32 * N) (Nat.le_refl _)
  have h1 := h.step a.crash .spawn
  rw [if_pos (by rw [a.th]; simp)] at h1
  obtain ⟨s', t1', h2, hc2, e1, e2, e3, e4, e5⟩ := crosses (t := t) (t1 := {}) (32 * N) h1 a.crash (by rw [a.th]; rfl) rfl a.user a.len
  have hf : t.free = [] := by have := a.free; exact List.length_eq_zero_iff.1 (by omega)
  obtain ⟨g1, g2⟩ := short_empty hf a.lists.1 a.lists.2.2
  have hn : t.cid = N := by have := a.free; rw [hf] at this; simp at this; omega
  have h3 := h2.step hc2 (.look 0 t (by rw [e1]; rfl) a.pc g1)
  rw [g2] at h3
  have h4 := h3.step hc2 (.full 0 (t.to .need) (by simp [S.at, e1]) rfl (.inl (by
    unfold S.full
    simp only [S.at, e3, e4, e5, a.cfg.1, a.cfg.2, a.n, hn]
    rw [Nat.mod_eq_of_lt (by omega)]
    exact hN2)))
  simp only [L.to, hf] at h4
  refine ⟨_, _, h4, e2, ?_, by simp [S.at, e1]; rfl, rfl⟩
  simp only [S.at, e3, a.n, hn]
  rcases Nat.eq_zero_or_pos N with h0 | h0
  · subst h0; omega
  · exact h0

/-- With a limit of 4 GiB or more there is none. -/
theorem C123_limit_partial {thr cm : Nat} (ht : 2 ^ 32 ≤ thr) (N : Nat) : ∃ s, Reach false false false thr cm s ∧ s.crash = false ∧ s.n = N := by
  obtain ⟨s, t, h, a⟩ := alone false false false (thr := thr) (cm := cm) N (fun m _ => Nat.lt_of_lt_of_le (Nat.mod_lt _ (by omega)) ht) (32 * N) (Nat.le_refl _)
  exact ⟨s, h, a.crash, by have := a.free; rw [a.n]; omega⟩

/-- If the system has no memory, a null pointer is followed. -/
theorem C123_oom_partial (thr cm : Nat) : ∃ s, Reach false false true thr cm s ∧ s.crash = true := by
  have h := (Reach.init (x := false) (ex := false) (oom := true) (thr := thr) (cm := cm)).step rfl .spawn
  rw [if_pos (by simp [S.init])] at h
  have h := h.step rfl (.look 0 {} rfl rfl ⟨rfl, by decide⟩)
  have h := h.step rfl (.full 0 { pc := .need } rfl rfl (.inr rfl))
  exact ⟨_, h.step rfl (.none 0 { pc := .sys } rfl rfl rfl), rfl⟩

/-- Numbers of threads are not used again: after 1024 threads that are gone, the next one aborts. -/
theorem C123_threads_partial (thr cm : Nat) : ∃ s s', Reach false true false thr cm s ∧ s.crash = false ∧ (∀ t ∈ s.th, t.pc = .dead) ∧ Step false true false s s' ∧ s'.crash = true := by
  have gen : ∀ n, n ≤ 1024 → ∃ s, Reach false true false thr cm s ∧ s.crash = false ∧ (∀ t ∈ s.th, t.pc = .dead) ∧ s.th.length = n := by
    intro n
    induction n with
    | zero => intro _; exact ⟨_, .init, rfl, by simp [S.init], rfl⟩
    | succ n ih =>
      intro hn
      obtain ⟨s, h, hc, hd, hl⟩ := ih (by omega)
      have h1 := h.step hc .spawn
      rw [if_pos (by omega)] at h1
      have h2 := h1.step hc (.exit s.th.length {} (by simp) rfl rfl)
      rw [if_neg (by decide)] at h2
      have h3 := h2.step hc (.gone s.th.length { pc := .x } (by simp [S.at]; rfl) rfl rfl)
      refine ⟨_, h3, hc, ?_, by simp [S.at, hl]⟩
      intro t ht
      simp [S.at] at ht
      rcases ht with ht | rfl
      · exact hd t ht
      · rfl
  obtain ⟨s, h, hc, hd, hl⟩ := gen 1024 (Nat.le_refl _)
  exact ⟨s, _, h, hc, hd, .spawn, by rw [if_neg (by omega)]⟩

/-- A thread after its first allocation. -/
def first (i : Nat) : L := ((({} : L).to .grow).chunk i).hand (blocks i 1).tail

theorem one_more {thr cm : Nat} {s : S} (h : Reach true true false thr cm s) (hc : s.crash = false) (hl : s.th.length < 1024) (hn : ¬ s.full) :
    Reach true true false thr cm { s with th := s.th ++ [first s.th.length], n := s.n + 1, user := (.pool s.th.length 1 31, s.th.length) :: s.user } := by
  have g : ∀ t : L, (s.th ++ [t])[s.th.length]? = some t := fun t => by simp
  have st : ∀ t t' : L, (s.th ++ [t]).set s.th.length t' = s.th ++ [t'] := fun t t' => by simp
  have h1 := h.step hc .spawn
  rw [if_pos hl] at h1
  have h2 := h1.step hc (.look s.th.length {} (g _) rfl ⟨rfl, by decide⟩)
  simp only [S.at, st] at h2
  have h3 := h2.step hc (.below s.th.length _ (g _) rfl hn)
  simp only [S.at, st] at h3
  have h4 := h3.step hc (.grow s.th.length _ (.pool s.th.length 1 31) (blocks s.th.length 1).tail (g _) rfl (by
    simp only [L.chunk, L.to, L.find, L.drain]; rfl))
  simp only [S.give, S.at, st] at h4
  exact h4

/-- Two threads exchange one block each; the first one gives back the other's and ends: its chunk goes to the system, with a block in it that the second one still has. -/
theorem C123_exit_partial {thr cm : Nat} (hc : cm < thr) (hw : cm < 2 ^ 32) : ∃ s c k o, Reach true true false thr cm s ∧ s.crash = false ∧ (Blk.pool 0 c k, o) ∈ s.user ∧ (0, c) ∈ s.freed := by
  have h1 := one_more (Reach.init (x := true) (ex := true) (oom := false) (thr := thr) (cm := cm)) rfl (by simp [S.init]) (by simp only [S.full, S.init]; omega)
  have h2 := one_more h1 rfl (by simp [S.init]) (by simp only [S.full, S.init, Nat.zero_add, Nat.one_mul]; rw [Nat.mod_eq_of_lt hw]; omega)
  have h3 := h2.step rfl (.cross 0 1 1 31 1 (first 0) rfl rfl (by simp [S.init]) (by omega) rfl)
  have h4 := h3.step rfl (.exit 0 { first 0 with xcpu := [.pool 1 1 31] } rfl rfl rfl)
  rw [if_neg (by decide)] at h4
  have h5 := h4.step rfl (.release 0 1 [] _ rfl rfl (by decide))
  rw [if_pos (by decide)] at h5
  refine ⟨_, 1, 31, 0, h5, rfl, ?_, List.mem_cons_self⟩
  show (Blk.pool 0 1 31, 0) ∈ ([(Blk.pool 1 1 31, 1), (Blk.pool 0 1 31, 0)] : List (Blk × Nat)).erase (Blk.pool 1 1 31, 1)
  decide

/-- A second thread gives back the first `j` blocks of chunk `c`. -/
theorem give_back {ex oom : Bool} {thr cm c : Nat} {s0 : S} {t : L} (h0 : Reach true ex oom thr cm s0) (hc : s0.crash = false) (ht : s0.th = [t, {}]) (hu : ∀ k, k < 32 → (Blk.pool 0 c k, 0) ∈ s0.user) :
    ∀ j, j ≤ 32 → ∃ s l, Reach true ex oom thr cm s ∧ s.crash = false ∧ s.th = [t, { xcpu := l }] ∧ l.length = j ∧ (∀ b ∈ l, ∃ k, b = Blk.pool 0 c k) ∧ ∀ k, j ≤ k → k < 32 → (Blk.pool 0 c k, 0) ∈ s.user := by
  intro j
  induction j with
  | zero => intro _; exact ⟨s0, [], h0, hc, ht, rfl, by simp, fun k _ hk => hu k hk⟩
  | succ j ih =>
    intro hj
    obtain ⟨s, l, h, hc, ht, hl, hb, hu⟩ := ih (by omega)
    have h' := h.step hc (.cross 1 0 c j 0 { xcpu := l } (by rw [ht]; rfl) rfl (hu j (Nat.le_refl _) (by omega)) (by omega) rfl)
    refine ⟨_, .pool 0 c j :: l, h', hc, by simp [S.at, ht], by simp [hl], ?_, ?_⟩
    · intro b hb'
      simp only [List.mem_cons] at hb'
      rcases hb' with rfl | hb'
      · exact ⟨j, rfl⟩
      · exact hb b hb'
    · intro k h1 h2
      exact (List.mem_erase_of_ne (by simp; omega)).2 (hu k (by omega) h2)

/-- A thread that made 201 chunks, and another one that gives back the blocks of the last one: this one looks for the chunk in its own table, which has 200 entries, and aborts. -/
theorem C123_table_partial {thr cm : Nat} (hN : ∀ m, m < 201 → m * cm % 2 ^ 32 < thr) : ∃ s, Reach true false false thr cm s ∧ s.crash = true := by
  obtain ⟨s, t, h, a⟩ := alone true false false (thr := thr) (cm := cm) 201 hN (32 * 201) (Nat.le_refl _)
  have hcid : t.cid = 201 := by have := a.free; omega
  have hf : t.free = [] := by have := a.free; exact List.length_eq_zero_iff.1 (by omega)
  have hu : ∀ k, k < 32 → (Blk.pool 0 201 k, 0) ∈ s.user := by
    intro k hk
    rcases C122_kept h a.crash (i := 0) (c := 201) (k := k) (t := t) (by rw [a.th]; rfl) (by omega) (by omega) hk with ⟨o, ho⟩ | ⟨t', ht', hl⟩
    · obtain ⟨c', k', e⟩ := a.user _ ho
      simp only [Prod.mk.injEq] at e
      rw [e.2] at ho
      exact ho
    · rw [a.th] at ht'
      simp only [List.mem_singleton] at ht'
      subst ht'
      rw [hf, a.lists.1, a.lists.2.1] at hl
      simp at hl
  have h1 := h.step a.crash .spawn
  rw [if_pos (by rw [a.th]; simp)] at h1
  obtain ⟨s', l, h2, hc2, e1, hl, hb, _⟩ := give_back (c := 201) (t := t) h1 a.crash (by rw [a.th]; rfl) hu 32 (Nat.le_refl _)
  obtain ⟨b, r, e⟩ : ∃ b r, l.reverse = b :: r := by
    cases e : l.reverse with
    | nil => have := congrArg List.length e; simp [hl] at this
    | cons b r => exact ⟨b, r, rfl⟩
  have hbr : ∀ a ∈ b :: r, ∃ k, a = Blk.pool 0 201 k := fun a ha => hb a (by rw [← e] at ha; simpa using ha)
  obtain ⟨k, rfl⟩ := hbr b (by simp)
  have hd : ({ xcpu := l } : L).drain = { free := .pool 0 201 k :: r } := by simp [L.drain, e]
  have hfind : ({ xcpu := l } : L).find = { free := .pool 0 201 k :: r } := by unfold L.find; rw [hd, if_neg (by simp)]
  have h3 := h2.step hc2 (.take 1 { xcpu := l } (.pool 0 201 k) r (by rw [e1]; rfl) rfl (fun hs => by have := hs.1; rw [hd] at this; cases this) (by rw [hfind]))
  rw [hfind] at h3
  have h4 := h3.step hc2 (.free 1 0 201 k { free := r } { free := .pool 0 201 k :: r } (by simp [S.give, S.at, e1, L.hand]) rfl (by simp [S.give]) rfl)
  have hr : r.length = 31 := by have := congrArg List.length e; simp [hl] at this; omega
  rw [if_pos (by simp [L.bad, hr, Blk.ch])] at h4
  exact ⟨_, h4, rfl⟩

end Verif.Pool.Shared
