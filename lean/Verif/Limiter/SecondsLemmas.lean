import Verif.Limiter.SecondsModel
/-!
Invariant of the per-second limiter.
-/

namespace Verif.Limiter.Seconds

/-- No running call lags a full turn of the ring behind the clock. -/
def Prompt (w : Nat) (c : Conf) : Prop := ∀ t n, (c.pc t).second = some n → c.clockMs / 1000 < n + w

/-- How many decided requests carry second `n`. -/
def cnt (log : List Decision) (n : Nat) : Nat := (log.filter (fun d => d.second == n)).length

theorem cnt_append (l : List Decision) (d : Decision) (n : Nat) :
    cnt (l ++ [d]) n = cnt l n + if d.second = n then 1 else 0 := by
  unfold cnt
  by_cases h : d.second = n <;> simp [h]

/-- The log is right: each decision admits iff fewer than `limit` earlier ones carry the same second. -/
def LogOK (limit : Int) (log : List Decision) : Prop :=
  ∀ pre d post, log = pre ++ d :: post → (d.admitted = true ↔ (cnt pre d.second : Int) < limit)

theorem LogOK.append {limit : Int} {log : List Decision} {d : Decision} (h : LogOK limit log)
    (hd : d.admitted = true ↔ (cnt log d.second : Int) < limit) : LogOK limit (log ++ [d]) := by
  intro pre e post he
  rcases List.eq_nil_or_concat post with hp | ⟨post', x, hp⟩
  · subst hp
    rw [show pre ++ [e] = pre ++ [e] from rfl] at he
    obtain ⟨h1, h2⟩ := List.append_inj' he rfl
    simp at h2
    subst h1; subst h2
    exact hd
  · subst hp
    rw [List.concat_eq_append, ← List.cons_append, ← List.append_assoc] at he
    obtain ⟨h1, _⟩ := List.append_inj' he rfl
    exact h pre e post' h1

structure Inv (w : Nat) (limit : Int) (c : Conf) : Prop where
  logOK : LogOK limit c.log
  tsLe : ∀ b, (c.bucket b).ts ≤ c.clockMs / 1000
  pcLe : ∀ t n, (c.pc t).second = some n → n ≤ c.clockMs / 1000
  logLe : ∀ n, 0 < cnt c.log n → (c.bucket (n % w)).ts % w = n % w ∧ n ≤ (c.bucket (n % w)).ts
  count : ∀ b, (c.bucket b).ts % w = b → (∀ t n, c.pc t = .stamp n → n % w ≠ b) →
    (c.bucket b).counter = cnt c.log (c.bucket b).ts
  tsMod : ∀ b, (c.bucket b).ts % w = b ∨ ((c.bucket b).ts = 0 ∧ (c.bucket b).counter = 0)
  adding : ∀ t n, c.pc t = .add n → (c.bucket (n % w)).ts = n
  unlocking : ∀ t n, c.pc t = .unlock n → (c.bucket (n % w)).ts = n ∧ c.lock = some t
  lockedL : ∀ t n, c.pc t = .locked n → c.lock = some t
  resetting : ∀ t n, c.pc t = .reset n → (c.bucket (n % w)).ts ≠ n ∧ c.lock = some t
  stamping : ∀ t n, c.pc t = .stamp n → (c.bucket (n % w)).ts ≠ n ∧ (c.bucket (n % w)).counter = 0 ∧
    c.lock = some t

theorem cnt_nil (n : Nat) : cnt [] n = 0 := rfl

theorem inv_init (w : Nat) (limit : Int) (ms : Nat) : Inv w limit (init ms) where
  logOK := by intro pre d post h; simp [init] at h
  tsLe := by intro b; simp [init]
  pcLe := by intro t n h; simp [init, PC.second] at h
  logLe := by intro n h; simp [init, cnt_nil] at h
  count := by intro b _ _; simp [init, cnt_nil]
  tsMod := by intro b; right; simp [init]
  adding := by intro t n h; simp [init] at h
  unlocking := by intro t n h; simp [init] at h
  lockedL := by intro t n h; simp [init] at h
  resetting := by intro t n h; simp [init] at h
  stamping := by intro t n h; simp [init] at h

/-- Two seconds of the same bucket, both within the last `w` seconds, are equal. -/
theorem same_second {w n m k : Nat} (hn : n ≤ k) (hm : m ≤ k) (hn' : k < n + w) (hm' : k < m + w)
    (h : n % w = m % w) : n = m := by
  have h1 := Nat.div_add_mod n w
  have h2 := Nat.div_add_mod m w
  rcases Nat.lt_trichotomy (n / w) (m / w) with hl | hl | hl
  · have : w * (n / w + 1) ≤ w * (m / w) := Nat.mul_le_mul_left _ hl
    rw [Nat.mul_add] at this
    omega
  · rw [hl] at h1; omega
  · have : w * (m / w + 1) ≤ w * (n / w) := Nat.mul_le_mul_left _ hl
    rw [Nat.mul_add] at this
    omega

theorem pc_upd {pc : Nat → PC} {t t' : Nat} {x y : PC} (h : upd pc t x t' = y) (hne : x ≠ y) :
    t' ≠ t ∧ pc t' = y := by
  by_cases e : t' = t
  · subst e; rw [upd_same] at h; exact absurd h hne
  · rw [upd_ne _ _ e] at h; exact ⟨e, h⟩

/-- A step that only moves a thread between positions carrying no obligation on other data. -/
theorem inv_move {w : Nat} {limit : Int} {c : Conf} (I : Inv w limit c) (t : Nat) (x : PC)
    (lk : Option Nat)
    (hl : ∀ t', t' ≠ t → c.lock = some t' → lk = some t')
    (hsec : ∀ n, x.second = some n → n ≤ c.clockMs / 1000)
    (hold : ∀ n, c.pc t ≠ .stamp n)
    (hx1 : ∀ n, x = .add n → (c.bucket (n % w)).ts = n)
    (hx2 : ∀ n, x = .unlock n → (c.bucket (n % w)).ts = n ∧ lk = some t)
    (hx3 : ∀ n, x = .locked n → lk = some t)
    (hx4 : ∀ n, x = .reset n → (c.bucket (n % w)).ts ≠ n ∧ lk = some t)
    (hx5 : ∀ n, x ≠ .stamp n) :
    Inv w limit { c with lock := lk, pc := upd c.pc t x } where
  logOK := I.logOK
  tsLe := I.tsLe
  pcLe := by
    intro t' n h
    by_cases e : t' = t
    · subst e; exact hsec n (by simpa using h)
    · exact I.pcLe t' n (by simpa [upd_ne _ _ e] using h)
  logLe := I.logLe
  count := by
    intro b hb hs
    refine I.count b hb (fun t' n h => ?_)
    by_cases e : t' = t
    · subst e; exact absurd h (hold n)
    · exact hs t' n (by simpa [upd_ne _ _ e] using h)
  tsMod := I.tsMod
  adding := by
    intro t' n h
    by_cases e : t' = t
    · subst e; exact hx1 n (by simpa using h)
    · exact I.adding t' n (by simpa [upd_ne _ _ e] using h)
  unlocking := by
    intro t' n h
    by_cases e : t' = t
    · subst e; exact hx2 n (by simpa using h)
    · have := I.unlocking t' n (by simpa [upd_ne _ _ e] using h)
      exact ⟨this.1, hl _ e this.2⟩
  lockedL := by
    intro t' n h
    by_cases e : t' = t
    · subst e; exact hx3 n (by simpa using h)
    · exact hl _ e (I.lockedL t' n (by simpa [upd_ne _ _ e] using h))
  resetting := by
    intro t' n h
    by_cases e : t' = t
    · subst e; exact hx4 n (by simpa using h)
    · have := I.resetting t' n (by simpa [upd_ne _ _ e] using h)
      exact ⟨this.1, hl _ e this.2⟩
  stamping := by
    intro t' n h
    by_cases e : t' = t
    · subst e; exact absurd (by simpa using h) (hx5 n)
    · have := I.stamping t' n (by simpa [upd_ne _ _ e] using h)
      exact ⟨this.1, this.2.1, hl _ e this.2.2⟩

theorem inv_reset {w : Nat} {limit : Int} {c : Conf} (I : Inv w limit c) (P : Prompt w c) {t n : Nat}
    (hpc : c.pc t = .reset n) :
    Inv w limit { c with bucket := upd c.bucket (n % w) ⟨0, (c.bucket (n % w)).ts⟩,
                         pc := upd c.pc t (.stamp n) } := by
  obtain ⟨hts, hlk⟩ := I.resetting t n hpc
  have tsEq : ∀ b, (upd c.bucket (n % w) ⟨0, (c.bucket (n % w)).ts⟩ b).ts
      = (c.bucket b).ts := by
    intro b; rw [upd_apply]; split
    · next h => rw [h]
    · rfl
  refine ⟨I.logOK, ?_, ?_, ?_, ?_, ?_, ?_, ?_, ?_, ?_, ?_⟩
  · intro b; simpa only [tsEq] using I.tsLe b
  · intro t' m h
    by_cases e : t' = t
    · subst e
      simp only [upd_same, PC.second, Option.some.injEq] at h
      exact I.pcLe t' m (by rw [hpc]; simpa [PC.second] using h)
    · exact I.pcLe t' m (by simpa [upd_ne _ _ e] using h)
  · intro m h; simpa only [tsEq] using I.logLe m h
  · intro b hb hs
    simp only [tsEq] at hb ⊢
    have hbn : b ≠ n % w := fun e => hs t n (by simp) e.symm
    rw [upd_ne _ _ hbn]
    refine I.count b hb (fun t' m h => ?_)
    by_cases e : t' = t
    · subst e; rw [hpc] at h; cases h
    · exact hs t' m (by simpa [upd_ne _ _ e] using h)
  · intro b
    by_cases e : b = n % w
    · subst e; simp only [upd_same]
      rcases I.tsMod (n % w) with h | h
      · exact .inl h
      · exact .inr ⟨h.1, trivial⟩
    · simpa only [upd_ne _ _ e] using I.tsMod b
  · intro t' m h
    obtain ⟨_, h⟩ := pc_upd h (by simp)
    simpa only [tsEq] using I.adding t' m h
  · intro t' m h
    obtain ⟨e, h⟩ := pc_upd h (by simp)
    simpa only [tsEq] using I.unlocking t' m h
  · intro t' m h
    obtain ⟨e, h⟩ := pc_upd h (by simp)
    exact I.lockedL t' m h
  · intro t' m h
    obtain ⟨e, h⟩ := pc_upd h (by simp)
    simpa only [tsEq] using I.resetting t' m h
  · intro t' m h
    by_cases e : t' = t
    · subst e
      simp only [upd_same, PC.stamp.injEq] at h
      subst h
      exact ⟨by simpa only [tsEq] using hts, by simp, hlk⟩
    · simp only [upd_ne _ _ e] at h
      have := (I.stamping t' m h).2.2
      rw [hlk] at this
      exact absurd (Option.some.inj this).symm e

theorem inv_stamp {w : Nat} {limit : Int} {c : Conf} (I : Inv w limit c) (P : Prompt w c) {t n : Nat}
    (hpc : c.pc t = .stamp n) :
    Inv w limit { c with bucket := upd c.bucket (n % w) ⟨(c.bucket (n % w)).counter, n⟩,
                         pc := upd c.pc t (.unlock n) } := by
  obtain ⟨hts, hctr, hlk⟩ := I.stamping t n hpc
  have hn1 : n ≤ c.clockMs / 1000 := I.pcLe t n (by rw [hpc]; rfl)
  have hn2 : c.clockMs / 1000 < n + w := P t n (by rw [hpc]; rfl)
  have lt : ∀ m, 0 < cnt c.log m → m % w = n % w → m < n := by
    intro m hm he
    obtain ⟨h1, h2⟩ := I.logLe m hm
    rw [he] at h1 h2
    have h3 := I.tsLe (n % w)
    rcases Nat.lt_or_ge m n with h | h
    · exact h
    · have h4 : n = m := same_second (k := c.clockMs / 1000) hn1 (by omega) hn2 (by omega) he.symm
      have h5 : n = (c.bucket (n % w)).ts :=
        same_second (k := c.clockMs / 1000) hn1 h3 hn2 (by omega) h1.symm
      exact absurd h5.symm hts
  have hzero : cnt c.log n = 0 := by
    rcases Nat.eq_zero_or_pos (cnt c.log n) with h | h
    · exact h
    · exact absurd (lt n h rfl) (Nat.lt_irrefl n)
  refine ⟨I.logOK, ?_, ?_, ?_, ?_, ?_, ?_, ?_, ?_, ?_, ?_⟩
  · intro b
    by_cases e : b = n % w
    · subst e; simpa using hn1
    · simpa only [upd_ne _ _ e] using I.tsLe b
  · intro t' m h
    by_cases e : t' = t
    · subst e
      simp only [upd_same, PC.second, Option.some.injEq] at h
      rw [← h]; exact hn1
    · exact I.pcLe t' m (by simpa [upd_ne _ _ e] using h)
  · intro m h
    by_cases e : m % w = n % w
    · simp only [e, upd_same]
      exact ⟨trivial, Nat.le_of_lt (lt m h e)⟩
    · simpa only [upd_ne _ _ e] using I.logLe m h
  · intro b hb hs
    by_cases e : b = n % w
    · subst e; simp only [upd_same]; rw [hctr, hzero]
    · simp only [upd_ne _ _ e] at hb ⊢
      refine I.count b hb (fun t' m h => ?_)
      by_cases e' : t' = t
      · subst e'; rw [hpc] at h; cases h; exact fun h => e h.symm
      · exact hs t' m (by simpa [upd_ne _ _ e'] using h)
  · intro b
    by_cases e : b = n % w
    · subst e; left; simp
    · simpa only [upd_ne _ _ e] using I.tsMod b
  · intro t' m h
    obtain ⟨_, h⟩ := pc_upd h (by simp)
    have h1 := I.adding t' m h
    by_cases e : m % w = n % w
    · have := same_second (k := c.clockMs / 1000) (I.pcLe t' m (by rw [h]; rfl)) hn1
        (P t' m (by rw [h]; rfl)) hn2 e
      simp only [e, upd_same]; exact this.symm
    · simpa only [upd_ne _ _ e] using h1
  · intro t' m h
    by_cases e : t' = t
    · subst e
      simp only [upd_same, PC.unlock.injEq] at h
      subst h
      exact ⟨by simp, hlk⟩
    · simp only [upd_ne _ _ e] at h
      have := (I.unlocking t' m h).2
      rw [hlk] at this
      exact absurd (Option.some.inj this).symm e
  · intro t' m h
    obtain ⟨e, h⟩ := pc_upd h (by simp)
    exact I.lockedL t' m h
  · intro t' m h
    obtain ⟨e, h⟩ := pc_upd h (by simp)
    have := (I.resetting t' m h).2
    rw [hlk] at this
    exact absurd (Option.some.inj this).symm e
  · intro t' m h
    obtain ⟨e, h⟩ := pc_upd h (by simp)
    have := (I.stamping t' m h).2.2
    rw [hlk] at this
    exact absurd (Option.some.inj this).symm e

theorem admits_iff (limit : Int) (old : Nat) : admits limit old = true ↔ (old : Int) < limit := by
  unfold admits
  rw [Bool.not_eq_true', decide_eq_false_iff_not]
  omega

theorem inv_add {w : Nat} {limit : Int} {c : Conf} (I : Inv w limit c) (P : Prompt w c) {t n : Nat}
    (hpc : c.pc t = .add n) :
    Inv w limit { c with
      bucket := upd c.bucket (n % w)
        ⟨(c.bucket (n % w)).counter + 1, (c.bucket (n % w)).ts⟩,
      pc := upd c.pc t .idle,
      log := c.log ++ [⟨n, admits limit (c.bucket (n % w)).counter⟩] } := by
  have hts := I.adding t n hpc
  have hn1 : n ≤ c.clockMs / 1000 := I.pcLe t n (by rw [hpc]; rfl)
  have hn2 : c.clockMs / 1000 < n + w := P t n (by rw [hpc]; rfl)
  have nostamp : ∀ t' m, c.pc t' = .stamp m → m % w ≠ n % w := by
    intro t' m h e
    have := same_second (k := c.clockMs / 1000) (I.pcLe t' m (by rw [h]; rfl)) hn1
        (P t' m (by rw [h]; rfl)) hn2 e
    subst this
    exact (I.stamping t' m h).1 hts
  have hc : (c.bucket (n % w)).counter = cnt c.log n := by
    have := I.count (n % w) (by rw [hts]) nostamp
    rwa [hts] at this
  have tsEq : ∀ b, (upd c.bucket (n % w)
      ⟨(c.bucket (n % w)).counter + 1, (c.bucket (n % w)).ts⟩ b).ts = (c.bucket b).ts := by
    intro b; rw [upd_apply]; split
    · next h => rw [h]
    · rfl
  refine ⟨I.logOK.append (by rw [admits_iff, hc]), ?_, ?_, ?_, ?_, ?_, ?_, ?_, ?_, ?_, ?_⟩
  · intro b; simpa only [tsEq] using I.tsLe b
  · intro t' m h
    by_cases e : t' = t
    · subst e; simp [PC.second] at h
    · exact I.pcLe t' m (by simpa [upd_ne _ _ e] using h)
  · intro m h
    simp only [tsEq]
    rw [cnt_append] at h
    by_cases e : n = m
    · subst e; rw [hts]; exact ⟨rfl, Nat.le_refl _⟩
    · exact I.logLe m (by simpa [e] using h)
  · intro b hb hs
    simp only [tsEq] at hb ⊢
    rw [cnt_append]
    by_cases e : b = n % w
    · subst e; simp only [upd_same]; rw [hts, hc]; simp
    · rw [upd_ne _ _ e]
      have : n ≠ (c.bucket b).ts := by intro h; rw [← h] at hb; exact e hb.symm
      simp only [this, if_false]
      refine I.count b hb (fun t' m h => ?_)
      by_cases e' : t' = t
      · subst e'; rw [hpc] at h; cases h
      · exact hs t' m (by simpa [upd_ne _ _ e'] using h)
  · intro b
    by_cases e : b = n % w
    · subst e; left; simp only [upd_same]; rw [hts]
    · simpa only [upd_ne _ _ e] using I.tsMod b
  · intro t' m h
    obtain ⟨_, h⟩ := pc_upd h (by simp)
    simpa only [tsEq] using I.adding t' m h
  · intro t' m h
    obtain ⟨e, h⟩ := pc_upd h (by simp)
    simpa only [tsEq] using I.unlocking t' m h
  · intro t' m h
    obtain ⟨e, h⟩ := pc_upd h (by simp)
    exact I.lockedL t' m h
  · intro t' m h
    obtain ⟨e, h⟩ := pc_upd h (by simp)
    simpa only [tsEq] using I.resetting t' m h
  · intro t' m h
    obtain ⟨e, h⟩ := pc_upd h (by simp)
    have h1 := I.stamping t' m h
    refine ⟨by rw [tsEq]; exact h1.1, ?_, h1.2.2⟩
    simpa only [upd_ne _ _ (nostamp t' m h)] using h1.2.1

theorem inv_step {w : Nat} {limit : Int} {c c' : Conf} {a : Act} (I : Inv w limit c) (P : Prompt w c)
    (h : step w limit c a = some c') : Inv w limit c' := by
  cases a with
  | tick ms =>
    simp only [step, Option.some.injEq] at h
    subst h
    have hle : c.clockMs / 1000 ≤ (c.clockMs + ms) / 1000 := Nat.div_le_div_right (Nat.le_add_right _ _)
    exact { I with
      tsLe := fun b => Nat.le_trans (I.tsLe b) hle
      pcLe := fun t n h => Nat.le_trans (I.pcLe t n h) hle }
  | thread t =>
    simp only [step, threadStep] at h
    cases hpc : c.pc t with
    | idle =>
      simp only [hpc, Option.some.injEq] at h; subst h
      exact inv_move I t _ c.lock (fun _ _ h => h) (by simp [PC.second]) (by simp [hpc]) (by simp)
        (by simp) (by simp) (by simp) (by simp)
    | entered n =>
      simp only [hpc, Option.some.injEq] at h; subst h
      have hn := I.pcLe t n (by rw [hpc]; rfl)
      by_cases e : (c.bucket (n % w)).ts = n
      · simp only [e, ne_eq, not_true_eq_false, if_false]
        exact inv_move I t _ c.lock (fun _ _ h => h) (by simp [PC.second, hn]) (by simp [hpc])
          (by rintro m h; cases h; exact e) (by simp) (by simp) (by simp) (by simp)
      · simp only [e, ne_eq, not_false_eq_true, if_true]
        exact inv_move I t _ c.lock (fun _ _ h => h) (by simp [PC.second, hn]) (by simp [hpc])
          (by simp) (by simp) (by simp) (by simp) (by simp)
    | wantLock n =>
      simp only [hpc] at h
      have hn := I.pcLe t n (by rw [hpc]; rfl)
      by_cases e : c.lock = none
      · simp only [e, if_true, Option.some.injEq] at h; subst h
        exact inv_move I t _ (some t) (fun _ _ h => by rw [e] at h; cases h)
          (by simp [PC.second, hn]) (by simp [hpc])
          (by simp) (by simp) (by simp) (by simp) (by simp)
      · simp [e] at h
    | locked n =>
      simp only [hpc, Option.some.injEq] at h; subst h
      have hn := I.pcLe t n (by rw [hpc]; rfl)
      have hl := I.lockedL t n hpc
      by_cases e : (c.bucket (n % w)).ts = n
      · simp only [e, ne_eq, not_true_eq_false, if_false]
        exact inv_move I t _ c.lock (fun _ _ h => h) (by simp [PC.second, hn]) (by simp [hpc])
          (by simp) (by rintro m h; cases h; exact ⟨e, hl⟩) (by simp) (by simp) (by simp)
      · simp only [e, ne_eq, not_false_eq_true, if_true]
        exact inv_move I t _ c.lock (fun _ _ h => h) (by simp [PC.second, hn]) (by simp [hpc])
          (by simp) (by simp) (by simp) (by rintro m h; cases h; exact ⟨e, hl⟩) (by simp)
    | reset n =>
      simp only [hpc, Option.some.injEq] at h; subst h
      exact inv_reset I P hpc
    | stamp n =>
      simp only [hpc, Option.some.injEq] at h; subst h
      exact inv_stamp I P hpc
    | unlock n =>
      simp only [hpc, Option.some.injEq] at h; subst h
      have hn := I.pcLe t n (by rw [hpc]; rfl)
      have hl := I.unlocking t n hpc
      exact inv_move I t _ none
        (fun t' e h => by rw [hl.2] at h; exact absurd (Option.some.inj h).symm e)
        (by simp [PC.second, hn]) (by simp [hpc])
        (by rintro m h; cases h; exact hl.1) (by simp) (by simp) (by simp) (by simp)
    | add n =>
      simp only [hpc, Option.some.injEq] at h; subst h
      exact inv_add I P hpc

end Verif.Limiter.Seconds
