import Verif.Limiter.TokenLemmas
/-!
# Properties C13 and C32: the token bucket
-/

namespace Verif.Limiter.Token

/-- Configuration and start of a bucket on which the theorems rest: between one and 10⁹ tokens per second,
a burst of at least one token, a burst duration that fits 64 bits and is not longer than the clock has
been running. -/
structure Config (burst rate start : UInt64) : Prop where
  rate1 : 1 ≤ rate.toNat
  rate2 : rate.toNat ≤ 1000000000
  burst1 : 1 ≤ burst.toNat
  fits : burst.toNat * (1000000000 / rate.toNat) ≤ start.toNat

theorem init_one {burst rate start : UInt64} (c : Config burst rate start) :
    (TB.init burst rate start).one.toNat = 1000000000 / rate.toNat := by
  have hm : max rate 1 = rate := by
    show (if rate ≤ 1 then 1 else rate) = rate
    split
    · next h =>
      rw [UInt64.le_iff_toNat_le] at h
      have := c.rate1
      apply UInt64.toNat_inj.1
      have e : (1 : UInt64).toNat = 1 := rfl
      omega
    · rfl
  unfold TB.init
  simp only [hm, UInt64.toNat_div]
  rfl

theorem init_full {burst rate start : UInt64} (c : Config burst rate start) :
    (TB.init burst rate start).full.toNat = burst.toNat * (1000000000 / rate.toNat) := by
  have h1 := init_one c
  have h2 := c.fits
  have h3 : (TB.init burst rate start).full = burst * (TB.init burst rate start).one := rfl
  rw [h3, UInt64.toNat_mul, h1]
  exact Nat.mod_eq_of_lt (Nat.lt_of_le_of_lt h2 start.toNat_lt)

theorem init_good {burst rate start : UInt64} (c : Config burst rate start) :
    Good (TB.init burst rate start) start := by
  refine ⟨?_, ?_, Nat.le_refl _⟩
  · rw [init_one c, init_full c]
    exact Nat.le_mul_of_pos_left _ c.burst1
  · rw [init_full c]; exact c.fits

/-- **C13, exact behaviour.**  For every arrival history the controller takes the decisions of the abstract
token bucket with the configured rate and burst, empty at start. -/
theorem C13_refines_token_bucket (burst rate start : UInt64) (c : Config burst rate start)
    (ts : List UInt64) (h : Mono start ts) :
    ((TB.init burst rate start).run ts).2 =
      Spec.Bucket.run { one := 1000000000 / rate.toNat, full := burst.toNat * (1000000000 / rate.toNat),
                        credit := 0, seen := start.toNat } (ts.map UInt64.toNat) := by
  refine Rep.run ts ⟨(init_one c).symm, (init_full c).symm, rfl, ?_⟩ (init_good c) h
  show 0 = min (start.toNat - start.toNat) _
  omega

theorem run_append (b : TB) (xs ys : List UInt64) :
    (b.run (xs ++ ys)).2 = (b.run xs).2 ++ ((b.run xs).1.run ys).2 ∧
    (b.run (xs ++ ys)).1 = ((b.run xs).1.run ys).1 := by
  induction xs generalizing b with
  | nil => exact ⟨rfl, rfl⟩
  | cons x xs ih =>
    have := ih (b.beforeSchedule x).1
    simp only [List.cons_append, TB.run]
    exact ⟨by rw [this.1], this.2⟩

theorem Mono.append {t0 : UInt64} {xs ys : List UInt64} (h : Mono t0 (xs ++ ys)) :
    Mono t0 xs ∧ Mono (lastTime t0 xs) ys := by
  induction xs generalizing t0 with
  | nil => exact ⟨trivial, h⟩
  | cons x xs ih => exact ⟨⟨h.1, (ih h.2).1⟩, (ih h.2).2⟩

theorem run_good {b : TB} {t0 : UInt64} (ts : List UInt64) (g : Good b t0) (h : Mono t0 ts) :
    Good (b.run ts).1 (lastTime t0 ts) := by
  induction ts generalizing b t0 with
  | nil => exact g
  | cons t ts ih => exact ih (g.mono h.1).step h.2

/-- **C13, rate bound.**  Split any arrival history into three parts; the middle part, from its first
arrival to its last, is an arbitrary interval of the history.  The number of requests admitted in it is
at most burst + (length of the interval)/(token period). -/
theorem C13_interval_bound (burst rate start : UInt64) (c : Config burst rate start)
    (before : List UInt64) (first : UInt64) (mid after : List UInt64)
    (h : Mono start (before ++ first :: mid ++ after)) :
    ∃ o1 o2 o3, ((TB.init burst rate start).run (before ++ first :: mid ++ after)).2 = o1 ++ o2 ++ o3 ∧
      o1.length = before.length ∧ o2.length = (first :: mid).length ∧
      o2.count true ≤ burst.toNat +
        ((lastTime first mid).toNat - first.toNat) / (1000000000 / rate.toNat) := by
  have hlen : ∀ (ts : List UInt64) (b : TB), (b.run ts).2.length = ts.length := by
    intro ts; induction ts with
    | nil => intro b; rfl
    | cons t ts ih => intro b; simp [TB.run, ih]
  have g := init_good c
  have e1 := init_one c
  have e2 := init_full c
  generalize hb : TB.init burst rate start = b at *
  refine ⟨(b.run before).2, ((b.run before).1.run (first :: mid)).2,
    ((b.run (before ++ first :: mid)).1.run after).2, ?_, hlen _ _, hlen _ _, ?_⟩
  · rw [(run_append b (before ++ first :: mid) after).1, (run_append b before (first :: mid)).1]
  · have m1 := (Mono.append h).1
    have m2 := Mono.append m1
    have g1 := (run_good before g m2.1).mono m2.2.1
    have keep := run_bound before g m2.1
    have hm : Mono first (first :: mid) := ⟨Nat.le_refl _, m2.2.2⟩
    obtain ⟨-, -, k3, -, k5⟩ := run_bound (first :: mid) g1 hm
    generalize hk : ((b.run before).1.run (first :: mid)).2.count true = k at *
    rw [keep.1, keep.2.1, e1, e2] at k5
    have hone : 0 < 1000000000 / rate.toNat := Nat.div_pos c.rate2 c.rate1
    generalize 1000000000 / rate.toNat = one at *
    rcases Nat.eq_zero_or_pos k with hz | hp
    · rw [hz]; exact Nat.zero_le _
    · have h5 := k5 hp
      have hl : (lastTime first (first :: mid)) = lastTime first mid := rfl
      rw [hl] at k3
      have h6 : (k - burst.toNat) * one ≤ (lastTime first mid).toNat - first.toNat := by
        rw [Nat.sub_mul]; omega
      have := (Nat.le_div_iff_mul_le hone).2 h6
      omega

/-- **C13, no starvation.**  A request arriving at least one token period after the previous arrivals'
last admission (or after the start) is admitted. -/
theorem C13_admits_after_one_period (burst rate start : UInt64) (c : Config burst rate start)
    (before : List UInt64) (now : UInt64) (h : Mono start (before ++ [now]))
    (admitted : UInt64) (ha : (before.zip ((TB.init burst rate start).run before).2).reverse.find? (·.2) =
        some (admitted, true) ∨
      (((TB.init burst rate start).run before).2.count true = 0 ∧ admitted = start))
    (hp : admitted.toNat + 1000000000 / rate.toNat ≤ now.toNat) :
    ((((TB.init burst rate start).run before).1).beforeSchedule now).2 = true := by
  have g := init_good c
  have e1 := init_one c
  generalize hb : TB.init burst rate start = b at *
  have hlast0 : b.last.toNat ≤ start.toNat := g.lastLe
  obtain ⟨m1, m2⟩ := Mono.append h
  have g1 := (run_good before g m1).mono m2.1
  have keep := (run_bound before g m1).1
  have key : (b.run before).1.last.toNat ≤ admitted.toNat := by
    clear hp m2 g1 hb e1 keep h
    rcases ha with ha | ⟨hz, ha⟩
    · clear c hlast0
      induction hn : before.length generalizing before with
      | zero => rw [List.length_eq_zero_iff] at hn; subst hn; simp at ha
      | succ k ih =>
        rcases List.eq_nil_or_concat before with h' | ⟨xs, x, h'⟩
        · subst h'; simp at hn
        · rw [List.concat_eq_append] at h'
          subst h'
          obtain ⟨n1, n2⟩ := Mono.append m1
          have gx := (run_good xs g n1).mono n2.1
          obtain ⟨q1, q2⟩ := run_append b xs [x]
          rw [q1] at ha
          rw [q2]
          have hl : (b.run xs).2.length = xs.length := by
            have : ∀ (ts : List UInt64) (b : TB), (b.run ts).2.length = ts.length := by
              intro ts; induction ts with
              | nil => intro b; rfl
              | cons t ts ih => intro b; simp [TB.run, ih]
            exact this _ _
          rw [List.zip_append hl.symm] at ha
          simp only [TB.run, List.zip_cons_cons, List.zip_nil_left, List.reverse_append,
            List.reverse_cons, List.reverse_nil, List.nil_append, List.singleton_append,
            List.find?_cons] at ha ⊢
          obtain ⟨p1, p2⟩ := before_nat gx
          rcases Nat.lt_or_ge x.toNat ((b.run xs).1.last.toNat + (b.run xs).1.one.toNat) with hl | hl
          · rw [p1 hl] at ha ⊢
            exact ih xs n1 (by simpa using ha) (by simpa using hn)
          · obtain ⟨b', r1, -, -, -, r5⟩ := p2 hl
            rw [r1] at ha ⊢
            simp only [Option.some.injEq, Prod.mk.injEq] at ha
            rw [← ha.1]; exact r5
    · subst ha
      have : ∀ (ts : List UInt64) (b : TB) (t0 : UInt64), Good b t0 → Mono t0 ts →
          (b.run ts).2.count true = 0 → (b.run ts).1 = b := by
        intro ts; induction ts with
        | nil => intros; rfl
        | cons t ts ih =>
          intro b t0 g m hz
          have g' := g.mono m.1
          simp only [TB.run, List.count_cons] at hz ⊢
          obtain ⟨p1, p2⟩ := before_nat g'
          rcases Nat.lt_or_ge t.toNat (b.last.toNat + b.one.toNat) with hl | hl
          · rw [p1 hl] at hz ⊢
            exact ih b t g' m.2 (by simpa using hz)
          · obtain ⟨b', r1, -, -, -, r5⟩ := p2 hl
            rw [r1] at hz; simp at hz
      rw [this before b admitted g m1 hz]
      exact hlast0
  obtain ⟨-, p2⟩ := before_nat g1
  obtain ⟨b', r1, -⟩ := p2 (by rw [keep, e1]; omega)
  rw [r1]

/-! Non-vacuity: 1000 tokens per second, burst 2, started 5 s after the clock's epoch. -/

example : Config 2 1000 5000000000 :=
  ⟨by decide, by decide, by decide, by decide⟩

example : ((TB.init 2 1000 5000000000).run
    [5000500000, 5010000000, 5010000000, 5010000000, 5011000000]).2 = [false, true, true, false, true] := by
  decide

example : Mono 5000000000 [5000500000, 5010000000, 5010000000, 5010000000, 5011000000] := by
  refine ⟨?_, ?_, ?_, ?_, ?_, trivial⟩ <;> decide

/-- **C32 refuted.**  When the steady clock (time since boot) has run for less than the burst duration,
the first admitted request moves the bookkeeping to a time far in the future: with 100 tokens per second
and a burst of 10⁶ tokens, started one hour after boot, one request is admitted and afterwards no request
is, not even one arriving 500 years later. -/
theorem C32_young_clock_blocks (now : UInt64) (h : now.toNat ≤ 500 * 365 * 86400 * 1000000000) :
    ((TB.init 1000000 100 3600000000000).run [3700000000000, now]).2 = [true, false] ∨
      now.toNat < 3700000000000 := by
  rcases Nat.lt_or_ge now.toNat 3700000000000 with h' | h'
  · exact .inr h'
  · left
    have e : (TB.init 1000000 100 3600000000000).beforeSchedule 3700000000000 =
        (⟨10000000, 10000000000000, 18446737773719551616⟩, true) := by decide
    simp only [TB.run, e]
    have hs : (now - 10000000).toNat = now.toNat - 10000000 :=
      UInt64.toNat_sub_of_le _ _ (UInt64.le_iff_toNat_le.2 (by
        have : (10000000 : UInt64).toNat = 10000000 := rfl
        omega))
    have : (18446737773719551616 : UInt64) > now - 10000000 := by
      rw [gt_iff_lt, UInt64.lt_iff_toNat_lt, hs]
      have : (18446737773719551616 : UInt64).toNat = 18446737773719551616 := rfl
      omega
    simp [TB.beforeSchedule, this]

/-- **C13 needs a burst of at least one.**  With burst 0 a request two token periods minus one nanosecond
after the previous admission is still rejected. -/
theorem C13_zero_burst_halves_rate :
    ((TB.init 0 1000 5000000000).run [5001000000, 5002000000, 5002999999, 5003000000]).2 =
      [true, false, false, true] := by decide

/-- **C13 needs a rate of at most 10⁹.**  Above, the token period is zero and nothing is ever rejected,
whatever the burst (as long as the clock does not run backwards). -/
theorem C13_excessive_rate_never_rejects (burst rate start : UInt64) (hr : 1000000000 < rate.toNat)
    (ts : List UInt64) (h : Mono start ts) :
    ∀ d ∈ ((TB.init burst rate start).run ts).2, d = true := by
  have hm : max rate 1 = rate := by
    show (if rate ≤ 1 then 1 else rate) = rate
    rw [if_neg]
    rw [UInt64.le_iff_toNat_le]
    have e : (1 : UInt64).toNat = 1 := rfl
    omega
  have h1 : (TB.init burst rate start).one = 0 := by
    unfold TB.init
    simp only [hm]
    apply UInt64.toNat_inj.1
    rw [UInt64.toNat_div]
    have e : (1000000000 : UInt64).toNat = 1000000000 := rfl
    rw [e, Nat.div_eq_of_lt hr]; rfl
  have h2 : (TB.init burst rate start).full = 0 := by
    have : (TB.init burst rate start).full = burst * (TB.init burst rate start).one := rfl
    rw [this, h1]; simp
  have h3 : (TB.init burst rate start).last.toNat ≤ start.toNat := Nat.le_refl _
  generalize TB.init burst rate start = b at *
  induction ts generalizing b start with
  | nil => intro d hd; simp [TB.run] at hd
  | cons t ts ih =>
    have hle : b.last.toNat ≤ t.toNat := Nat.le_trans h3 h.1
    have g : Good b t := ⟨by simp [h1, h2], by simp [h2], hle⟩
    obtain ⟨b', r1, r2, r3, r4, r5⟩ := (before_nat g).2 (by simpa [h1] using hle)
    intro d hd
    simp only [TB.run, r1, List.mem_cons] at hd
    rcases hd with hd | hd
    · exact hd
    · exact ih t h.2 b' (by rw [r2, h1]) (by rw [r3, h2]) r5 d hd

end Verif.Limiter.Token
