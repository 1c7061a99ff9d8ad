import Verif.Limiter.TokenModel
import Verif.Limiter.TokenSpec

namespace Verif.Limiter.Token

/-- Everything the arithmetic needs: no wrap-around at clock value `now`. -/
structure Good (b : TB) (now : UInt64) : Prop where
  oneFull : b.one.toNat ≤ b.full.toNat
  clock : b.full.toNat ≤ now.toNat
  lastLe : b.last.toNat ≤ now.toNat

theorem toNat_add_of_lt {a b : UInt64} (c : UInt64) (h : a.toNat + b.toNat ≤ c.toNat) :
    (a + b).toNat = a.toNat + b.toNat := by
  rw [UInt64.toNat_add]
  exact Nat.mod_eq_of_lt (Nat.lt_of_le_of_lt h c.toNat_lt)

/-- `beforeSchedule` in natural numbers. -/
theorem before_nat {b : TB} {now : UInt64} (g : Good b now) :
    (now.toNat < b.last.toNat + b.one.toNat → b.beforeSchedule now = (b, false)) ∧
    (b.last.toNat + b.one.toNat ≤ now.toNat →
      ∃ b', b.beforeSchedule now = (b', true) ∧ b'.one = b.one ∧ b'.full = b.full ∧
        b'.last.toNat = max (b.last.toNat) (now.toNat - b.full.toNat) + b.one.toNat ∧
        b'.last.toNat ≤ now.toNat) := by
  obtain ⟨h1, h2, h3⟩ := g
  have e1 : (now - b.one).toNat = now.toNat - b.one.toNat :=
    UInt64.toNat_sub_of_le _ _ (UInt64.le_iff_toNat_le.2 (by omega))
  have e2 : (now - b.full).toNat = now.toNat - b.full.toNat :=
    UInt64.toNat_sub_of_le _ _ (UInt64.le_iff_toNat_le.2 h2)
  constructor
  · intro h
    unfold TB.beforeSchedule
    have : b.last > now - b.one := by
      rw [gt_iff_lt, UInt64.lt_iff_toNat_lt, e1]; omega
    rw [if_pos this]
  · intro h
    have c1 : ¬ b.last > now - b.one := by
      rw [gt_iff_lt, UInt64.lt_iff_toNat_lt, e1]; omega
    by_cases c2 : b.last < now - b.full
    · have c2' := c2
      rw [UInt64.lt_iff_toNat_lt, e2] at c2'
      have e3 : (now - b.full + b.one).toNat = now.toNat - b.full.toNat + b.one.toNat := by
        rw [toNat_add_of_lt now (by rw [e2]; omega), e2]
      refine ⟨{ b with last := now - b.full + b.one }, ?_, rfl, rfl, ?_, ?_⟩
      · unfold TB.beforeSchedule; rw [if_neg c1, if_pos c2]
      · simp only [e3]; omega
      · simp only [e3]; omega
    · have c2' := c2
      rw [UInt64.lt_iff_toNat_lt, e2] at c2'
      have e3 : (b.last + b.one).toNat = b.last.toNat + b.one.toNat := toNat_add_of_lt now h
      refine ⟨{ b with last := b.last + b.one }, ?_, rfl, rfl, ?_, ?_⟩
      · unfold TB.beforeSchedule; rw [if_neg c1, if_neg c2]
      · simp only [e3]; omega
      · simp only [e3]; omega

/-- Arrival times: non-decreasing from `t0` on. -/
def Mono (t0 : UInt64) : List UInt64 → Prop
  | [] => True
  | t :: ts => t0.toNat ≤ t.toNat ∧ Mono t ts

theorem Good.mono {b : TB} {t t' : UInt64} (g : Good b t) (h : t.toNat ≤ t'.toNat) : Good b t' :=
  ⟨g.oneFull, Nat.le_trans g.clock h, Nat.le_trans g.lastLe h⟩

theorem Good.step {b : TB} {t : UInt64} (g : Good b t) : Good (b.beforeSchedule t).1 t := by
  obtain ⟨h1, h2⟩ := before_nat g
  rcases Nat.lt_or_ge t.toNat (b.last.toNat + b.one.toNat) with h | h
  · rw [h1 h]; exact g
  · obtain ⟨b', e1, e2, e3, _, e5⟩ := h2 h
    rw [e1]
    exact ⟨by rw [e2, e3]; exact g.oneFull, by rw [e3]; exact g.clock, e5⟩

/-- The controller's state represents the abstract bucket. -/
structure Rep (b : TB) (s : Spec.Bucket) (t : UInt64) : Prop where
  one : s.one = b.one.toNat
  full : s.full = b.full.toNat
  seen : s.seen = t.toNat
  credit : s.credit = min (t.toNat - b.last.toNat) b.full.toNat

theorem Rep.step {b : TB} {s : Spec.Bucket} {t0 t : UInt64} (r : Rep b s t0) (g : Good b t0)
    (h : t0.toNat ≤ t.toNat) :
    Rep (b.beforeSchedule t).1 (s.arrive t.toNat).1 t ∧
      (b.beforeSchedule t).2 = (s.arrive t.toNat).2 := by
  obtain ⟨r1, r2, r3, r4⟩ := r
  obtain ⟨g1, g2, g3⟩ := g
  obtain ⟨h1, h2⟩ := before_nat (Good.mono ⟨g1, g2, g3⟩ h)
  have hc : min (s.credit + (t.toNat - s.seen)) s.full = min (t.toNat - b.last.toNat) b.full.toNat := by
    clear h1 h2; rw [r2, r3, r4]; omega
  rcases Nat.lt_or_ge t.toNat (b.last.toNat + b.one.toNat) with hl | hl
  · rw [h1 hl]
    have hn : ¬ s.one ≤ min (s.credit + (t.toNat - s.seen)) s.full := by rw [hc, r1]; omega
    unfold Spec.Bucket.arrive
    simp only [hn, if_false]
    exact ⟨⟨r1, r2, rfl, hc⟩, trivial⟩
  · obtain ⟨b', e1, e2, e3, e4, e5⟩ := h2 hl
    rw [e1]
    have hn : s.one ≤ min (s.credit + (t.toNat - s.seen)) s.full := by rw [hc, r1]; omega
    unfold Spec.Bucket.arrive
    simp only [hn, if_true]
    refine ⟨⟨by rw [e2]; exact r1, by rw [e3]; exact r2, rfl, ?_⟩, trivial⟩
    show min _ _ - s.one = _
    rw [hc, r1, e4, e3]; omega

theorem Rep.run {b : TB} {s : Spec.Bucket} {t0 : UInt64} (ts : List UInt64) (r : Rep b s t0)
    (g : Good b t0) (h : Mono t0 ts) : (b.run ts).2 = s.run (ts.map UInt64.toNat) := by
  induction ts generalizing b s t0 with
  | nil => rfl
  | cons t ts ih =>
    obtain ⟨k1, k2⟩ := r.step g h.1
    simp only [TB.run, List.map_cons, Spec.Bucket.run]
    rw [k2, ih k1 (g.mono h.1).step h.2]

/-- Last arrival time of a list. -/
def lastTime (t0 : UInt64) : List UInt64 → UInt64
  | [] => t0
  | t :: ts => lastTime t ts

theorem lastTime_ge {t0 : UInt64} {ts : List UInt64} (h : Mono t0 ts) :
    t0.toNat ≤ (lastTime t0 ts).toNat := by
  induction ts generalizing t0 with
  | nil => exact Nat.le_refl _
  | cons t ts ih => exact Nat.le_trans h.1 (ih h.2)

/-- What a run over an interval does to `last`. -/
theorem run_bound {b : TB} {t0 : UInt64} (ts : List UInt64) (g : Good b t0) (h : Mono t0 ts) :
    (b.run ts).1.one = b.one ∧ (b.run ts).1.full = b.full ∧
    (b.run ts).1.last.toNat ≤ (lastTime t0 ts).toNat ∧
    b.last.toNat + (b.run ts).2.count true * b.one.toNat ≤ (b.run ts).1.last.toNat ∧
    (0 < (b.run ts).2.count true →
      t0.toNat + (b.run ts).2.count true * b.one.toNat ≤ (b.run ts).1.last.toNat + b.full.toNat) := by
  induction ts generalizing b t0 with
  | nil => exact ⟨rfl, rfl, g.lastLe, by simp [TB.run], by simp [TB.run]⟩
  | cons t ts ih =>
    have g' := g.mono h.1
    obtain ⟨i1, i2, i3, i4, i5⟩ := ih g'.step h.2
    obtain ⟨h1, h2⟩ := before_nat g'
    rcases Nat.lt_or_ge t.toNat (b.last.toNat + b.one.toNat) with hl | hl
    · have e := h1 hl
      rw [e] at i1 i2 i3 i4 i5
      have hc : (b.run (t :: ts)).2.count true = (b.run ts).2.count true := by
        simp only [TB.run, e]
        exact List.count_cons_of_ne (by decide)
      have hr : (b.run (t :: ts)).1 = (b.run ts).1 := by simp only [TB.run, e]
      rw [hc, hr]
      simp only [lastTime]
      refine ⟨i1, i2, i3, i4, fun hp => ?_⟩
      have := i5 hp
      have h0 := h.1
      clear h1 h2 i5
      simp only at this
      omega
    · obtain ⟨b', e1, e2, e3, e4, e5⟩ := h2 hl
      rw [e1] at i1 i2 i3 i4 i5
      have hc : (b.run (t :: ts)).2.count true = (b'.run ts).2.count true + 1 := by
        simp only [TB.run, e1]
        exact List.count_cons_self
      have hr : (b.run (t :: ts)).1 = (b'.run ts).1 := by simp only [TB.run, e1]
      rw [hc, hr]
      have h0 := h.1
      clear h1 h2 i5
      simp only at i1 i2 i3 i4
      rw [e2, e4] at i4
      simp only [lastTime, Nat.add_mul, Nat.one_mul]
      refine ⟨by rw [i1, e2], by rw [i2, e3], i3, ?_, fun _ => ?_⟩
      · omega
      · omega

end Verif.Limiter.Token
