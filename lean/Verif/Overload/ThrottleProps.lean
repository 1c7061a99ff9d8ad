import Verif.Overload.Throttle
import Verif.Overload.PriorityProps

/-!
# C106, C107: the throttler of clients
-/

namespace Verif.Overload

/-! ## Moving sums -/

structure EmaCfg.Ok (c : EmaCfg) : Prop where
  pos : 0 < c.interval
  f0 : 0 ≤ c.factor
  f1 : c.factor ≤ 1

theorem loop_spec {c : EmaCfg} (hc : c.Ok) {now : Int} {fuel : Nat} {e : Ema} (hf : now - e.last ≤ fuel) (ht : e.last ≤ now) :
    ∃ k : Nat, e.loop c now fuel = some ⟨e.last + k * c.interval, e.total * c.factor ^ k⟩ ∧ now - (e.last + k * c.interval) ≤ c.interval ∧ e.last + k * c.interval ≤ now ∧
      (k ≠ 0 → e.last + k * c.interval < now) := by
  induction fuel generalizing e with
  | zero =>
    unfold Ema.loop
    have := hc.pos
    rw [if_neg (by omega)]
    exact ⟨0, by simp, by omega, by simpa using ht, fun h => absurd rfl h⟩
  | succ n ih =>
    unfold Ema.loop
    have hp := hc.pos
    split
    · rename_i h
      obtain ⟨k, h1, h2, h3, h4⟩ := ih (e := ⟨e.last + c.interval, e.total * c.factor⟩) (by dsimp only; omega) (by dsimp only; omega)
      dsimp only at h1 h2 h3 h4
      have e1 : e.last + c.interval + k * c.interval = e.last + ((k + 1 : Nat) : Int) * c.interval := by grind
      rw [e1] at h1 h2 h3
      refine ⟨k + 1, ?_, h2, h3, ?_⟩
      · rw [h1, Rat.pow_succ]; congr 2; grind
      · intro _
        by_cases hk : k = 0
        · subst hk
          have : ((0 + 1 : Nat) : Int) * c.interval = c.interval := by simp
          rw [this]; omega
        · have := h4 hk
          rw [e1] at this
          exact this
    · rename_i h
      exact ⟨0, by simp, by simp; omega, by simpa using ht, fun h => absurd rfl h⟩

theorem pow_range {f : Rat} (h0 : 0 ≤ f) (h1 : f ≤ 1) (k : Nat) : 0 ≤ f ^ k ∧ f ^ k ≤ 1 := by
  induction k with
  | zero => rw [Rat.pow_zero]; exact ⟨by decide, by decide⟩
  | succ k ih =>
    rw [Rat.pow_succ]
    have h3 := Rat.mul_le_mul_of_nonneg_right ih.2 h0
    exact ⟨Rat.mul_nonneg ih.1 h0, by grind⟩

/-- **C106a.** The sum is multiplied by the factor once per interval that has ended, and is 0 after `reset_interval`; it does not rise and does not get negative; the loop ends. -/
theorem C106_ema {c : EmaCfg} (hc : c.Ok) {now : Int} {fuel : Nat} {e : Ema} (hf : now - e.last ≤ fuel) (ht : e.last ≤ now) (h0 : 0 ≤ e.total) :
    ∃ e', e.advance c now fuel = some e' ∧ 0 ≤ e'.total ∧ e'.total ≤ e.total ∧ e'.last ≤ now ∧
      ((c.reset < now - e.last ∧ e'.total = 0) ∨ ∃ k : Nat, e'.total = e.total * c.factor ^ k ∧ (k : Int) * c.interval ≤ now - e.last ∧ now - e.last ≤ (k + 1) * c.interval) := by
  unfold Ema.advance
  split
  · rename_i h
    exact ⟨_, rfl, Rat.le_refl, h0, Int.le_refl _, .inl ⟨h, rfl⟩⟩
  · obtain ⟨k, h1, h2, h3, h4⟩ := loop_spec hc hf ht
    obtain ⟨p0, p1⟩ := pow_range hc.f0 hc.f1 k
    refine ⟨_, h1, Rat.mul_nonneg h0 p0, ?_, h3, .inr ⟨k, rfl, by omega, by grind⟩⟩
    have := Rat.mul_le_mul_of_nonneg_right p1 h0
    show e.total * c.factor ^ k ≤ e.total
    grind

/-! ## The probability -/

structure ThrCfg.Ok (c : ThrCfg) : Prop where
  ratio : 1 ≤ c.ratio
  padding : 0 < c.padding

theorem prob_le (c : ThrCfg) (a t : Rat) : prob c a t ≤ c.maxP := by
  unfold prob; dsimp only; grind

theorem div_nonpos {x y : Rat} (hy : 0 < y) (hx : x ≤ 0) : x / y ≤ 0 := by
  by_cases h : x / y ≤ 0
  · exact h
  · have := Rat.mul_pos (show 0 < x / y by grind) hy
    have : x / y * y = x := by grind
    grind

theorem div_le_div {x y z w : Rat} (hy : 0 < y) (hw : 0 < w) (h : x * w ≤ z * y) : x / y ≤ z / w := by
  by_cases hh : x / y ≤ z / w
  · exact hh
  · have h1 := Rat.mul_pos (Rat.mul_pos (show 0 < x / y - z / w by grind) hy) hw
    have h2 : x / y * y = x := by grind
    have h3 : z / w * w = z := by grind
    have h4 : (x / y - z / w) * y * w = x / y * y * w - z / w * w * y := by grind
    rw [h4, h2, h3] at h1
    grind

/-- **C106b.** The probability of a refusal is at most `max_throttle_probability`; it is 0 if at most the allowed share of the requests were throttled; it grows with the number of throttled requests. -/
theorem C106_prob {c : ThrCfg} (hc : c.Ok) {a t : Rat} (ha : 0 ≤ a) (ht : 0 ≤ t) :
    prob c a t ≤ c.maxP ∧ (t ≤ a * (c.ratio - 1) → prob c a t ≤ 0) ∧ (∀ t', t ≤ t' → prob c a t ≤ prob c a t') := by
  have hp := hc.padding
  refine ⟨prob_le c a t, ?_, ?_⟩
  · intro h
    have := div_nonpos (x := a + t - a * c.ratio) (y := a + t + c.padding) (by grind) (by grind)
    unfold prob; dsimp only; grind
  · intro t' h
    have har : 0 ≤ a * c.ratio := Rat.mul_nonneg ha (by have := hc.ratio; grind)
    have hd : (a + t - a * c.ratio) / (a + t + c.padding) ≤ (a + t' - a * c.ratio) / (a + t' + c.padding) := by
      apply div_le_div (by grind) (by grind)
      have h1 := Rat.mul_nonneg (show 0 ≤ t' - t by grind) (show 0 ≤ c.padding + a * c.ratio by grind)
      have e : (a + t' - a * c.ratio) * (a + t + c.padding) - (a + t - a * c.ratio) * (a + t' + c.padding) = (t' - t) * (c.padding + a * c.ratio) := by grind
      grind
    unfold prob; dsimp only; grind

/-- **C106c.** Requests are refused by the random number only: those above the largest probability pass in every state, and if nothing was throttled all above 0 do. -/
theorem C106_request {c : ThrCfg} (hc : c.Ok) (he : c.ema.Ok) {t : Thr} {now : Int} {fuel : Nat} {lock : Bool} {u : Rat} (h1 : t.acc.last ≤ now) (h2 : t.thr.last ≤ now)
    (f1 : now - t.acc.last ≤ fuel) (f2 : now - t.thr.last ≤ fuel) (p1 : 0 ≤ t.acc.total) (p2 : 0 ≤ t.thr.total) :
    ∃ t' b, t.onRequest c now fuel lock u = some (t', b) ∧ (c.maxP < u → b = true) ∧ (t.thr.total = 0 → 0 < u → b = true) ∧ t'.acc.last ≤ now ∧ t'.thr.last ≤ now ∧ 0 ≤ t'.acc.total ∧
      0 ≤ t'.thr.total := by
  unfold Thr.onRequest
  cases lock with
  | true =>
    obtain ⟨a, ga, a1, a2, a3, -⟩ := C106_ema he f1 h1 p1
    obtain ⟨b, gb, b1, b2, b3, -⟩ := C106_ema he f2 h2 p2
    rw [if_pos rfl, ga, gb]
    refine ⟨_, _, rfl, ?_, ?_, a3, b3, a1, b1⟩
    · intro hu; have := prob_le c a.total b.total; simp; grind
    · intro ht hu
      have hr := hc.ratio
      have := (C106_prob hc a1 b1).2.1 (by have := Rat.mul_nonneg a1 (show 0 ≤ c.ratio - 1 by grind); grind)
      simp; grind
  | false =>
    refine ⟨_, _, rfl, ?_, ?_, h1, h2, p1, p2⟩
    · intro hu; have := prob_le c t.acc.total t.thr.total; simp; grind
    · intro ht hu
      have hr := hc.ratio
      have := (C106_prob hc p1 p2).2.1 (by have := Rat.mul_nonneg p1 (show 0 ≤ c.ratio - 1 by grind); grind)
      simp; grind

/-! ## Tokens -/

theorem TReach.inv {t : Tok} (h : TReach t) : t.avail - t.undo = t.filled + t.repaid - t.borrowed ∧ t.avail - t.undo ≤ 31 ∧ t.forced = t.borrowed ∧ t.dropped = t.repaid := by
  induction h with
  | init => decide
  | step _ hs ih =>
    obtain ⟨h1, h2, h3, h4⟩ := ih
    cases hs <;> dsimp only <;> refine ⟨by omega, by omega, by omega, by omega⟩

/-- **C106d.** Tokens are conserved: what was filled in and paid back, less what was borrowed, is what is there, not counting tokens that will be taken back. Every request that passes against
the throttler borrows one, every one that is refused although the throttler let it pass pays one back. At most 31 are kept. -/
theorem C106_tokens {t : Tok} (h : TReach t) : (t.forced : Int) = t.filled + t.dropped - (t.avail - t.undo) ∧ t.avail - t.undo ≤ 31 := by
  obtain ⟨h1, h2, h3, h4⟩ := h.inv
  exact ⟨by omega, h2⟩

/-- **C106e.** A request pays back only if tokens are owed. -/
theorem C106_debt {t t' : Tok} (h : TReach t) (hs : TStep t t') (hd : t'.dropped ≠ t.dropped) : t.filled + t.dropped < t.forced := by
  obtain ⟨h1, h2, h3, h4⟩ := h.inv
  cases hs <;> dsimp only at hd <;> omega

example : ∃ t, TReach t ∧ t.forced = 1 ∧ t.dropped = 1 ∧ t.avail = 0 := by
  have h := (TReach.init).step .must
  have h := h.step (.repay (by decide))
  exact ⟨_, h, by decide, by decide, by decide⟩

/-- The default configuration. -/
def thrDflt : ThrCfg := ⟨13 / 10, 8, 7 / 10, ⟨8 / 10, 100, 30000⟩⟩

example : thrDflt.Ok ∧ thrDflt.ema.Ok := ⟨⟨by decide +kernel, by decide +kernel⟩, by decide, by decide +kernel, by decide +kernel⟩

example : prob thrDflt 100 0 < 0 ∧ prob thrDflt 0 1000 = 7 / 10 ∧ prob thrDflt 50 42 = 27 / 100 := by decide +kernel

/-! ## Refutations -/

/-- **C107a.** With an interval of 0 the first call at a later time never ends (and holds the lock). -/
theorem C107_interval_partial {c : EmaCfg} (hi : c.interval = 0) {now : Int} {e : Ema} (hl : e.last < now) (hr : now - e.last ≤ c.reset) (fuel : Nat) : e.advance c now fuel = none := by
  have : ∀ fuel (e : Ema), e.last < now → e.loop c now fuel = none := by
    intro fuel
    induction fuel with
    | zero => intro e h; unfold Ema.loop; rw [if_pos (by omega)]
    | succ n ih =>
      intro e h
      unfold Ema.loop
      rw [if_pos (by omega)]
      exact ih ⟨e.last + c.interval, e.total * c.factor⟩ (by dsimp only; omega)
  unfold Ema.advance
  rw [if_neg (by omega)]
  exact this fuel e hl

/-- **C107b.** Requests that are refused by the throttler are not counted as throttled, though those that are refused for their priority are. -/
theorem C107_unpaired_partial (virt over : Bool) : calls .overload virt over = [.request] ∧ (∀ r, r ≠ .overload → ∃ b, calls r virt over = [.request, .response b]) := by
  refine ⟨rfl, ?_⟩
  intro r hr
  cases r with
  | ok => exact ⟨over, rfl⟩
  | lower => exact ⟨!virt, rfl⟩
  | overload => exact absurd rfl hr

theorem fill_many (n : Nat) (h : n ≤ 31) : ∃ t, TReach t ∧ t.avail = n ∧ t.undo = 0 := by
  induction n with
  | zero => exact ⟨_, .init, rfl, rfl⟩
  | succ n ih =>
    obtain ⟨t, h1, h2, h3⟩ := ih (by omega)
    exact ⟨_, h1.step (.fill (by omega)), by dsimp only; omega, h3⟩

/-- **C107c.** The buffer of 30 tokens holds 31. -/
theorem C107_buffer_partial : ∃ t, TReach t ∧ t.avail = 31 ∧ t.undo = 0 := fill_many 31 (Nat.le_refl _)

end Verif.Overload
