import Verif.Limiter.RetryModel
/-!
# Properties C15 and C33: the retry limiter
-/

namespace Verif.Limiter.Retry

/-- **C15, upper bound, all interleavings.**  The count exceeds the maximum at most by the number of calls
that are in the middle of their update; when none is, it is at most the maximum. -/
theorem C15_tokens_le_max (cfg : Config) (acts : List Act) (c : Conf)
    (h : run cfg (init cfg) acts = some c) (hv : cfg.valid = true) : c.tokens ≤ cfg.maxTokens + c.over := by
  have hm : 0 < cfg.maxTokens := by
    simp [Config.valid] at hv; omega
  suffices ∀ (acts : List Act) (a : Conf), a.tokens ≤ cfg.maxTokens + a.over → run cfg a acts = some c →
      c.tokens ≤ cfg.maxTokens + c.over from this acts (init cfg) (by simp [init]) h
  intro acts
  induction acts with
  | nil => intro a ha hr; simp [run] at hr; subst hr; exact ha
  | cons x xs ih =>
    intro a ha hr
    rw [run] at hr
    obtain ⟨b, hb, hr⟩ := Option.bind_eq_some_iff.1 hr
    refine ih b ?_ hr
    cases x with
    | success =>
      simp only [step, Option.some.injEq] at hb; subst hb
      simp only
      split <;> omega
    | takeBack =>
      simp only [step] at hb
      split at hb
      · cases hb
      · simp only [Option.some.injEq] at hb; subst hb
        simp only; omega
    | failure =>
      simp only [step, Option.some.injEq] at hb; subst hb
      simp [Config.valid] at hv
      simp only
      omega
    | zero =>
      simp only [step] at hb
      split at hb
      · cases hb
      · simp only [Option.some.injEq] at hb; subst hb
        simp only; omega

/-- **C15, single calls.**  What an uninterrupted call does to a count in range: a success adds one up to the
maximum, a failure of a non-negative count removes `ratio`; these are the atomic steps of the model run to
completion. -/
theorem C15_single_call (cfg : Config) (c : Conf) (hq : c.over = 0 ∧ c.under = 0)
    (hr : c.tokens ≤ cfg.maxTokens) :
    (∃ acts, acts.head? = some Act.success ∧ run cfg c acts = some { c with tokens := min (c.tokens + 1) cfg.maxTokens }) ∧
    (0 ≤ c.tokens → run cfg c [.failure] = some { c with tokens := c.tokens - cfg.ratio }) := by
  obtain ⟨t, o, u⟩ := c
  obtain ⟨rfl, rfl⟩ := hq
  simp only at hr
  constructor
  · by_cases h : t ≥ cfg.maxTokens
    · refine ⟨[.success, .takeBack], rfl, ?_⟩
      have : min (t + 1) cfg.maxTokens = t := by omega
      simp only [run, step, h, if_true, Option.bind_some, this]
      simp
    · refine ⟨[.success], rfl, ?_⟩
      have : min (t + 1) cfg.maxTokens = t + 1 := by omega
      simp only [run, step, h, if_false, Option.bind_some, this]
  · intro h
    have h : 0 ≤ t := h
    have : ¬ t < 0 := by omega
    simp [run, step, this]

theorem run_append (cfg : Config) (c : Conf) (xs ys : List Act) :
    run cfg c (xs ++ ys) = (run cfg c xs).bind (fun d => run cfg d ys) := by
  induction xs generalizing c with
  | nil => rfl
  | cons x xs ih =>
    simp only [List.cons_append, run]
    cases step cfg c x with
    | none => rfl
    | some d => simp only [Option.bind_some]; exact ih d

/-- **C15, calls made one after the other** are interleavings of the atomic model: what `runSeq` says about
them is what the atomic accesses do. -/
theorem C15_sequential_is_atomic_run (cfg : Config) (os : List Bool) (t : Int) :
    ∃ acts, run cfg ⟨t, 0, 0⟩ acts = some ⟨runSeq cfg t os, 0, 0⟩ := by
  induction os generalizing t with
  | nil => exact ⟨[], rfl⟩
  | cons o os ih =>
    have one : ∃ acts, run cfg ⟨t, 0, 0⟩ acts =
        some ⟨if o then onSuccess cfg t else onFailure cfg t, 0, 0⟩ := by
      cases o with
      | true =>
        by_cases h : t ≥ cfg.maxTokens
        · exact ⟨[.success, .takeBack], by simp [run, step, h, onSuccess]⟩
        · exact ⟨[.success], by simp [run, step, h, onSuccess]⟩
      | false =>
        by_cases h : t < 0
        · exact ⟨[.failure, .zero], by simp [run, step, h, onFailure]⟩
        · exact ⟨[.failure], by simp [run, step, h, onFailure]⟩
    obtain ⟨a1, h1⟩ := one
    obtain ⟨a2, h2⟩ := ih (if o then onSuccess cfg t else onFailure cfg t)
    exact ⟨a1 ++ a2, by rw [run_append, h1]; simpa [runSeq] using h2⟩

/-- **C15, sequences of calls.**  The count stays at most the maximum and never falls below minus one
penalty. -/
theorem C15_sequential_range (cfg : Config) (hv : cfg.valid = true) (os : List Bool) :
    -cfg.ratio ≤ runSeq cfg cfg.maxTokens os ∧ runSeq cfg cfg.maxTokens os ≤ cfg.maxTokens := by
  simp [Config.valid] at hv
  suffices ∀ (os : List Bool) (t : Int), -cfg.ratio ≤ t → t ≤ cfg.maxTokens →
      -cfg.ratio ≤ runSeq cfg t os ∧ runSeq cfg t os ≤ cfg.maxTokens from
    this os cfg.maxTokens (by omega) (by omega)
  intro os
  induction os with
  | nil => intro t h1 h2; exact ⟨h1, h2⟩
  | cons o os ih =>
    intro t h1 h2
    rw [runSeq]
    apply ih
    · cases o <;> simp only [onSuccess, onFailure, Bool.false_eq_true, if_false, if_true] <;> split <;> omega
    · cases o <;> simp only [onSuccess, onFailure, Bool.false_eq_true, if_false, if_true] <;> split <;> omega

/-- **C15, the gate.**  A backup request is cancelled exactly when twice the count is at most the maximum
(with `max_tokens` odd: at most `max_tokens - 1`, i.e. the count is at most half); others never are. -/
theorem C15_gate (cfg : Config) (tokens : Int) (b : Bool) :
    cancels cfg tokens b = true ↔ b = true ∧ 2 * tokens ≤ cfg.maxTokens := by
  simp only [cancels, Bool.and_eq_true, decide_eq_true_eq]
  constructor
  · rintro ⟨h1, h2⟩; exact ⟨h2, by omega⟩
  · rintro ⟨h1, h2⟩; exact ⟨by omega, h1⟩

/-- **C33 refuted.**  With 10 tokens and a penalty of 10, two failures leave the count at minus ten, and a third
failure raises it to zero. -/
theorem C33_failure_below_zero :
    ∃ cfg : Config, cfg.valid = true ∧ runSeq cfg cfg.maxTokens [false, false] = -10 ∧
      runSeq cfg cfg.maxTokens [false, false, false] = 0 :=
  ⟨⟨10, 10⟩, by decide, by decide, by decide⟩

/-- **C33, what does hold**: a failure lowers the count unless it is negative, in which case it is set to
zero. -/
theorem C33_failure_effect_partial (cfg : Config) (hv : cfg.valid = true) (t : Int) :
    (0 ≤ t → onFailure cfg t < t) ∧ (t < 0 → onFailure cfg t = 0) := by
  simp [Config.valid] at hv
  constructor <;> intro h <;> unfold onFailure <;> split <;> omega

example : (⟨100, 10⟩ : Config).valid = true := by decide

example : run ⟨2, 1⟩ (init ⟨2, 1⟩) [.success, .success, .failure, .takeBack, .takeBack] =
    some ⟨1, 0, 0⟩ := by decide

end Verif.Limiter.Retry
