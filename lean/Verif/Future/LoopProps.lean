import Verif.Future.LoopSpec
/-!
# Properties of the loops
-/

namespace Verif.Future.Loop

variable {S A E : Type}

theorem run_finished (c : Code S A) {s : St S} (h : s.phase = .finished) (tr : List (Ev A E)) (rs : List (Result E)) :
    run c s tr rs = (s, tr) := by
  induction rs with
  | nil => rfl
  | cons r rs ih => simp only [run, step, h, List.append_nil]; exact ih

/-- A loop whose state stands for a list of arguments does what it is supposed to do. -/
theorem run_ideal (c : Code S A) (R : S → List A → Prop) (hnil : ∀ u, R u [] → (c.stop u).1 = true)
    (hcons : ∀ u a as, R u (a :: as) → (c.stop u).1 = false ∧ (c.func (c.stop u).2).1 = a ∧ R (c.func (c.stop u).2).2 as)
    (u : S) (as : List A) (h : R u as) (d m : Nat) (tr : List (Ev A E)) (rs : List (Result E)) :
    (run c (go (E := E) c u d m).1 (tr ++ (go c u d m).2) rs).2 = tr ++ ideal as (rs.map Result.exc) := by
  induction rs generalizing u as d m tr with
  | nil =>
    cases as with
    | nil =>
      have := hnil u h
      generalize hs : c.stop u = p at *
      obtain ⟨b, u'⟩ := p
      simp only at this; subst this
      simp [run, go, hs, ideal]
    | cons a as =>
      obtain ⟨h1, h2, h3⟩ := hcons u a as h
      generalize hs : c.stop u = p at *
      obtain ⟨b, u'⟩ := p
      simp only at h1 h2 h3; subst h1 h2
      simp [run, go, hs, ideal]
  | cons r rs ih =>
    cases as with
    | nil =>
      have := hnil u h
      generalize hs : c.stop u = p at *
      obtain ⟨b, u'⟩ := p
      simp only at this; subst this
      rw [run_finished _ (by simp [go, hs])]
      simp [go, hs, ideal]
    | cons a as =>
      obtain ⟨h1, h2, h3⟩ := hcons u a as h
      generalize hs : c.stop u = p at *
      obtain ⟨b, u'⟩ := p
      simp only at h1 h2 h3; subst h1 h2
      obtain ⟨exc, sync⟩ := r
      cases exc with
      | some e =>
        simp only [run, go, hs, step]
        rw [run_finished _ rfl]
        simp [ideal]
      | none =>
        have := ih _ _ h3 (if sync then d + 1 else 1) (max m d) (tr ++ [.call (c.func u').1, .resolved none])
        simp only [run, go, hs, step, List.map_cons, ideal, List.append_assoc, List.cons_append, List.nil_append] at this ⊢
        exact this

theorem exec_ideal (c : Code S A) (R : S → List A → Prop) (hnil : ∀ u, R u [] → (c.stop u).1 = true)
    (hcons : ∀ u a as, R u (a :: as) → (c.stop u).1 = false ∧ (c.func (c.stop u).2).1 = a ∧ R (c.func (c.stop u).2).2 as)
    (u : S) (as : List A) (h : R u as) (rs : List (Result E)) : (exec c u rs).2 = ideal as (rs.map Result.exc) := by
  have := run_ideal c R hnil hcons u as h 1 0 ([] : List (Ev A E)) rs
  simp only [List.nil_append] at this
  exact this

/-- `DoFor` calls the function with 0, 1, …, n-1. -/
theorem C46_for (n : Nat) (hn : n < 2 ^ 64) (rs : List (Result E)) :
    (exec (doFor n) n rs).2 = ideal (List.range n) (rs.map Result.exc) := by
  refine exec_ideal (doFor n) (fun k as => k ≤ n ∧ as = List.range' (n - k) k) ?_ ?_ n _ ⟨Nat.le_refl _, ?_⟩ rs
  · rintro k ⟨hk, h⟩
    have : k = 0 := by
      cases k with
      | zero => rfl
      | succ k => simp [List.range'_succ] at h
    simp [doFor, this]
  · rintro k a as ⟨hk, h⟩
    cases k with
    | zero => simp at h
    | succ k =>
      simp only [List.range'_succ, List.cons.injEq] at h
      obtain ⟨rfl, rfl⟩ := h
      have h1 : sub64 (k + 1) 1 = k := by unfold sub64 u64; omega
      have h2 : sub64 n (k + 1) = n - (k + 1) := by unfold sub64 u64; omega
      refine ⟨by simp [doFor], h2, ?_⟩
      show sub64 (k + 1) 1 ≤ n ∧ _ = List.range' (n - sub64 (k + 1) 1) (sub64 (k + 1) 1)
      rw [h1]
      have h3 : n - (k + 1) + 1 = n - k := by omega
      exact ⟨by omega, by rw [h3]⟩
  · rw [Nat.sub_self, List.range_eq_range']

/-- `DoFor` with a function without parameter calls it `n` times. -/
theorem C46_times (n : Nat) (hn : n < 2 ^ 64) (rs : List (Result E)) :
    (exec doTimes n rs).2 = ideal (List.replicate n ()) (rs.map Result.exc) := by
  refine exec_ideal doTimes (fun k as => k < 2 ^ 64 ∧ as = List.replicate k ()) ?_ ?_ n _ ⟨hn, rfl⟩ rs
  · rintro k ⟨hk, h⟩
    have : k = 0 := by
      cases k with
      | zero => rfl
      | succ k => simp [List.replicate_succ] at h
    simp [doTimes, this]
  · rintro k a as ⟨hk, h⟩
    cases k with
    | zero => simp at h
    | succ k =>
      simp only [List.replicate_succ, List.cons.injEq] at h
      obtain ⟨-, rfl⟩ := h
      have : sub64 (k + 1) 1 = k := by unfold sub64 u64; omega
      simp only [doTimes, this]
      refine ⟨by simp, trivial, by omega, trivial⟩

/-- `DoForEach` calls the function with the elements of the range. -/
theorem C46_for_each {T : Type} (l : List T) (rs : List (Result E)) :
    (exec (forEach T) l rs).2 = ideal (l.map some) (rs.map Result.exc) := by
  refine exec_ideal (forEach T) (fun k as => as = k.map some) ?_ ?_ l _ rfl rs
  · intro k h
    cases k <;> simp_all [forEach]
  · intro k a as h
    cases k <;> simp_all [forEach]

/-- `DoForEach` with a function without parameter calls it once per element. -/
theorem C46_for_each_times {T : Type} (l : List T) (rs : List (Result E)) :
    (exec (forEachTimes T) l rs).2 = ideal (l.map fun _ => ()) (rs.map Result.exc) := by
  refine exec_ideal (forEachTimes T) (fun k as => as = k.map fun _ => ()) ?_ ?_ l _ rfl rs
  · intro k h
    cases k <;> simp_all [forEachTimes]
  · intro k a as h
    cases k <;> simp_all [forEachTimes]

/-- Nothing yet, or the end. -/
def Good (s : St S) (tr : List (Ev A E)) : Prop :=
  match s.phase with
  | .waiting => ∀ e, .finish e ∉ tr
  | .finished => ∃ tr' e, tr = tr' ++ [.finish e] ∧ ∀ e, .finish e ∉ tr'

theorem Good.go (c : Code S A) (u : S) (d m : Nat) {tr : List (Ev A E)} (h : ∀ e, .finish e ∉ tr) :
    Good (go (E := E) c u d m).1 (tr ++ (go c u d m).2) := by
  unfold Loop.go
  split
  · exact ⟨tr, none, rfl, h⟩
  · simp [Good, h]

theorem Good.step (c : Code S A) {s : St S} {tr : List (Ev A E)} (h : Good s tr) (r : Result E) :
    Good (step c s r).1 (tr ++ (step c s r).2) := by
  unfold Good at h
  split at h
  · rename_i hp
    cases hr : r.exc with
    | some e =>
      simp only [Loop.step, hp, hr]
      exact ⟨tr ++ [.resolved (some e)], some e, by simp, by simpa using h⟩
    | none =>
      simp only [Loop.step, hp, hr]
      have := Good.go c s.user (if r.sync then s.depth + 1 else 1) s.deepest (tr := tr ++ [.resolved none]) (by simpa using h)
      simpa using this
  · rename_i hp
    simp only [Loop.step, hp, List.append_nil]
    unfold Good
    rw [hp]
    exact h

theorem Good.run (c : Code S A) {s : St S} {tr : List (Ev A E)} (h : Good s tr) (rs : List (Result E)) :
    Good (run c s tr rs).1 (run c s tr rs).2 := by
  induction rs generalizing s tr with
  | nil => exact h
  | cons r rs ih => exact ih (h.step c r)

/-- Any loop: the returned future is resolved at most once, and nothing happens afterwards. -/
theorem C46_finish (c : Code S A) (u : S) (rs : List (Result E)) (pre post : List (Ev A E)) (e : Option E)
    (h : (exec c u rs).2 = pre ++ .finish e :: post) : post = [] := by
  have hg : Good (exec c u rs).1 (exec c u rs).2 := by
    have := Good.go c u 1 0 (tr := ([] : List (Ev A E))) (by simp)
    exact this.run c rs
  unfold Good at hg
  split at hg
  · exfalso; apply hg e; rw [h]; simp
  · obtain ⟨tr', e', h1, h2⟩ := hg
    rw [h] at h1
    rcases List.append_eq_append_iff.1 h1 with ⟨z, rfl, hz⟩ | ⟨z, rfl, hz⟩
    · cases z with
      | nil => simp at hz; exact hz.2
      | cons a z => simp at hz; exfalso; apply h2 e; simp [hz.1]
    · cases z with
      | nil => simp at hz; exact hz.2
      | cons a z => simp at hz

/-- `DoWhile`: whether the function is called is what the last call of the condition said. -/
theorem C46_while (cond : S → Bool × S) (func : S → S) (u : S) :
    (start (E := E) (doWhile cond func) u).2 = if (cond u).1 then [.call ()] else [.finish none] := by
  unfold start go doWhile
  cases h : (cond u).1 <;> simp [h]

/-- … and again after each call. -/
theorem C46_while_step (cond : S → Bool × S) (func : S → S) (s : St S) (h : s.phase = .waiting) (sync : Bool) :
    (step (E := E) (doWhile cond func) s ⟨none, sync⟩).2 =
      .resolved none :: if (cond s.user).1 then [.call ()] else [.finish none] := by
  unfold step go doWhile
  cases h' : (cond s.user).1 <;> simp [h, h']

/-! ## The stack -/

theorem run_depth (n k d m : Nat) (hk : k < 2 ^ 64) (hn : n ≤ k) (tr : List (Ev Unit E)) :
    d + n ≤ (run doTimes (go (E := E) doTimes k d m).1 tr (List.replicate n ⟨none, true⟩)).1.deepest := by
  have hgo : ∀ k d m, (go (E := E) doTimes k d m).1.deepest = max m d := by
    intro k d m; unfold go; split <;> rfl
  induction n generalizing k d m tr with
  | zero => simp only [List.replicate, run, hgo]; omega
  | succ n ih =>
    have h1 : sub64 k 1 = k - 1 := by unfold sub64 u64; omega
    have h2 : go (E := E) doTimes k d m = (⟨k - 1, .waiting, d, max m d⟩, [.call ()]) := by
      unfold go doTimes
      cases k with
      | zero => omega
      | succ k => simp [h1]
    simp only [List.replicate, run, h2, step, ↓reduceIte]
    have := ih (k - 1) (d + 1) (max m d) (by omega) (by omega)
    exact Nat.le_trans (by omega) (this _)

/-- When the function returns resolved futures and callbacks run at once, the loops nest one level per call: no stack is
enough. -/
theorem C47_unbounded (limit : Nat) (h : limit < 2 ^ 64) :
    limit < (exec (E := E) doTimes limit (List.replicate limit ⟨none, true⟩)).1.deepest := by
  have := run_depth (E := E) limit limit 1 0 h (Nat.le_refl _) (start doTimes limit).2
  exact Nat.lt_of_lt_of_le (by omega) this

/-- Otherwise the depth is bounded by the longest row of such results. -/
theorem C47_async_partial (c : Code S A) (u : S) (rs : List (Result E)) (h : ∀ r ∈ rs, r.sync = false) :
    (exec c u rs).1.deepest ≤ 1 := by
  have hgo : ∀ u m, (go (E := E) c u 1 m).1.deepest = max m 1 := by
    intro u m; unfold go; split <;> rfl
  have : ∀ (rs : List (Result E)) (s : St S) (tr : List (Ev A E)), (∀ r ∈ rs, r.sync = false) → s.deepest ≤ 1 →
      (run c s tr rs).1.deepest ≤ 1 := by
    intro rs
    induction rs with
    | nil => intro s tr _ hs; exact hs
    | cons r rs ih =>
      intro s tr hr hs
      refine ih _ _ (fun r' h' => hr r' (by simp [h'])) ?_
      have h0 := hr r (by simp)
      unfold step
      split
      · exact hs
      · exact hs
      · simp only [h0, Bool.false_eq_true, ↓reduceIte, hgo]; omega
  exact this rs _ _ h (by unfold start; rw [hgo]; omega)

/-! ## The theorems are not vacuous -/

example : (exec (E := String) (doFor 3) 3 [⟨none, true⟩, ⟨none, false⟩, ⟨none, true⟩]).2 =
    [.call 0, .resolved none, .call 1, .resolved none, .call 2, .resolved none, .finish none] := by decide +kernel

example : (exec (E := String) (doFor 3) 3 [⟨none, true⟩, ⟨some "no", false⟩, ⟨none, true⟩]).2 =
    [.call 0, .resolved none, .call 1, .resolved (some "no"), .finish (some "no")] := by decide +kernel

end Verif.Future.Loop
