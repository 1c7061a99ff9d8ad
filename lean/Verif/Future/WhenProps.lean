import Verif.Future.WhenAnyReady
/-!
# Properties of `WhenAll`, `WhenAny` and `WhenAnyWithoutException`

`after mode n as` is an arbitrary execution with `n` input futures.
-/

namespace Verif.Future.When

open Core (Res)

variable {V E : Type}

def after (mode : Mode) (n : Nat) (as : List (Act V E)) : St V E × List (Ev V E) := run mode n (init V E) [] as

variable {n : Nat} (hn : n < 2 ^ 32) (as : List (Act V E))

include hn

/-- The promise is set at most once, and nothing is touched after its owner has gone. -/
theorem C45_once (mode : Mode) :
    (after mode n as).2.countP Ev.resolves ≤ 1 ∧ (after mode n as).1.crashed = false ∧ .crash ∉ (after mode n as).2 := by
  have hb : ∀ b : Bool, b.toNat ≤ 1 := by intro b; cases b <;> simp
  cases mode with
  | all => have h := allInv_run allInv_init hn as; exact ⟨by unfold after; rw [h.num]; exact hb _, h.ok, h.ok'⟩
  | any => have h := anyInv_run anyInv_init hn as; exact ⟨by unfold after; rw [h.num]; exact hb _, h.ok, h.ok'⟩
  | anyReady => have h := readyInv_run readyInv_init hn as; exact ⟨by unfold after; rw [h.num]; exact hb _, h.ok, h.ok'⟩

/-- `WhenAll` yields all the results, each in its place. -/
theorem C45_all_right {e : Ev V E} (he : e ∈ (after .all n as).2) (hr : e.resolves = true) :
    ∃ rs, e = .all rs ∧ rs.length = n ∧ ∀ i, i < n → ∃ r, rs[i]? = some (some r) ∧ .called i r ∈ (after .all n as).2 := by
  have h := allInv_run allInv_init hn as
  obtain ⟨rs, rfl⟩ := h.only e he hr
  exact ⟨rs, rfl, h.all rs he⟩

/-- When all callbacks have been called and have returned, `WhenAll` has set its promise. -/
theorem C45_all_complete (h0 : 0 < n) (hq : Quiet (after .all n as).1)
    (hc : ∀ i, i < n → ∃ r, .called i r ∈ (after .all n as).2) : ∃ rs, .all rs ∈ (after .all n as).2 := by
  have h := allInv_run allInv_init hn as
  have hfull : cnt (fun i => past ((after .all n as).1.pc i)) n = n := by
    rw [cnt_all]
    intro i hi
    obtain ⟨r, hr⟩ := hc i hi
    rcases hq i with hq | hq
    · exact absurd hq (h.called i r hr)
    · simp [hq, past]
  rcases h.full h0 hfull with ⟨i, hi⟩ | hr
  · have := hq i
    unfold after at this
    simp [hi] at this
  · have hnum := h.num
    rw [hr] at hnum
    have : 0 < (run .all n (init V E) [] as).2.countP Ev.resolves := by rw [hnum]; decide
    obtain ⟨e, he, her⟩ := List.countP_pos_iff.1 this
    obtain ⟨rs, rfl⟩ := h.only e he her
    exact ⟨rs, he⟩

/-- `WhenAny` yields the result of one of the futures, with its index if it is a value, and no callback returned before the
callback of that one was called. -/
theorem C45_any_right {e : Ev V E} (he : e ∈ (after .any n as).2) (hr : e.resolves = true) :
    ∃ i r, .called i r ∈ (after .any n as).2 ∧ (∀ j, .finished j ∉ before i (after .any n as).2) ∧
      e = (match r with | .val v => .value i v | .exc x => .failed x) := by
  have h := anyInv_run anyInv_init hn as
  cases e with
  | value i v => obtain ⟨a, b⟩ := h.value i v he; exact ⟨i, .val v, a, b, rfl⟩
  | failed x => obtain ⟨i, a, b⟩ := h.failed x he; exact ⟨i, .exc x, a, b, rfl⟩
  | all rs => exact absurd he (h.all rs)
  | _ => simp [Ev.resolves] at hr

/-- When a callback has been called and none is running, `WhenAny` has set its promise. -/
theorem C45_any_complete (hq : Quiet (after .any n as).1) (hc : ∃ i r, .called i r ∈ (after .any n as).2) :
    ∃ e ∈ (after .any n as).2, e.resolves = true := by
  have h := anyInv_run anyInv_init hn as
  obtain ⟨i, r, hi⟩ := hc
  have hf : (after .any n as).1.flag = true := by
    rcases hq i with hq | hq
    · exact absurd hq (h.called i r hi)
    · exact h.done i hq
  rcases h.flag hf with ⟨j, r', hj⟩ | hr
  · have := hq j
    unfold after at this
    simp [hj] at this
  · have hnum := h.num
    rw [hr] at hnum
    have : 0 < (run .any n (init V E) [] as).2.countP Ev.resolves := by rw [hnum]; decide
    exact List.countP_pos_iff.1 this

/-- `WhenAnyWithoutException` yields a value with its index, and no callback with a value returned before that callback was
called; or all futures have failed and it yields one of their exceptions. -/
theorem C45_ready_right {e : Ev V E} (he : e ∈ (after .anyReady n as).2) (hr : e.resolves = true) :
    (∃ i v, e = .value i v ∧ .called i (.val v) ∈ (after .anyReady n as).2 ∧
      ∀ j w, .called j (.val w) ∈ (after .anyReady n as).2 → .finished j ∉ before i (after .anyReady n as).2) ∨
    (∃ x, e = .failed x ∧ (∃ i, .called i (.exc x) ∈ (after .anyReady n as).2) ∧
      ∀ i, i < n → ∃ y, .called i (.exc y) ∈ (after .anyReady n as).2) := by
  have h := readyInv_run readyInv_init hn as
  cases e with
  | value i v => obtain ⟨a, b⟩ := h.value i v he; exact .inl ⟨i, v, rfl, a, b⟩
  | failed x =>
    obtain ⟨a, b⟩ := h.failed x he
    refine .inr ⟨x, rfl, b, fun i hi => ?_⟩
    have := cnt_all.1 a i hi
    simp only [failure, Bool.and_eq_true] at this
    exact any_exc.1 this.2
  | all rs => exact absurd he (h.all rs)
  | _ => simp [Ev.resolves] at hr

/-- When a value has arrived, or everything, and no callback is running, `WhenAnyWithoutException` has set its promise. -/
theorem C45_ready_complete (h0 : 0 < n) (hq : Quiet (after .anyReady n as).1)
    (hc : (∃ i v, .called i (.val v) ∈ (after .anyReady n as).2) ∨ ∀ i, i < n → ∃ r, .called i r ∈ (after .anyReady n as).2) :
    ∃ e ∈ (after .anyReady n as).2, e.resolves = true := by
  have h := readyInv_run readyInv_init hn as
  have hdone : ∀ i r, .called i r ∈ (after .anyReady n as).2 → (after .anyReady n as).1.pc i = .done := by
    intro i r hi
    rcases hq i with hq | hq
    · exact absurd hq (h.called i r hi)
    · exact hq
  have hval : ∀ i v, .called i (.val v) ∈ (after .anyReady n as).2 → (after .anyReady n as).1.flag = true := by
    intro i v hi
    obtain ⟨r, a, b⟩ := h.done i (hdone i _ hi)
    exact b v (h.once _ _ _ a hi)
  have hset : ((∃ i r, (after .anyReady n as).1.pc i = .set r) ∨ (after .anyReady n as).1.resolved = true) := by
    by_cases hv : ∃ i v, .called i (.val v) ∈ (after .anyReady n as).2
    · obtain ⟨i, v, hi⟩ := hv
      exact h.flagSet (hval i v hi)
    · rcases hc with hc | hc
      · exact absurd hc hv
      · apply h.full h0
        rw [cnt_all]
        intro i hi
        obtain ⟨r, hr⟩ := hc i hi
        cases r with
        | val v => exact absurd ⟨i, v, hr⟩ hv
        | exc x =>
          have h1 := hdone i _ hr
          have h2 := any_exc.2 ⟨x, hr⟩
          unfold after at h1 h2
          simp [failure, h1, h2, Pc.fin]
  rcases hset with ⟨j, r', hj⟩ | hr
  · have := hq j
    simp [hj] at this
  · have hnum := h.num
    unfold after at hr
    rw [hr] at hnum
    have : 0 < (run .anyReady n (init V E) [] as).2.countP Ev.resolves := by rw [hnum]; decide
    exact List.countP_pos_iff.1 this

omit hn

/-! ## The theorems are not vacuous -/

example : (after .all 2 ([.call 1 (.val 5), .call 0 (.exc "no"), .step 1, .step 0, .step 1, .step 0, .step 0] :
    List (Act Nat String))).2 =
    [.called 1 (.val 5), .called 0 (.exc "no"), .finished 1, .all [some (.exc "no"), some (.val 5)], .finished 0] := by
  decide +kernel

example : (after .any 2 ([.call 1 (.val 5), .call 0 (.exc "no"), .step 0, .step 1, .step 0] : List (Act Nat String))).2 =
    [.called 1 (.val 5), .called 0 (.exc "no"), .finished 1, .failed "no", .finished 0] := by
  decide +kernel

example : (after .anyReady 2 ([.call 1 (.val 5), .call 0 (.exc "no"), .step 0, .step 1, .step 1] : List (Act Nat String))).2 =
    [.called 1 (.val 5), .called 0 (.exc "no"), .finished 0, .value 1 5, .finished 1] := by
  decide +kernel

example : (after .anyReady 2 ([.call 1 (.exc "a"), .call 0 (.exc "b"), .step 0, .step 1, .step 1] : List (Act Nat String))).2 =
    [.called 1 (.exc "a"), .called 0 (.exc "b"), .finished 0, .failed "a", .finished 1] := by
  decide +kernel

end Verif.Future.When
