import Verif.Future.WhenAny
/-!
# `WhenAnyWithoutException`
-/

namespace Verif.Future.When

open Core (Res)

variable {V E : Type} {n : Nat} {s : St V E} {tr : List (Ev V E)}

/-- Callback `i` was called with an exception. -/
def Ev.exc (i : Nat) : Ev V E → Bool
  | .called j (.exc _) => j = i
  | _ => false

theorem any_exc {i : Nat} : tr.any (Ev.exc i) = true ↔ ∃ e, .called i (.exc e) ∈ tr := by
  rw [List.any_eq_true]
  constructor
  · rintro ⟨x, hx, h⟩
    unfold Ev.exc at h
    split at h
    · simp at h; subst h; exact ⟨_, hx⟩
    · simp at h
  · rintro ⟨e, he⟩
    exact ⟨_, he, by simp [Ev.exc]⟩

def Pc.fin : Pc V E → Bool
  | .set _ | .done => true
  | _ => false

/-- Callback `i` has counted its failure. -/
def failure (s : St V E) (tr : List (Ev V E)) (i : Nat) : Bool := (s.pc i).fin && tr.any (Ev.exc i)

structure ReadyInv (n : Nat) (s : St V E) (tr : List (Ev V E)) : Prop where
  lt : ∀ i, s.pc i ≠ .idle → i < n
  called : ∀ i r, .called i r ∈ tr → s.pc i ≠ .idle
  once : ∀ i r r', .called i r ∈ tr → .called i r' ∈ tr → r = r'
  start : ∀ i r, s.pc i = .start r → .called i r ∈ tr
  pcs : ∀ i, s.pc i ≠ .stored ∧ s.pc i ≠ .setAll
  setV : ∀ i v, s.pc i = .set (.val v) → s.flag = true ∧ s.resolved = false ∧ .called i (.val v) ∈ tr ∧
    ∀ j w, .called j (.val w) ∈ tr → .finished j ∉ before i tr
  setE : ∀ i e, s.pc i = .set (.exc e) → cnt (failure s tr) n = n ∧ s.resolved = false ∧ .called i (.exc e) ∈ tr
  uniq : ∀ i j r r', s.pc i = .set r → s.pc j = .set r' → i = j
  flag : s.flag = true → ∃ i v, .called i (.val v) ∈ tr
  flagSet : s.flag = true → (∃ i r, s.pc i = .set r) ∨ s.resolved = true
  full : 0 < n → cnt (failure s tr) n = n → (∃ i r, s.pc i = .set r) ∨ s.resolved = true
  res : s.resolved = true → s.flag = true ∨ cnt (failure s tr) n = n
  done : ∀ i, s.pc i = .done → ∃ r, .called i r ∈ tr ∧ ∀ v, r = .val v → s.flag = true
  fin : ∀ i, .finished i ∈ tr → s.pc i = .done
  count : s.counter = u32 (cnt (failure s tr) n)
  num : tr.countP Ev.resolves = s.resolved.toNat
  value : ∀ i v, .value i v ∈ tr → .called i (.val v) ∈ tr ∧ ∀ j w, .called j (.val w) ∈ tr → .finished j ∉ before i tr
  failed : ∀ e, .failed e ∈ tr → cnt (failure s tr) n = n ∧ ∃ i, .called i (.exc e) ∈ tr
  all : ∀ rs, .all rs ∉ tr
  ok : s.crashed = false
  ok' : .crash ∉ tr

theorem readyInv_init : ReadyInv n (init V E) [] := by
  have : ∀ n, cnt (failure (init V E) []) n = 0 := by
    intro n; induction n <;> simp_all [cnt, init, failure]
  constructor <;> (try simp only [this]) <;> simp [init, u32]
  omega

theorem ReadyInv.excl (h : ReadyInv n s tr) (hf : s.flag = true) : cnt (failure s tr) n < n := by
  obtain ⟨i, v, hc⟩ := h.flag hf
  refine cnt_lt (i := i) (h.lt i (h.called _ _ hc)) ?_
  cases hx : failure s tr i
  · rfl
  · simp only [failure, Bool.and_eq_true] at hx
    obtain ⟨e, he⟩ := any_exc.1 hx.2
    have := h.once _ _ _ hc he
    simp at this

theorem ReadyInv.call (h : ReadyInv n s tr) {i : Nat} {r : Res V E} (hi : i < n) (hp : s.pc i = .idle) :
    ReadyInv n (s.goto i (.start r)) (tr ++ [.called i r]) := by
  have hcnt : cnt (failure (s.goto i (.start r)) (tr ++ [.called i r])) n = cnt (failure s tr) n := by
    apply cnt_congr
    intro j _
    simp only [failure, goto_pc, List.any_append, List.any_cons, List.any_nil, Bool.or_false]
    by_cases hj : j = i
    · subst hj; simp [hp, Pc.fin]
    · have : Ev.exc j (.called i r) = false := by cases r <;> simp [Ev.exc, Ne.symm hj]
      simp [hj, this]
  obtain ⟨h1, h2, h3, h4, h5, h6, h7, h8, h9, h10, h11, h12, h13, h14, h15, h16, h17, h18, h19, h20, h21⟩ := h
  have hnc : ∀ r', .called i r' ∉ tr := fun r' h => h2 _ _ h hp
  have hnf : .finished i ∉ tr := fun h => by have := h14 _ h; simp [hp] at this
  have hval : ∀ k v, .called k (.val v) ∈ tr → (∀ j w, .called j (.val w) ∈ tr → .finished j ∉ before k tr) →
      ∀ j w, .called j (.val w) ∈ tr ++ [.called i r] → .finished j ∉ before k (tr ++ [.called i r]) := by
    intro k v hk h j w hj
    rw [before_append hk]
    simp only [List.mem_append, List.mem_singleton, Ev.called.injEq] at hj
    rcases hj with hj | ⟨rfl, -⟩
    · exact h j w hj
    · intro h; exact hnf (before_sub h)
  have hset : (∃ j r, s.pc j = .set r) → ∃ j r', (if j = i then Pc.start r else s.pc j) = .set r' := by
    rintro ⟨j, r', hj⟩
    have : j ≠ i := by rintro rfl; simp [hp] at hj
    exact ⟨j, r', by simpa [this] using hj⟩
  constructor <;> try simp only [goto_pc, hcnt]
  · grind
  · grind
  · grind
  · grind
  · grind
  · intro j v; split
    · simp
    · intro h
      obtain ⟨a, b, c, d⟩ := h6 j v h
      exact ⟨a, b, by simp [c], hval _ _ c d⟩
  · intro j e; split
    · simp
    · intro h
      obtain ⟨a, b, c⟩ := h7 j e h
      exact ⟨a, b, by simp [c]⟩
  · grind
  · intro h; obtain ⟨j, v, a⟩ := h9 h; exact ⟨j, v, by simp [a]⟩
  · intro h; exact (h10 h).imp_left hset
  · intro h h'; exact (h11 h h').imp_left hset
  · exact h12
  · intro j; split
    · simp
    · intro h; obtain ⟨r', a, b⟩ := h13 j h; exact ⟨r', by simp [a], b⟩
  · intro j h
    have h := h14 j (by simpa using h)
    have : j ≠ i := by intro hj; rw [hj, hp] at h; simp at h
    simpa [this] using h
  · exact h15
  · simpa [Ev.resolves] using h16
  · intro j v h
    obtain ⟨a, b⟩ := h17 j v (by simpa using h)
    exact ⟨by simp [a], hval _ _ a b⟩
  · intro e h
    obtain ⟨a, j, b⟩ := h18 e (by simpa using h)
    exact ⟨a, j, by simp [b]⟩
  · simpa using h19
  · exact h20
  · simpa using h21

theorem failure_finished (s : St V E) (tr : List (Ev V E)) (i : Nat) : failure s (tr ++ [.finished i]) = failure s tr := by
  funext j; simp [failure, Ev.exc]

/-- A callback that is not to set the promise returns. -/
theorem ReadyInv.quit (h : ReadyInv n s tr) {i c : Nat} {r : Res V E} (hp : s.pc i = .start r)
    (hf : ∀ v, r = .val v → s.flag = true ∧ c = s.counter)
    (he : ∀ e, r = .exc e → c = u32 (s.counter + 1) ∧ cnt (failure s tr) n + 1 < n) :
    ReadyInv n { s.goto i .done with counter := c } (tr ++ [.finished i]) := by
  have hi := h.lt i (by simp [hp])
  have hc := h.start i r hp
  have hcnt : c = u32 (cnt (failure { s.goto i .done with counter := c } (tr ++ [.finished i])) n) ∧
      (cnt (failure { s.goto i .done with counter := c } (tr ++ [.finished i])) n = cnt (failure s tr) n ∨
       (cnt (failure { s.goto i .done with counter := c } (tr ++ [.finished i])) n < n ∧ cnt (failure s tr) n < n ∧
         ∃ e, r = .exc e)) := by
    rw [failure_finished]
    cases r with
    | val v =>
      have : cnt (failure { s.goto i .done with counter := c } tr) n = cnt (failure s tr) n := by
        apply cnt_congr
        intro j _
        simp only [failure, goto_pc]
        by_cases hj : j = i
        · subst hj
          have : tr.any (Ev.exc j) = false := by
            cases hx : tr.any (Ev.exc j)
            · rfl
            · obtain ⟨e, he⟩ := any_exc.1 hx
              have := h.once _ _ _ hc he
              simp at this
          simp [this]
        · simp [hj]
      rw [this]
      exact ⟨by rw [(hf v rfl).2]; exact h.count, .inl rfl⟩
    | exc e =>
      obtain ⟨e1, e2⟩ := he e rfl
      have : cnt (failure { s.goto i .done with counter := c } tr) n = cnt (failure s tr) n + 1 := by
        apply cnt_insert hi
        · simp [failure, hp, Pc.fin]
        · have := any_exc.2 ⟨e, hc⟩
          simp [failure, goto_pc, Pc.fin, this]
        · intro j hj; simp [failure, goto_pc, hj]
      rw [this]
      refine ⟨?_, .inr ⟨e2, by omega, e, rfl⟩⟩
      rw [e1, h.count]; unfold u32; omega
  obtain ⟨hc1, hc2⟩ := hcnt
  generalize hK : cnt (failure { s.goto i .done with counter := c } (tr ++ [.finished i])) n = K at *
  have hKn : cnt (failure s tr) n = n → K = n := by omega
  have hKn' : K = n → cnt (failure s tr) n = n := by omega
  obtain ⟨h1, h2, h3, h4, h5, h6, h7, h8, h9, h10, h11, h12, h13, h14, h15, h16, h17, h18, h19, h20, h21⟩ := h
  have hca : ∀ j r', Ev.called j r' ∈ tr ++ [.finished i] ↔ .called j r' ∈ tr := by simp
  have hset : (∃ j r, s.pc j = .set r) → ∃ j r', (if j = i then Pc.done else s.pc j) = .set r' := by
    rintro ⟨j, r', hj⟩
    have : j ≠ i := by rintro rfl; simp [hp] at hj
    exact ⟨j, r', by simpa [this] using hj⟩
  constructor <;> try simp only [goto_pc, hK, hca]
  · grind
  · grind
  · exact h3
  · grind
  · grind
  · intro j v; split
    · simp
    · intro h
      obtain ⟨a, b, c, d⟩ := h6 j v h
      exact ⟨a, b, c, by rw [before_append c]; exact d⟩
  · intro j e; split
    · simp
    · intro h
      obtain ⟨a, b, c⟩ := h7 j e h
      exact ⟨hKn a, b, c⟩
  · grind
  · exact h9
  · intro h; exact (h10 h).imp_left hset
  · intro h h'; exact (h11 h (hKn' h')).imp_left hset
  · intro h; exact (h12 h).imp_right hKn
  · intro j; split
    · intro _; subst_vars; exact ⟨r, hc, fun v hv => (hf v hv).1⟩
    · exact h13 j
  · intro j h
    simp only [List.mem_append, List.mem_singleton, Ev.finished.injEq] at h
    rcases h with h | h
    · split
      · rfl
      · exact h14 j h
    · simp [h]
  · exact hc1
  · simpa [Ev.resolves] using h16
  · intro j v h
    obtain ⟨a, b⟩ := h17 j v (by simpa using h)
    exact ⟨a, by rw [before_append a]; exact b⟩
  · intro e h
    obtain ⟨a, b⟩ := h18 e (by simpa using h)
    exact ⟨hKn a, b⟩
  · simpa using h19
  · exact h20
  · simpa using h21

/-- A callback is to set the value. -/
theorem ReadyInv.winV (h : ReadyInv n s tr) {i : Nat} {v : V} (hp : s.pc i = .start (.val v)) (hf : s.flag = false) :
    ReadyInv n { s.goto i (.set (.val v)) with flag := true } tr := by
  have hi := h.lt i (by simp [hp])
  have hc := h.start i _ hp
  have hex : tr.any (Ev.exc i) = false := by
    cases hx : tr.any (Ev.exc i)
    · rfl
    · obtain ⟨e, he⟩ := any_exc.1 hx
      have := h.once _ _ _ hc he
      simp at this
  have hlt : cnt (failure s tr) n < n := cnt_lt hi (by simp [failure, hex])
  have hcnt : cnt (failure { s.goto i (.set (.val v)) with flag := true } tr) n = cnt (failure s tr) n := by
    apply cnt_congr
    intro j _
    simp only [failure, goto_pc]
    by_cases hj : j = i
    · subst hj; simp [hex]
    · simp [hj]
  have hr : s.resolved = false := by
    cases hr : s.resolved
    · rfl
    · rcases h.res hr with h' | h'
      · simp [hf] at h'
      · omega
  have hns : ∀ j r, s.pc j ≠ .set r := by
    intro j r hj
    cases r with
    | val w => have := (h.setV j w hj).1; simp [hf] at this
    | exc e => have := (h.setE j e hj).1; omega
  have hnf : ∀ j w, .called j (.val w) ∈ tr → .finished j ∉ tr := by
    intro j w hj hfj
    obtain ⟨r, a, b⟩ := h.done j (h.fin j hfj)
    have := b w (h.once _ _ _ a hj)
    simp [hf] at this
  obtain ⟨h1, h2, h3, h4, h5, h6, h7, h8, h9, h10, h11, h12, h13, h14, h15, h16, h17, h18, h19, h20, h21⟩ := h
  constructor <;> try simp only [goto_pc, hcnt]
  · grind
  · grind
  · exact h3
  · grind
  · grind
  · intro j w; split
    · intro h; cases h; subst_vars
      exact ⟨trivial, hr, hc, fun k w' hk h => hnf k w' hk (before_sub h)⟩
    · intro h; exact absurd h (hns j _)
  · intro j e; split
    · simp
    · intro h; exact absurd h (hns j _)
  · intro j k r1 r2; split
    · split
      · intros; subst_vars; rfl
      · intro _ h; exact absurd h (hns k _)
    · intro h; exact absurd h (hns j _)
  · intro _; exact ⟨i, v, hc⟩
  · intro _; exact .inl ⟨i, .val v, by simp⟩
  · intro _ _; exact .inl ⟨i, .val v, by simp⟩
  · simp
  · intro j; split
    · simp
    · intro h; obtain ⟨r, a, b⟩ := h13 j h; exact ⟨r, a, by simp⟩
  · intro j h
    have h := h14 j h
    have : j ≠ i := by rintro rfl; simp [hp] at h
    simpa [this] using h
  · exact h15
  · exact h16
  · exact h17
  · exact h18
  · exact h19
  · exact h20
  · exact h21

/-- A callback is to set the exception. -/
theorem ReadyInv.winE (h : ReadyInv n s tr) {i : Nat} {e : E} (hp : s.pc i = .start (.exc e))
    (hn : cnt (failure s tr) n + 1 = n) :
    ReadyInv n { s.goto i (.set (.exc e)) with counter := u32 (s.counter + 1) } tr := by
  have hi := h.lt i (by simp [hp])
  have hc := h.start i _ hp
  have hex := any_exc.2 ⟨e, hc⟩
  have hcnt : cnt (failure { s.goto i (.set (.exc e)) with counter := u32 (s.counter + 1) } tr) n = n := by
    conv => rhs; rw [← hn]
    apply cnt_insert hi
    · simp [failure, hp, Pc.fin]
    · simp [failure, goto_pc, Pc.fin, hex]
    · intro j hj; simp [failure, goto_pc, hj]
  have hf : s.flag = false := by
    cases hf : s.flag
    · rfl
    · obtain ⟨j, v, hj⟩ := h.flag hf
      have := cnt_all.1 hcnt j (h.lt j (h.called _ _ hj))
      simp only [failure, Bool.and_eq_true] at this
      obtain ⟨e', he'⟩ := any_exc.1 this.2
      have := h.once _ _ _ hj he'
      simp at this
  have hr : s.resolved = false := by
    cases hr : s.resolved
    · rfl
    · rcases h.res hr with h' | h'
      · simp [hf] at h'
      · omega
  have hns : ∀ j r, s.pc j ≠ .set r := by
    intro j r hj
    cases r with
    | val w => have := (h.setV j w hj).1; simp [hf] at this
    | exc e => have := (h.setE j e hj).1; omega
  obtain ⟨h1, h2, h3, h4, h5, h6, h7, h8, h9, h10, h11, h12, h13, h14, h15, h16, h17, h18, h19, h20, h21⟩ := h
  constructor <;> try simp only [goto_pc, hcnt]
  · grind
  · grind
  · exact h3
  · grind
  · grind
  · intro j w; split
    · simp
    · intro h; exact absurd h (hns j _)
  · intro j e; split
    · intro h; cases h; subst_vars; exact ⟨trivial, hr, hc⟩
    · intro h; exact absurd h (hns j _)
  · intro j k r1 r2; split
    · split
      · intros; subst_vars; rfl
      · intro _ h; exact absurd h (hns k _)
    · intro h; exact absurd h (hns j _)
  · intro h; exact h9 h
  · intro _; exact .inl ⟨i, .exc e, by simp⟩
  · intro _ _; exact .inl ⟨i, .exc e, by simp⟩
  · simp
  · intro j; split
    · simp
    · exact h13 j
  · intro j h
    have h := h14 j h
    have : j ≠ i := by rintro rfl; simp [hp] at h
    simpa [this] using h
  · rw [h15]
    generalize cnt (failure s tr) n = m at *
    unfold u32; omega
  · exact h16
  · exact h17
  · intro e h; exact ⟨trivial, (h18 e h).2⟩
  · exact h19
  · exact h20
  · exact h21

/-- The promise is set. -/
theorem ReadyInv.resolve (h : ReadyInv n s tr) (hn : n < 2 ^ 32) {i : Nat} {r : Res V E} (hp : s.pc i = .set r) :
    ReadyInv n (s.resolve i (own i r)).1 (tr ++ (s.resolve i (own i r)).2) := by
  have hi := h.lt i (by simp [hp])
  have hinfo : s.resolved = false ∧ .called i r ∈ tr ∧ (s.flag = true ∨ cnt (failure s tr) n = n) ∧
      (∀ v, r = .val v → s.flag = true ∧ ∀ j w, .called j (.val w) ∈ tr → .finished j ∉ before i tr) ∧
      ∀ e, r = .exc e → cnt (failure s tr) n = n := by
    cases r with
    | val v => obtain ⟨a, b, c, d⟩ := h.setV i v hp; exact ⟨b, c, .inl a, fun _ _ => ⟨a, d⟩, by simp⟩
    | exc e => obtain ⟨a, b, c⟩ := h.setE i e hp; exact ⟨b, c, .inr a, by simp, fun _ _ => a⟩
  obtain ⟨hr, hc, hfn, hfv, hfe⟩ := hinfo
  have hns : ∀ j r', j ≠ i → s.pc j ≠ .set r' := fun j r' hj h' => hj (h.uniq j i r' r h' hp)
  unfold St.resolve
  simp only [hr, Bool.false_eq_true, ↓reduceIte]
  have hu := u32_lt (Nat.lt_trans hi hn)
  have how : own i r ≠ .crash ∧ (∀ j r', own i r ≠ .called j r') ∧ (∀ j, own i r ≠ .finished j) ∧ (∀ rs, own i r ≠ .all rs) ∧
      (own i r).resolves = true ∧ (∀ j v, own i r = .value j v → j = i ∧ r = .val v) ∧
      (∀ e, own i r = .failed e → r = .exc e) ∧ (∀ j, (own i r).exc j = false) := by
    cases r <;> simp [own, Ev.resolves, hu, Ev.exc]
  generalize own i r = ev at how
  obtain ⟨o1, o2, o3, o4, o5, o6, o7, o8⟩ := how
  have hca : ∀ j r', Ev.called j r' ∈ tr ++ [ev, .finished i] ↔ .called j r' ∈ tr := by
    intro j r'; have := o2 j r'
    simp [this.symm]
  have hcnt : cnt (failure { s.goto i .done with resolved := true } (tr ++ [ev, .finished i])) n = cnt (failure s tr) n := by
    apply cnt_congr
    intro j _
    simp only [failure, goto_pc, List.any_append, List.any_cons, List.any_nil, Bool.or_false, o8]
    by_cases hj : j = i
    · subst hj; simp [hp, Pc.fin, Ev.exc]
    · simp [hj, Ev.exc]
  have hbe : ∀ k r', .called k r' ∈ tr → before k (tr ++ [ev, .finished i]) = before k tr := fun k r' hk => before_append hk _
  obtain ⟨h1, h2, h3, h4, h5, h6, h7, h8, h9, h10, h11, h12, h13, h14, h15, h16, h17, h18, h19, h20, h21⟩ := h
  constructor <;> try simp only [goto_pc, hcnt, hca]
  · grind
  · grind
  · exact h3
  · grind
  · grind
  · intro j v; split
    · simp
    · intro h; exact absurd h (hns j _ ‹_›)
  · intro j v; split
    · simp
    · intro h; exact absurd h (hns j _ ‹_›)
  · intro j k r1 r2; split
    · simp
    · intro h; exact absurd h (hns j _ ‹_›)
  · exact h9
  · simp
  · simp
  · intro _; exact hfn
  · intro j; split
    · intro _; subst_vars; exact ⟨r, hc, fun v hv => (hfv v hv).1⟩
    · exact h13 j
  · intro j h
    simp only [List.mem_append, List.mem_cons, Ev.finished.injEq, List.not_mem_nil, or_false] at h
    rcases h with h | h | h
    · split
      · rfl
      · exact h14 j h
    · exact absurd h.symm (o3 j)
    · simp [h]
  · exact h15
  · rw [List.countP_append, h16]
    have o9 : (Ev.finished i : Ev V E).resolves = false := rfl
    simp [List.countP_cons, o5, o9, hr]
  · intro j v h
    simp only [List.mem_append, List.mem_cons, reduceCtorEq, List.not_mem_nil, or_false] at h
    rcases h with h | h
    · obtain ⟨a, b⟩ := h17 j v h
      exact ⟨a, by rw [hbe _ _ a]; exact b⟩
    · obtain ⟨rfl, rfl⟩ := o6 j v h.symm
      rw [hbe _ _ hc]
      exact ⟨hc, (hfv v rfl).2⟩
  · intro e h
    simp only [List.mem_append, List.mem_cons, reduceCtorEq, List.not_mem_nil, or_false] at h
    rcases h with h | h
    · exact h18 e h
    · have := o7 e h.symm
      subst this
      exact ⟨hfe e rfl, i, hc⟩
  · intro rs h
    have := o4 rs
    simp [this.symm] at h
    exact h19 rs h
  · exact h20
  · simp [h21, o1.symm]

theorem ReadyInv.step (h : ReadyInv n s tr) (hn : n < 2 ^ 32) (a : Act V E) :
    ReadyInv n (step .anyReady n s a).1 (tr ++ (step .anyReady n s a).2) := by
  unfold When.step
  rw [h.ok]
  simp only [Bool.false_eq_true, ↓reduceIte]
  cases a with
  | call i r =>
    simp only
    split
    · rename_i hc
      obtain ⟨hc, hp⟩ := hc
      exact h.call hc (by cases hpi : s.pc i <;> simp_all [Pc.isIdle])
    · simpa using h
  | step i =>
    simp only [cbStep]
    unfold anyReadyStep
    split
    · rename_i v hp
      split
      · rename_i hf
        exact h.quit (c := s.counter) hp (fun _ _ => ⟨hf, rfl⟩) (by simp)
      · rename_i hf
        rw [List.append_nil]
        exact h.winV hp (by simpa using hf)
    · rename_i e hp
      have hi := h.lt i (by simp [hp])
      have hlt : cnt (failure s tr) n < n := cnt_lt hi (by simp [failure, hp, Pc.fin])
      have hcount := h.count
      simp only []
      split
      · rename_i hc
        rw [List.append_nil]
        refine h.winE hp ?_
        rw [hcount] at hc; unfold u32 at hc; omega
      · rename_i hc
        refine h.quit (c := u32 (s.counter + 1)) hp (by simp) (fun _ _ => ⟨rfl, ?_⟩)
        have : cnt (failure s tr) n + 1 ≠ n := by
          intro h'; apply hc; rw [hcount]; unfold u32; omega
        omega
    · rename_i r hp
      exact h.resolve hn hp
    all_goals simpa using h

theorem readyInv_run (h : ReadyInv n s tr) (hn : n < 2 ^ 32) (as : List (Act V E)) :
    ReadyInv n (run .anyReady n s tr as).1 (run .anyReady n s tr as).2 := by
  induction as generalizing s tr with
  | nil => exact h
  | cons a as ih => exact ih (h.step hn a)

end Verif.Future.When
