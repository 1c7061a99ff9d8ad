import Verif.Sync.SeqLock

/-!
# C114, C115: the sequence lock of fibers
-/

namespace Verif.Sync.SeqLock

/-! ## Specification -/

/-- All values read are those of one version of the data, between two writers. -/
def Snapshot (s : S) (got : List (Nat × Nat)) : Prop := ∃ v ∈ s.hist, ∀ c x, (c, x) ∈ got → x = v c

/-! ## C114 -/

structure Inv (s0 : Nat) (s : S) : Prop where
  seq : s.seq % M = (s0 + s.t) % M
  wr : s.writing = decide (s.t % 2 = 1)
  cur : s.writing = false → s.cells ∈ s.hist
  rd : ∀ (i : Nat) (q t0 : Nat) (got : List (Nat × Nat)), s.rd[i]? = some (.reading q t0 got) → q % M = (s0 + t0) % M ∧ t0 ≤ s.t ∧ t0 % 2 = s0 % 2 ∧
    (t0 = s.t → s.writing = false → ∀ c x, (c, x) ∈ got → x = s.cells c)

theorem get_set {l : List R} {i : Nat} {b : R} {j : Nat} {p : R} (h : (l.set i b)[j]? = some p) : p = b ∨ l[j]? = some p := by
  by_cases hj : i = j
  · subst hj
    rw [List.getElem?_set] at h
    simp at h
    exact .inl h.2.symm
  · rw [List.getElem?_set_ne hj] at h
    exact .inr h

theorem Reach.inv {c0 : Nat → Nat} {s0 n : Nat} {s : S} (h : Reach c0 s0 n s) : Inv s0 s := by
  induction h with
  | init =>
    refine ⟨by simp [S.init], rfl, by simp [S.init], ?_⟩
    intro i q t0 got h
    simp [S.init, List.getElem?_replicate] at h
  | step _ hs ih =>
    obtain ⟨h1, h2, h3, h4⟩ := ih
    cases hs with
    | lock h =>
      rw [h] at h2
      have h2' : ¬ _ % 2 = 1 := of_decide_eq_false h2.symm
      refine ⟨?_, ?_, by simp, ?_⟩
      · simp only [M] at *; omega
      · simp; omega
      · intro i q t0 got hi
        have := h4 i q t0 got hi
        refine ⟨this.1, by simp; omega, this.2.2.1, by simp⟩
    | store c v h =>
      refine ⟨h1, h2, by simp [h], ?_⟩
      intro i q t0 got hi
      have := h4 i q t0 got hi
      exact ⟨this.1, this.2.1, this.2.2.1, by simp [h]⟩
    | unlock h =>
      rw [h] at h2
      have h2' : _ % 2 = 1 := of_decide_eq_true h2.symm
      refine ⟨?_, ?_, by simp, ?_⟩
      · simp only [M] at *; omega
      · simp; omega
      · intro i q t0 got hi
        have := h4 i q t0 got hi
        refine ⟨this.1, by simp; omega, this.2.2.1, ?_⟩
        intro he; simp at he; omega
    | start i h he =>
      refine ⟨h1, h2, h3, ?_⟩
      intro j q t0 got hj
      rcases get_set hj with hj | hj
      · injection hj with e1 e2 e3
        subst e1 e2 e3
        refine ⟨h1, Nat.le_refl _, ?_, by simp⟩
        simp only [M] at h1
        show _ % 2 = _
        omega
      · exact h4 j q t0 got hj
    | load i c h =>
      rename_i q' t0' got'
      refine ⟨h1, h2, h3, ?_⟩
      intro j q t0 got hj
      rcases get_set hj with hj | hj
      · injection hj with e1 e2 e3
        subst e1 e2 e3
        have := h4 i _ _ _ h
        refine ⟨this.1, this.2.1, this.2.2.1, ?_⟩
        intro he hw c' x hx
        simp only [List.mem_append, List.mem_singleton, Prod.mk.injEq] at hx
        rcases hx with hx | ⟨rfl, rfl⟩
        · exact this.2.2.2 he hw c' x hx
        · rfl
      · exact h4 j q t0 got hj
    | retry i h hn =>
      refine ⟨h1, h2, h3, ?_⟩
      intro j q t0 got hj
      rcases get_set hj with hj | hj
      · cases hj
      · exact h4 j q t0 got hj

/-- Started at an even number: what a reader goes on with is a snapshot of one version, provided that the number was incremented fewer than 2^32 times meanwhile. -/
theorem C114_snapshot {c0 : Nat → Nat} {s0 n : Nat} {s : S} (h : Reach c0 s0 n s) (he : s0 % 2 = 0) {i t0 : Nat} {got : List (Nat × Nat)} (ha : s.accepts i t0 got) (hw : s.t < t0 + M) :
    Snapshot s got := by
  obtain ⟨q, hi, hq⟩ := ha
  have v := h.inv
  obtain ⟨h1, h2, h3, h4⟩ := v.rd i q t0 got hi
  have v1 := v.seq
  have e : t0 = s.t := by
    subst hq
    simp only [M] at *
    omega
  have w : s.writing = false := by
    rw [v.wr]; simp; omega
  exact ⟨s.cells, v.cur w, h4 e w⟩

/-- Started at an even number: when no writer is at work a reader can start, and a reader that started since goes on. -/
theorem C114_open {c0 : Nat → Nat} {s0 n : Nat} {s : S} (h : Reach c0 s0 n s) (he : s0 % 2 = 0) (hw : s.writing = false) :
    s.seq % 2 = 0 ∧ ∀ (i : Nat) (q t0 : Nat) (got : List (Nat × Nat)), s.rd[i]? = some (.reading q t0 got) → t0 = s.t → s.seq % M = q % M := by
  have v := h.inv
  have v1 := v.seq
  have v2 := v.wr
  rw [hw] at v2
  have v2' : ¬ s.t % 2 = 1 := of_decide_eq_false v2.symm
  refine ⟨by simp only [M] at *; omega, ?_⟩
  intro i q t0 got hi e
  have := (v.rd i q t0 got hi).1
  subst e
  omega

/-- While a writer is at work no reader starts. -/
theorem C114_closed {c0 : Nat → Nat} {s0 n : Nat} {s : S} (h : Reach c0 s0 n s) (he : s0 % 2 = 0) (hw : s.writing = true) : s.seq % 2 = 1 := by
  have v := h.inv
  have v1 := v.seq
  have v2 := v.wr
  rw [hw] at v2
  have v2' : s.t % 2 = 1 := of_decide_eq_true v2.symm
  simp only [M] at *
  omega

/-- A reader that goes on after reading two cells of the second version. -/
example : ∃ s : S, Reach (fun _ => 0) 0 1 s ∧ s.accepts 0 2 [(0, 5), (1, 5)] ∧ Snapshot s [(0, 5), (1, 5)] := by
  have h : Reach (fun _ => 0) 0 1 _ := .init
  have h := h.step (.lock rfl)
  have h := h.step (.store 0 5 rfl)
  have h := h.step (.store 1 5 rfl)
  have h := h.step (.unlock rfl)
  have h := h.step (.start 0 rfl rfl)
  have h := h.step (.load 0 0 rfl)
  have h := h.step (.load 0 1 rfl)
  refine ⟨_, h, ⟨_, rfl, rfl⟩, C114_snapshot h rfl (i := 0) (t0 := 2) ⟨2, rfl, rfl⟩ ?_⟩
  show 2 < 2 + M
  simp [M]

/-! ## C115 -/

/-- Started at an odd number, as the missing initialiser allows: a reader never starts while no writer is at work. -/
theorem C115_odd_partial {c0 : Nat → Nat} {s0 n : Nat} {s : S} (h : Reach c0 s0 n s) (ho : s0 % 2 = 1) (hw : s.writing = false) : ¬ s.seq % 2 = 0 := by
  have v := h.inv
  have v1 := v.seq
  have v2 := v.wr
  rw [hw] at v2
  have v2' : ¬ s.t % 2 = 1 := of_decide_eq_false v2.symm
  simp only [M] at *
  omega

/-- Started at an odd number: a reader goes on with half of a write. -/
theorem C115_torn_partial : ∃ s : S, Reach (fun _ => 0) 1 1 s ∧ s.accepts 0 1 [(0, 5), (1, 0), (1, 5)] ∧ ¬ Snapshot s [(0, 5), (1, 0), (1, 5)] := by
  have h : Reach (fun _ => 0) 1 1 _ := .init
  have h := h.step (.lock rfl)
  have h := h.step (.start 0 rfl rfl)
  have h := h.step (.store 0 5 rfl)
  have h := h.step (.load 0 0 rfl)
  have h := h.step (.load 0 1 rfl)
  have h := h.step (.store 1 5 rfl)
  have h := h.step (.load 0 1 rfl)
  refine ⟨_, h, ⟨_, rfl, rfl⟩, ?_⟩
  rintro ⟨v, _, hv⟩
  have h1 := hv 1 0 (by simp)
  have h2 := hv 1 5 (by simp)
  omega

theorem writes {c0 : Nat → Nat} {s0 n : Nat} {s : S} (h : Reach c0 s0 n s) (hw : s.writing = false) (hs : s.seq < M) (k : Nat) :
    ∃ s', Reach c0 s0 n s' ∧ s'.writing = false ∧ s'.seq = (s.seq + 2 * k) % M ∧ s'.rd = s.rd ∧ s'.cells = s.cells ∧ s'.t = s.t + 2 * k ∧ ∀ v ∈ s'.hist, v ∈ s.hist ∨ v = s.cells := by
  induction k with
  | zero => exact ⟨s, h, hw, by rw [Nat.mod_eq_of_lt] <;> omega, rfl, rfl, rfl, fun v hv => .inl hv⟩
  | succ k ih =>
    obtain ⟨s1, r1, w1, q1, e1, c1, t1, k1⟩ := ih
    have r2 := (r1.step (.lock w1)).step (.unlock rfl)
    refine ⟨_, r2, rfl, ?_, e1, c1, by show s1.t + 1 + 1 = _; omega, ?_⟩
    · show ((s1.seq + 1) % M + 1) % M = _
      rw [q1]; simp only [M]; omega
    · intro v hv
      have hv : v ∈ s1.hist ++ [s1.cells] := hv
      simp only [List.mem_append, List.mem_singleton] at hv
      rcases hv with hv | rfl
      · exact k1 v hv
      · exact .inr c1

/-- Started at an even number: after 2^31 writes the number is the same again, and a reader that was as slow as that goes on with a mixture of two versions. -/
theorem C115_wrap_partial : ∃ s : S, Reach (fun _ => 0) 0 1 s ∧ s.accepts 0 0 [(0, 0), (0, 5)] ∧ ¬ Snapshot s [(0, 0), (0, 5)] := by
  have h : Reach (fun _ => 0) 0 1 _ := .init
  have h := h.step (.start 0 rfl rfl)
  have h := h.step (.load 0 0 rfl)
  have h := h.step (.lock rfl)
  have h := h.step (.store 0 5 rfl)
  have h := h.step (.unlock rfl)
  obtain ⟨s1, r1, w1, q1, e1, c1, t1, k1⟩ := writes h rfl (by show (1 % M + 1) % M < M; simp [M]) 2147483647
  have hr : s1.rd[0]? = some (.reading 0 0 [(0, 0)]) := by rw [e1]; rfl
  have r2 := r1.step (.load 0 0 hr)
  have hc : s1.cells 0 = 5 := by rw [c1]; rfl
  rw [hc] at r2
  refine ⟨_, r2, ⟨0, ?_, ?_⟩, ?_⟩
  · show (s1.rd.set 0 _)[0]? = _
    rw [e1]; rfl
  · show s1.seq = 0
    rw [q1]; show ((1 % M + 1) % M + 2 * 2147483647) % M = 0
    simp [M]
  · rintro ⟨v, _, hv⟩
    have h1 := hv 0 0 (by simp)
    have h2 := hv 0 5 (by simp)
    omega

end Verif.Sync.SeqLock
