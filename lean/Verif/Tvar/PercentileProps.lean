import Verif.Tvar.Percentile

/-!
# Percentiles: intervals

The number of the interval is the logarithm, rounded up; merging two intervals never fails an assertion, and keeps as many samples as fit, each of them one of the values, none twice.
-/

namespace Verif.Tvar.Percentile

/-! ## The number of the interval -/

theorem testBit_or_shift (a k i : Nat) : (a ||| (a >>> k)).testBit i = (a.testBit i || a.testBit (i + k)) := by
  rw [Nat.testBit_or, Nat.testBit_shiftRight, Nat.add_comm k i]

theorem smear_testBit (x i : Nat) : (smear x).testBit i = true ↔ ∃ j, j < 32 ∧ x.testBit (i + j) = true := by
  unfold smear
  simp only [testBit_or_shift, Bool.or_eq_true]
  constructor
  · intro h
    simp only [Nat.add_assoc, or_assoc] at h
    rcases h with h | h | h | h | h | h | h | h | h | h | h | h | h | h | h | h | h | h | h | h | h | h | h | h | h | h | h | h | h | h | h | h
    case inl => exact ⟨0, by omega, h⟩
    all_goals exact ⟨_, by omega, h⟩
  · rintro ⟨j, hj, h⟩
    simp only [Nat.add_assoc, or_assoc]
    have : j = 0 ∨ j = 1 ∨ j = 2 ∨ j = 3 ∨ j = 4 ∨ j = 5 ∨ j = 6 ∨ j = 7 ∨ j = 8 ∨ j = 9 ∨ j = 10 ∨ j = 11 ∨ j = 12 ∨ j = 13 ∨ j = 14 ∨ j = 15 ∨ j = 16 ∨ j = 17 ∨ j = 18 ∨ j = 19 ∨ j = 20 ∨ j = 21 ∨ j = 22 ∨ j = 23 ∨ j = 24 ∨ j = 25 ∨ j = 26 ∨ j = 27 ∨ j = 28 ∨ j = 29 ∨ j = 30 ∨ j = 31 := by omega
    rcases this with h' | h' | h' | h' | h' | h' | h' | h' | h' | h' | h' | h' | h' | h' | h' | h' | h' | h' | h' | h' | h' | h' | h' | h' | h' | h' | h' | h' | h' | h' | h' | h' <;> subst h' <;> (try simp only [Nat.add_zero] at h) <;> simp [h]

theorem testBit_log {x k : Nat} (h1 : 2 ^ k ≤ x) (h2 : x < 2 ^ (k + 1)) : x.testBit k = true := by
  rw [Nat.testBit_eq_decide_div_mod_eq, decide_eq_true_eq]
  have : x / 2 ^ k = 1 := by
    apply Nat.div_eq_of_lt_le
    · omega
    · rw [Nat.pow_succ] at h2; omega
  rw [this]

theorem smear_eq {x k : Nat} (h1 : 2 ^ k ≤ x) (h2 : x < 2 ^ (k + 1)) (hk : k < 32) : smear x = 2 ^ (k + 1) - 1 := by
  apply Nat.eq_of_testBit_eq
  intro i
  rw [Nat.testBit_two_pow_sub_one]
  by_cases hi : i < k + 1
  · simp only [hi, decide_true]
    rw [smear_testBit]
    exact ⟨k - i, by omega, by rw [show i + (k - i) = k by omega]; exact testBit_log h1 h2⟩
  · simp only [hi, decide_false]
    rw [← Bool.not_eq_true, smear_testBit]
    rintro ⟨j, -, hj⟩
    have : x < 2 ^ (i + j) := Nat.lt_of_lt_of_le h2 (Nat.pow_le_pow_right (by omega) (by omega))
    rw [Nat.testBit_lt_two_pow this] at hj
    exact absurd hj (by simp)

theorem ones32_eq : ∀ k, k < 32 → ones32 (2 ^ (k + 1) - 1) = k + 1 := by decide +kernel

theorem exists_log {x : Nat} (h : 0 < x) : ∃ k, 2 ^ k ≤ x ∧ x < 2 ^ (k + 1) := ⟨x.log2, Nat.log2_self_le (by omega), Nat.lt_log2_self⟩

theorem and_pred {x k : Nat} (h1 : 2 ^ k ≤ x) (h2 : x < 2 ^ (k + 1)) : x &&& (x - 1) = 0 ↔ x = 2 ^ k := by
  constructor
  · intro h
    by_cases hx : x = 2 ^ k
    · exact hx
    · have a := testBit_log h1 h2
      have b := testBit_log (x := x - 1) (k := k) (by omega) (by omega)
      have : (x &&& (x - 1)).testBit k = true := by rw [Nat.testBit_and, a, b]; rfl
      rw [h] at this
      simp at this
  · intro h
    rw [h, Nat.and_two_pow_sub_one_eq_mod, Nat.mod_self]

/-- Powers of two go into the interval below. Interval `i` has the latencies above `2 ^ i` up to `2 ^ (i + 1)`, and 0 and 1 are in the first. -/
theorem C151_index {x i : Nat} (hx : x < 2 ^ 32) (h : index x = some i) : i < 32 ∧ (0 < i → 2 ^ i < x) ∧ x ≤ 2 ^ (i + 1) := by
  unfold index at h
  split at h
  · cases h; simp; omega
  · rename_i h2
    obtain ⟨k, a, b⟩ := exists_log (x := x) (by omega)
    have hk : k < 32 := by
      by_cases hk : k < 32
      · exact hk
      · have : 2 ^ 32 ≤ 2 ^ k := Nat.pow_le_pow_right (by omega) (by omega)
        omega
    have hk1 : 1 ≤ k := by
      by_cases hk1 : k = 0
      · subst hk1; simp at b; omega
      · omega
    unfold log2 at h
    simp only [smear_eq a b hk, ones32_eq k hk, and_pred a b] at h
    split at h
    · simp at h
    · simp only [Option.map_some, Option.some.injEq] at h
      by_cases hp : x = 2 ^ k
      · rw [if_pos hp] at h
        have : k = i + 1 := by omega
        subst this
        refine ⟨by omega, fun _ => ?_, by omega⟩
        rw [hp, Nat.pow_succ]
        have := Nat.two_pow_pos i
        omega
      · rw [if_neg hp] at h
        have : k = i := by omega
        subst this
        exact ⟨hk, fun _ => by omega, by omega⟩

/-- Every latency has an interval, up to `2 ^ 31`; so has any other one that is not `2 ^ 31` and one other power of two. -/
theorem C151_defined {x : Nat} (h : x ≤ 2 ^ 31) : ∃ i, index x = some i := by
  unfold index
  split
  · exact ⟨0, rfl⟩
  · unfold log2
    have : x &&& (x - 1) ≠ 2 ^ 31 := by
      have : x &&& (x - 1) ≤ x - 1 := Nat.and_le_right
      omega
    simp only [if_neg this]
    exact ⟨_, rfl⟩

/-- `GetIntervalIndex` is undefined for some latencies above `2 ^ 31`. -/
theorem C152_index_partial (k : Nat) (h : k < 31) (hk : 0 < k) : index (2 ^ 31 + 2 ^ k) = none := by
  have : ∀ k, k < 31 → 0 < k → index (2 ^ 31 + 2 ^ k) = none := by decide +kernel
  exact this k h hk

example : index 1000 = some 9 ∧ index 1024 = some 9 ∧ index 1025 = some 10 ∧ index 0 = some 0 ∧ index (2 ^ 32 - 1) = some 31 := by decide +kernel

/-- larger values have intervals that are not before -/
theorem index_lt {x y i j : Nat} (hx : x < 2 ^ 32) (hy : y < 2 ^ 32) (h : index x = some i) (h' : index y = some j) (hij : i < j) : x < y := by
  obtain ⟨-, -, c⟩ := C151_index hx h
  obtain ⟨-, b, -⟩ := C151_index hy h'
  have : 2 ^ (i + 1) ≤ 2 ^ j := Nat.pow_le_pow_right (by omega) (by omega)
  have := b (by omega)
  omega

/-! ## Samples -/

/-- The list is part of the other one, with repetitions counted. -/
def Part (l h : List Nat) : Prop := ∃ rest, h.Perm (l ++ rest)

theorem Part.refl (l : List Nat) : Part l l := ⟨[], by simp⟩

theorem Part.trans {a b c : List Nat} (h : Part a b) (h' : Part b c) : Part a c := by
  obtain ⟨r, h⟩ := h; obtain ⟨r', h'⟩ := h'
  exact ⟨r ++ r', h'.trans (by rw [← List.append_assoc]; exact h.append_right r')⟩

theorem Part.append {a b c d : List Nat} (h : Part a b) (h' : Part c d) : Part (a ++ c) (b ++ d) := by
  obtain ⟨r, h⟩ := h; obtain ⟨r', h'⟩ := h'
  refine ⟨r ++ r', (h.append h').trans ?_⟩
  simp only [List.append_assoc]
  refine List.Perm.append_left a ?_
  rw [← List.append_assoc, ← List.append_assoc]
  exact List.perm_append_comm.append_right r'

theorem Part.length {a b : List Nat} (h : Part a b) : a.length ≤ b.length := by
  obtain ⟨r, h⟩ := h; have := h.length_eq; simp at this; omega

theorem Part.perm {a b : List Nat} (h : Part a b) (hl : a.length = b.length) : b.Perm a := by
  obtain ⟨r, h⟩ := h
  have := h.length_eq
  simp at this
  have : r = [] := List.length_eq_zero_iff.mp (by omega)
  subst this
  simpa using h

theorem Part.mem {a b : List Nat} (h : Part a b) {x : Nat} (hx : x ∈ a) : x ∈ b := by
  obtain ⟨r, h⟩ := h
  exact h.mem_iff.mpr (by simp [hx])

theorem set_perm {a : List Nat} {j : Nat} (h : j < a.length) (z : Nat) : (a[j] :: a.set j z).Perm (z :: a) := by
  rw [List.perm_iff_count]
  intro y
  have hp : a[j] = y → 0 < a.count y := fun e => List.count_pos_iff.mpr (e ▸ List.getElem_mem h)
  rw [List.count_cons, List.count_cons, List.count_set h]
  by_cases e1 : a[j] = y <;> by_cases e2 : z = y <;> simp [e1, e2] <;> (try have := hp e1) <;> omega

theorem moveOut_perm {l : List Nat} {j : Nat} (hj : j < l.length) : l.Perm (l.getD j 0 :: moveOut l j) := by
  have hne : l ≠ [] := by intro h; simp [h] at hj
  obtain ⟨a, z, rfl⟩ : ∃ a z, l = a ++ [z] := ⟨l.dropLast, l.getLast hne, (List.dropLast_concat_getLast hne).symm⟩
  unfold moveOut
  simp only [List.getLastD_concat]
  simp only [List.length_append, List.length_cons, List.length_nil] at hj
  by_cases h : j < a.length
  · rw [List.set_append, if_pos h, List.dropLast_concat]
    have : (a ++ [z]).getD j 0 = a[j] := by rw [List.getD_eq_getElem?_getD, List.getElem?_append_left h, List.getElem?_eq_getElem h]; rfl
    rw [this]
    exact (List.perm_append_singleton z a).trans (set_perm h z).symm
  · have : j = a.length := by omega
    subst this
    rw [List.set_append, if_neg (by omega)]
    simp [List.getD]

theorem moveOut_length (l : List Nat) (j : Nat) : (moveOut l j).length = l.length - 1 := by simp [moveOut]

theorem drop_part (r : Nat → Nat) : ∀ k (l : List Nat), k ≤ l.length → Part (drop r k l) l ∧ (drop r k l).length = l.length - k := by
  intro k
  induction k with
  | zero => intro l _; exact ⟨Part.refl l, rfl⟩
  | succ k ih =>
    intro l hl
    have hm := moveOut_length l (r k % l.length)
    obtain ⟨a, b⟩ := ih (moveOut l (r k % l.length)) (by omega)
    refine ⟨a.trans ⟨[l.getD (r k % l.length) 0], ?_⟩, ?_⟩
    · exact (moveOut_perm (Nat.mod_lt _ (by omega))).trans (List.perm_append_singleton _ _).symm
    · rw [drop, b]; omega

theorem pick_part (r : Nat → Nat) : ∀ k (l : List Nat), k ≤ l.length → Part (pick r k l) l ∧ (pick r k l).length = k := by
  intro k
  induction k with
  | zero => intro l _; exact ⟨⟨l, by simp [pick]⟩, rfl⟩
  | succ k ih =>
    intro l hl
    have hm := moveOut_length l (r k % l.length)
    obtain ⟨⟨rest, a⟩, b⟩ := ih (moveOut l (r k % l.length)) (by omega)
    refine ⟨⟨rest, ?_⟩, by simp [pick, b]⟩
    exact (moveOut_perm (Nat.mod_lt _ (by omega))).trans (by rw [pick]; exact a.cons _)

/-- The interval stands for the values: it has counted them, and has samples of them, all if they fit. -/
structure Rep (cap : Nat) (a : Ivl) (h : List Nat) : Prop where
  added : a.added = h.length
  len : a.samples.length = min h.length cap
  part : Part a.samples h

theorem roundExp_bounds {r a b : Nat} (hb : 0 < b) : a / b ≤ roundExp r a b ∧ (roundExp r a b) * b < a + b := by
  unfold roundExp
  rw [if_neg (by omega)]
  have e := Nat.div_add_mod a b
  have l := Nat.mod_lt a hb
  split
  · refine ⟨by omega, ?_⟩
    rw [Nat.add_mul, Nat.mul_comm (a / b)]; omega
  · refine ⟨by omega, ?_⟩
    rw [Nat.add_zero, Nat.mul_comm (a / b)]; omega

/-- `Merge` of a small interval that has all its values: no assertion fails, whatever is drawn, and the result stands for the values of both. -/
theorem C151_merge {cap : Nat} {a b : Ivl} {h h' : List Nat} (ha : Rep cap a h) (hb : Rep cap b h') (hl : h'.length ≤ cap) (r0 : Nat) (r1 r2 : Nat → Nat) :
    ∃ c, imerge cap r0 r1 r2 a b = some c ∧ Rep cap c (h ++ h') ∧ c.sorted = a.sorted := by
  obtain ⟨a1, a2, a3⟩ := ha
  obtain ⟨b1, b2, b3⟩ := hb
  have hbs : b.samples.length = b.added := by omega
  unfold imerge
  by_cases h0 : b.added = 0
  · have : h' = [] := List.length_eq_zero_iff.mp (by omega)
    subst this
    simp only [h0, if_true]
    exact ⟨a, rfl, by simpa using ⟨a1, a2, a3⟩, rfl⟩
  · simp only [h0, if_false, hbs, ne_eq, not_true]
    by_cases hc : a.added + b.added ≤ cap
    · rw [if_pos hc, if_neg (by omega)]
      exact ⟨_, rfl, ⟨by simp; omega, by simp; omega, a3.append b3⟩, rfl⟩
    · rw [if_neg hc]
      have hpos : 0 < a.added + b.added := by omega
      obtain ⟨q1, q2⟩ := roundExp_bounds (r := r0) (a := a.added * cap) hpos
      generalize hR : roundExp r0 (a.added * cap) (a.added + b.added) = R at *
      -- rounding keeps both parts in range
      have hR1 : R ≤ cap := by
        apply Nat.le_of_lt_succ
        apply Nat.lt_of_mul_lt_mul_right (a := a.added + b.added)
        calc R * (a.added + b.added) < a.added * cap + (a.added + b.added) := q2
          _ ≤ (a.added + b.added) * cap + (a.added + b.added) := by
            have := Nat.mul_le_mul_right cap (Nat.le_add_right a.added b.added); omega
          _ = (cap + 1) * (a.added + b.added) := by rw [Nat.add_mul cap, Nat.mul_comm cap, Nat.one_mul]
      have hR2 : R ≤ a.added := by
        apply Nat.le_of_lt_succ
        apply Nat.lt_of_mul_lt_mul_right (a := a.added + b.added)
        calc R * (a.added + b.added) < a.added * cap + (a.added + b.added) := q2
          _ ≤ a.added * (a.added + b.added) + (a.added + b.added) := by
            have := Nat.mul_le_mul_left a.added (show cap ≤ a.added + b.added by omega); omega
          _ = (a.added + 1) * (a.added + b.added) := by rw [Nat.add_mul, Nat.one_mul]
      have hR3 : cap - R ≤ b.added := by
        have hdiv : cap - b.added ≤ a.added * cap / (a.added + b.added) := by
          rw [Nat.le_div_iff_mul_le hpos]
          have h1 : (cap - b.added) * (a.added + b.added) + b.added * (a.added + b.added) = cap * (a.added + b.added) := by
            rw [← Nat.add_mul, Nat.sub_add_cancel (by omega)]
          have h2 : b.added * cap ≤ b.added * (a.added + b.added) := Nat.mul_le_mul_left _ (by omega)
          have h3 : cap * (a.added + b.added) = a.added * cap + b.added * cap := by
            rw [Nat.mul_add, Nat.mul_comm cap, Nat.mul_comm cap]
          omega
        omega
      have hR4 : R ≤ a.samples.length := by rw [a2]; omega
      rw [if_neg (by omega)]
      obtain ⟨d1, d2⟩ := drop_part r1 (a.samples.length - R) a.samples (by omega)
      obtain ⟨p1, p2⟩ := pick_part r2 (cap - R) b.samples (by omega)
      have hlen : (drop r1 (a.samples.length - R) a.samples ++ pick r2 (cap - R) b.samples).length = cap := by
        rw [List.length_append, d2, p2]; omega
      simp only [hlen, not_true, if_false]
      exact ⟨_, rfl, ⟨by simp; omega, by rw [hlen]; simp; omega, (d1.trans a3).append (p1.trans b3)⟩, rfl⟩

example : ∃ c, imerge 3 0 (fun _ => 0) (fun _ => 0) ⟨2, false, [5, 6]⟩ ⟨2, false, [7, 8]⟩ = some c ∧ c.added = 4 ∧ c.samples = [5, 6, 7] := ⟨_, rfl, rfl, rfl⟩

end Verif.Tvar.Percentile
