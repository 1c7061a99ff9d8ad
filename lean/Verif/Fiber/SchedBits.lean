import Verif.Fiber.SchedModel
/-!
# Facts about the bit masks of the fiber scheduler
-/

namespace Verif.Fiber.Sched

theorem bit_get (i j : Nat) : (bit i).getLsbD j = (decide (j = i) && decide (j < 64)) := by
  unfold bit
  rw [BitVec.getLsbD_shiftLeft]
  by_cases h : j < 64 <;> by_cases h' : j = i <;> simp [h, h'] <;> omega

theorem ext_get {a b : BitVec 64} (h : ∀ j, a.getLsbD j = b.getLsbD j) : a = b := by
  apply BitVec.eq_of_getLsbD_eq
  intro i _
  exact h i

theorem get_lt {m : BitVec 64} {i : Nat} (h : m.getLsbD i = true) : i < 64 := by
  rcases Nat.lt_or_ge i 64 with h' | h'
  · exact h'
  · rw [BitVec.getLsbD_of_ge _ _ h'] at h; simp at h

theorem and_bit (m : BitVec 64) (i : Nat) : m &&& bit i ≠ 0 ↔ m.getLsbD i = true := by
  constructor
  · intro h
    by_cases hi : m.getLsbD i = true
    · exact hi
    · exfalso
      apply h
      apply ext_get
      intro j
      rw [BitVec.getLsbD_and, bit_get]
      by_cases hj : j = i
      · subst hj; simp [hi]
      · simp [hj]
  · intro h h'
    have := congrArg (fun x => x.getLsbD i) h'
    simp only [BitVec.getLsbD_and, bit_get, h, get_lt h] at this
    simp at this

theorem and_bit_zero (m : BitVec 64) (i : Nat) : m &&& bit i = 0 ↔ m.getLsbD i = false := by
  have := and_bit m i
  cases h : m.getLsbD i <;> simp [h] at this ⊢ <;> exact this

theorem clear_get (m : BitVec 64) (i j : Nat) : (m &&& ~~~bit i).getLsbD j = (m.getLsbD j && !decide (j = i)) := by
  rw [BitVec.getLsbD_and, BitVec.getLsbD_not, bit_get]
  by_cases h : j < 64
  · simp [h]
  · have : m.getLsbD j = false := BitVec.getLsbD_of_ge _ _ (by omega)
    simp [this]

theorem set_get (m : BitVec 64) {i : Nat} (hi : i < 64) (j : Nat) :
    (m ||| bit i).getLsbD j = (m.getLsbD j || decide (j = i)) := by
  rw [BitVec.getLsbD_or, bit_get]
  by_cases h' : j = i <;> simp [h', hi]

theorem exists_bit {m : BitVec 64} (h : m ≠ 0) : ∃ i, m.getLsbD i = true := by
  by_cases h' : ∃ i, m.getLsbD i = true
  · exact h'
  · exfalso; apply h; apply ext_get; intro j
    by_cases hj : m.getLsbD j = true
    · exact absurd ⟨j, hj⟩ h'
    · simp [hj]

/-- `lowest` is the position of the lowest bit. -/
theorem lowest_spec {m : BitVec 64} (h : m ≠ 0) : m.getLsbD (lowest m) = true ∧ ∀ j, j < lowest m → m.getLsbD j = false := by
  obtain ⟨i, hi⟩ := exists_bit h
  unfold lowest
  cases hf : (List.range 64).find? fun i => m.getLsbD i with
  | none =>
    rw [List.find?_eq_none] at hf
    exact absurd hi (hf i (by simpa using get_lt hi))
  | some k =>
    rw [List.find?_range_eq_some] at hf
    simp only [Option.getD_some]
    exact ⟨hf.1, fun j hj => by simpa using hf.2.2 j hj⟩

theorem lowest_eq {m : BitVec 64} {l : Nat} (h : m.getLsbD l = true) (h' : ∀ j, j < l → m.getLsbD j = false) : lowest m = l := by
  have hm : m ≠ 0 := by rintro rfl; simp at h
  obtain ⟨h1, h2⟩ := lowest_spec hm
  rcases Nat.lt_trichotomy (lowest m) l with h3 | h3 | h3
  · rw [h' _ h3] at h1; simp at h1
  · exact h3
  · rw [h2 _ h3] at h; simp at h

theorem ffs_pred {m : BitVec 64} (h : m ≠ 0) : ffs m - 1 = lowest m := by rw [ffs, if_neg h]; rfl

theorem bits_zero : bits 0 = 0 := by decide +kernel

theorem filter_mono {l : List Nat} {p q : Nat → Bool} (h : ∀ i, p i = true → q i = true) :
    (l.filter p).length ≤ (l.filter q).length := by
  induction l with
  | nil => simp
  | cons a l ih =>
    by_cases hp : p a = true
    · simp [hp, h a hp, ih]
    · by_cases hq : q a = true
      · simp [hp, hq]; omega
      · simp [hp, hq, ih]

theorem bits_mono {a b : BitVec 64} (h : ∀ i, a.getLsbD i = true → b.getLsbD i = true) : bits a ≤ bits b := filter_mono h

theorem filter_or {l : List Nat} (hl : l.Nodup) {p q : Nat → Bool} {k : Nat} (h : ∀ i, p i = true → q i = true ∨ i = k) :
    (l.filter p).length ≤ (l.filter q).length + 1 := by
  induction l with
  | nil => simp
  | cons a l ih =>
    rw [List.nodup_cons] at hl
    by_cases ha : a = k
    · have : (l.filter p).length ≤ (l.filter q).length := by
        have e : l.filter p = l.filter (fun i => p i && !decide (i = k)) := by
          apply List.filter_congr
          intro x hx
          have : x ≠ k := by rintro rfl; exact hl.1 (ha ▸ hx)
          simp [this]
        rw [e]
        apply filter_mono
        intro i hi
        simp at hi
        rcases h i hi.1 with h | h
        · exact h
        · exact absurd h hi.2
      simp only [List.filter_cons]
      split <;> split <;> simp <;> omega
    · have := ih hl.2
      simp only [List.filter_cons]
      split
      · rename_i hp
        rcases h a hp with h | h
        · simp [h]; omega
        · exact absurd h ha
      · split <;> simp <;> omega

theorem bits_set (m : BitVec 64) (i : Nat) : bits (m ||| bit i) ≤ bits m + 1 := by
  apply filter_or (List.nodup_range)
  intro j hj
  rw [BitVec.getLsbD_or, bit_get] at hj
  simp at hj
  rcases hj with h | h
  · exact .inl h
  · exact .inr h.1

theorem bits_clear (m c : BitVec 64) : bits (m &&& c) ≤ bits m := by
  apply bits_mono
  intro i hi
  rw [BitVec.getLsbD_and] at hi
  simp at hi
  exact hi.1

/-- A mask with two bits has one above the lowest. -/
theorem exists_above {m : BitVec 64} (h : 1 < bits m) : ∃ j, lowest m < j ∧ m.getLsbD j = true := by
  by_cases h' : ∃ j, lowest m < j ∧ m.getLsbD j = true
  · exact h'
  · exfalso
    have hm : m ≠ 0 := by rintro rfl; rw [bits_zero] at h; omega
    obtain ⟨_, h2⟩ := lowest_spec hm
    have : bits m ≤ bits 0 + 1 := by
      apply filter_or (List.nodup_range) (k := lowest m)
      intro j hj
      rcases Nat.lt_trichotomy j (lowest m) with h3 | h3 | h3
      · rw [h2 _ h3] at hj; simp at hj
      · exact .inr h3
      · exact absurd ⟨j, h3, hj⟩ h'
    rw [bits_zero] at this
    omega

theorem intBit_get {i : Nat} (hi : i < 32) (j : Nat) :
    ((1#32 <<< i).signExtend 64).getLsbD j = (decide (j = i) || (decide (i = 31) && decide (31 ≤ j) && decide (j < 64))) := by
  rw [BitVec.getLsbD_signExtend, BitVec.msb_eq_getLsbD_last, BitVec.getLsbD_shiftLeft, BitVec.getLsbD_shiftLeft]
  simp only [BitVec.getLsbD_one]
  rcases Nat.lt_or_ge j 32 with h | h
  · rw [if_pos h, Bool.eq_iff_iff]; simp; omega
  · rw [if_neg (by omega), Bool.eq_iff_iff]; simp; omega

theorem intBit_some {i : Nat} (hi : i < 32) : intBit i = some ((1#32 <<< i).signExtend 64) := by simp [intBit, hi]

theorem intBit_low {m : BitVec 64} {n i : Nat} (hn : n ≤ 32) (hm : ∀ j, m.getLsbD j = true → j < n) (hi : i < 32) :
    m &&& (intBit i).getD 0 ≠ 0 ↔ m.getLsbD i = true := by
  rw [intBit_some hi, Option.getD_some]
  constructor
  · intro h
    obtain ⟨j, hj⟩ := exists_bit h
    rw [BitVec.getLsbD_and, intBit_get hi] at hj
    simp at hj
    have := hm j hj.1
    rcases hj.2 with h | h
    · exact h ▸ hj.1
    · have : j = i := by omega
      exact this ▸ hj.1
  · intro h h'
    have := congrArg (fun x => x.getLsbD i) h'
    simp [BitVec.getLsbD_and, intBit_get hi, h] at this

/-- The workers woken are the ones of the mask. -/
theorem chosen_spec {m : BitVec 64} {n : Nat} (hn : n ≤ 32) (hm : ∀ j, m.getLsbD j = true → j < n) :
    ∃ l, chosen n m = some l ∧ ∀ i, i ∈ l ↔ m.getLsbD i = true := by
  refine ⟨(List.range n).filter fun i => m.getLsbD i, ?_, ?_⟩
  · unfold chosen
    rw [if_pos hn]
    congr 1
    apply List.filter_congr
    intro i hi
    have hi : i < n := by simpa using hi
    have := intBit_low hn hm (show i < 32 by omega)
    cases h : m.getLsbD i <;> simp [h] at this ⊢ <;> exact this
  · intro i
    simp
    exact hm i

/-- What the loop really does: however often it runs, it clears the bit above the lowest. -/
theorem clearLoop_spec {m : BitVec 64} {n : Nat} (hn : n ≤ 32) (hm : ∀ j, m.getLsbD j = true → j < n) (hb : 1 < bits m) (k : Nat) :
    clearLoop (k + 1) m = some (m &&& ~~~bit (lowest m + 1)) := by
  have h0 : m ≠ 0 := by rintro rfl; rw [bits_zero] at hb; omega
  obtain ⟨h1, h2⟩ := lowest_spec h0
  obtain ⟨j, hj, hj'⟩ := exists_above hb
  have hl : lowest m + 1 < 32 := by
    have := hm _ hj'
    omega
  have e : ∀ m' : BitVec 64, (∀ j, m'.getLsbD j = true → j < n) →
      m' &&& ~~~((1#32 <<< (lowest m + 1)).signExtend 64) = m' &&& ~~~bit (lowest m + 1) := by
    intro m' hm'
    apply ext_get
    intro i
    rw [clear_get, BitVec.getLsbD_and, BitVec.getLsbD_not, intBit_get hl]
    by_cases hi : m'.getLsbD i = true
    · have := get_lt hi
      have := hm' i hi
      by_cases h3 : i = lowest m + 1 <;> simp [hi, h3] <;> omega
    · simp [hi]
  have hlow : lowest (m &&& ~~~bit (lowest m + 1)) = lowest m := by
    apply lowest_eq
    · rw [clear_get, h1]; simp
    · intro i hi; rw [clear_get, h2 i hi]; simp
  have hne : m &&& ~~~bit (lowest m + 1) ≠ 0 := by
    intro h
    have := congrArg (fun x => x.getLsbD (lowest m)) h
    simp only [clear_get, h1] at this
    simp at this
  have step1 : clearLoop 1 m = some (m &&& ~~~bit (lowest m + 1)) := by
    simp only [clearLoop, ffs, if_neg h0, intBit_some hl, e m hm]
  have stab : ∀ k, clearLoop k (m &&& ~~~bit (lowest m + 1)) = some (m &&& ~~~bit (lowest m + 1)) := by
    intro k
    induction k with
    | zero => rfl
    | succ k ih =>
      simp only [clearLoop, ffs, if_neg hne, hlow, intBit_some hl]
      rw [e]
      · have : (m &&& ~~~bit (lowest m + 1)) &&& ~~~bit (lowest m + 1) = m &&& ~~~bit (lowest m + 1) := by
          apply ext_get; intro i; rw [clear_get, clear_get]; cases m.getLsbD i <;> simp
        rw [this]; exact ih
      · intro i hi
        rw [clear_get] at hi
        simp at hi
        exact hm i hi.1
  rw [clearLoop, ffs, if_neg h0, intBit_some hl]
  simp only [e m hm]
  exact stab k

end Verif.Fiber.Sched
