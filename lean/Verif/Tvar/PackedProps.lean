import Verif.Tvar.Packed

/-! C147: the packed representation of an IntRecorder is exact. -/

namespace Verif.Tvar.Packed

theorem mask_nat : mask.toNat = 2 ^ 44 - 1 := by decide

theorem getSum_nat (n : UInt64) : (getSum n).toNat = n.toNat % 2 ^ 44 := by
  rw [getSum, UInt64.toNat_and, mask_nat, Nat.and_two_pow_sub_one_eq_mod]

theorem getNum_nat (n : UInt64) : (getNum n).toNat = n.toNat / 2 ^ 44 := by
  rw [getNum, UInt64.toNat_shiftRight, Nat.shiftRight_eq_div_pow]
  rfl

theorem compress_nat (num sum : UInt64) (h : num.toNat < 2 ^ 20) : (compress num sum).toNat = num.toNat * 2 ^ 44 + sum.toNat % 2 ^ 44 := by
  rw [compress, UInt64.toNat_or, UInt64.toNat_and, mask_nat, Nat.and_two_pow_sub_one_eq_mod, UInt64.toNat_shiftLeft]
  have e : num.toNat <<< ((44 : UInt64).toNat % 64) % 2 ^ 64 = num.toNat <<< 44 := by
    rw [show (44 : UInt64).toNat % 64 = 44 from rfl, Nat.shiftLeft_eq]
    omega
  rw [e, ← Nat.shiftLeft_add_eq_or_of_lt (Nat.mod_lt _ (by decide)), Nat.shiftLeft_eq]

theorem two_pow_and (n i : Nat) : 2 ^ i &&& n = 2 ^ i * (n.testBit i).toNat := by
  apply Nat.eq_of_testBit_eq
  intro j
  rw [Nat.testBit_and, Nat.testBit_two_pow]
  by_cases e : i = j
  · subst e
    cases h : n.testBit i <;> simp
  · cases h : n.testBit i <;> simp [e, Nat.testBit_two_pow]

theorem extend_i64 (s : UInt64) (h : s.toNat < 2 ^ 44) : i64 (extend s) = if s.toNat < 2 ^ 43 then (s.toNat : Int) else (s.toNat : Int) - 2 ^ 44 := by
  have e1 : (((1 : UInt64) <<< 43) &&& s).toNat = 2 ^ 43 * (s.toNat.testBit 43).toNat := by
    rw [UInt64.toNat_and, show ((1 : UInt64) <<< 43).toNat = 2 ^ 43 from by decide, two_pow_and]
  have e2 : (extend s).toNat = (2 ^ 21 - 1) * (2 ^ 43 * (s.toNat.testBit 43).toNat) % 2 ^ 64 ||| s.toNat := by
    rw [extend, UInt64.toNat_or, UInt64.toNat_mul, e1, show (((1 : UInt64) <<< 21) - 1).toNat = 2 ^ 21 - 1 from by decide]
  by_cases hs : s.toNat < 2 ^ 43
  · rw [if_pos hs, i64, e2, Nat.testBit_lt_two_pow hs]
    simp only [Bool.toNat_false, Nat.mul_zero, Nat.zero_mod, Nat.zero_or]
    rw [if_pos (by omega)]
  · rw [if_neg hs]
    obtain ⟨r, hr, hl⟩ : ∃ r, s.toNat = 2 ^ 43 + r ∧ r < 2 ^ 43 := ⟨s.toNat - 2 ^ 43, by omega, by omega⟩
    have hb : s.toNat.testBit 43 = true := by rw [hr, Nat.testBit_two_pow_add_eq, Nat.testBit_lt_two_pow hl]; rfl
    have e3 : (extend s).toNat = 2 ^ 64 - 2 ^ 43 + r := by
      rw [e2, hb, hr]
      have o : (2 : Nat) ^ 43 + r = 1 <<< 43 ||| r := by rw [← Nat.shiftLeft_add_eq_or_of_lt hl]; rfl
      rw [o, show (2 ^ 21 - 1) * (2 ^ 43 * (true).toNat) % 2 ^ 64 = (2 ^ 21 - 1) <<< 43 from by decide, ← Nat.or_assoc, ← Nat.shiftLeft_or_distrib, show (2 ^ 21 - 1 ||| 1 : Nat) = 2 ^ 21 - 1 from by decide, ← Nat.shiftLeft_add_eq_or_of_lt hl]
      rfl
    rw [i64, e3, if_neg (by omega), hr]
    omega

theorem bits_nat (v : Int) : ((bits v &&& mask).toNat : Int) = v % 2 ^ 44 := by
  rw [UInt64.toNat_and, mask_nat, Nat.and_two_pow_sub_one_eq_mod, bits, UInt64.toNat_ofNat']
  omega

theorem merge_eq (n : UInt64) : merge n = (((n.toNat / 2 ^ 44 : Nat) : Int), if n.toNat % 2 ^ 44 < 2 ^ 43 then ((n.toNat % 2 ^ 44 : Nat) : Int) else ((n.toNat % 2 ^ 44 : Nat) : Int) - 2 ^ 44) := by
  rw [merge, extend_i64 _ (by rw [getSum_nat]; omega), getNum_nat, getSum_nat]

/-- An update that does not clear the buffer adds one to the number and the argument to the sum. One that does leaves just the argument. The number and the sum never leave their bits. -/
theorem C147_update (n : UInt64) (v : Int) (hv : -2 ^ 31 ≤ v ∧ v < 2 ^ 31) :
    ((next n v).1 = false → merge (next n v).2 = ((merge n).1 + 1, (merge n).2 + v)) ∧ ((next n v).1 = true → merge (next n v).2 = (1, v)) := by
  have hn := n.toNat_lt
  have h1 := getNum_nat n
  have h2 := getSum_nat n
  have hb := bits_nat v
  have hx := extend_i64 (getSum n) (by rw [h2]; omega)
  have hbl : (bits v &&& mask).toNat < 2 ^ 44 := by rw [UInt64.toNat_and, mask_nat, Nat.and_two_pow_sub_one_eq_mod]; omega
  have hm : (((1 : UInt64) <<< 20) - 1).toNat = 2 ^ 20 - 1 := by decide
  have ha : (getNum n + 1).toNat = n.toNat / 2 ^ 44 + 1 := by
    rw [UInt64.toNat_add, h1, show (1 : UInt64).toNat = 1 from rfl]; omega
  simp only [next]
  split
  · refine ⟨by simp, fun _ => ?_⟩
    rw [merge_eq]
    have hc := compress_nat (0 + 1) (0 + (bits v &&& mask)) (by decide)
    have e : (0 + (bits v &&& mask) : UInt64).toNat = (bits v &&& mask).toNat := by simp
    rw [e, show (0 + 1 : UInt64).toNat = 1 from rfl] at hc
    simp only [hc]
    generalize (bits v &&& mask).toNat = b at *
    refine Prod.ext ?_ ?_
    · simp only []; omega
    · simp only []; split <;> omega
  · next hno =>
    refine ⟨fun _ => ?_, by simp⟩
    simp only [not_or, gt_iff_lt, UInt64.lt_iff_toNat_lt, ha, hm, Nat.not_lt, Bool.not_eq_true] at hno
    obtain ⟨hno1, hno2⟩ := hno
    have hc := compress_nat (getNum n + 1) (getSum n + (bits v &&& mask)) (by rw [ha]; omega)
    rw [ha, UInt64.toNat_add, h2] at hc
    rw [merge_eq, merge_eq]
    simp only [hc]
    rw [hx, h2] at hno2
    generalize (bits v &&& mask).toNat = b at *
    generalize n.toNat = m at *
    have hno3 : ∀ S : Int, (if m % 2 ^ 44 < 2 ^ 43 then ((m % 2 ^ 44 : Nat) : Int) else ((m % 2 ^ 44 : Nat) : Int) - 2 ^ 44) = S → -2 ^ 43 ≤ S + v ∧ S + v < 2 ^ 43 := by
      intro S hS
      rw [hS] at hno2
      have : -2 ^ 43 ≤ S ∧ S < 2 ^ 43 := by split at hS <;> omega
      simp only [willOverflow, Bool.or_eq_false_iff, Bool.and_eq_false_iff, decide_eq_false_iff_not] at hno2
      omega
    have hno4 := hno3 _ rfl
    refine Prod.ext ?_ ?_
    · simp only []; omega
    · simp only []; split at hno4 <;> split <;> omega

/-- The empty buffer. -/
theorem C147_empty : merge 0 = (0, 0) := by decide

/-- Arguments outside of the range of an `int` count as the nearest number that is. -/
theorem C147_clamp (v : Int) : (-2 ^ 31 ≤ clamp v ∧ clamp v < 2 ^ 31) ∧ clamp v = max (-2 ^ 31) (min (2 ^ 31 - 1) v) := by
  unfold clamp
  split <;> (try split) <;> omega

/-- A sequence of updates of one thread: what was merged and what is in the buffer together. -/
def run : List Int → (Int × Int) × UInt64 → (Int × Int) × UInt64
  | [], s => s
  | v :: vs, ((num, sum), n) =>
    run vs (if (next n (clamp v)).1 then ((num + (merge n).1, sum + (merge n).2), (next n (clamp v)).2) else ((num, sum), (next n (clamp v)).2))

/-- Any sequence of values: their number and their sum are exact, however often the buffer was merged. -/
theorem C147_sum (vs : List Int) (a : Int × Int) (n : UInt64) :
    ((run vs (a, n)).1.1 + (merge (run vs (a, n)).2).1 = a.1 + (merge n).1 + vs.length) ∧
      ((run vs (a, n)).1.2 + (merge (run vs (a, n)).2).2 = a.2 + (merge n).2 + (vs.map clamp).sum) := by
  induction vs generalizing a n with
  | nil => simp [run]
  | cons v vs ih =>
    obtain ⟨x, y⟩ := a
    obtain ⟨h1, h2⟩ := C147_update n (clamp v) (C147_clamp v).1
    simp only [run, List.length_cons, List.map_cons, List.sum_cons]
    cases e : (next n (clamp v)).1 with
    | false =>
      have := ih (x, y) (next n (clamp v)).2
      rw [h1 e] at this
      simp only [Bool.false_eq_true, if_false] at *
      omega
    | true =>
      have := ih (x + (merge n).1, y + (merge n).2) (next n (clamp v)).2
      rw [h2 e] at this
      simp only [if_true] at *
      omega

example : merge (run [5, -7, 3000000000] ((0, 0), 0)).2 = (3, 2147483645) := by decide +kernel

end Verif.Tvar.Packed
