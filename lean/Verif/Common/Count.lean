import Verif.Common.Upd
/-!
The number of indices below a bound with a property.
-/

namespace Verif

/-- How many `i < n` have `p i`. -/
def cnt (p : Nat → Bool) : Nat → Nat
  | 0 => 0
  | n + 1 => cnt p n + if p n then 1 else 0

theorem cnt_le (p : Nat → Bool) (n : Nat) : cnt p n ≤ n := by
  induction n with
  | zero => simp [cnt]
  | succ n ih => simp only [cnt]; split <;> omega

theorem cnt_congr {p q : Nat → Bool} {n : Nat} (h : ∀ i, i < n → p i = q i) : cnt p n = cnt q n := by
  induction n with
  | zero => rfl
  | succ n ih => simp only [cnt]; rw [ih (fun i hi => h i (by omega)), h n (by omega)]

theorem cnt_all {p : Nat → Bool} {n : Nat} : cnt p n = n ↔ ∀ i, i < n → p i = true := by
  induction n with
  | zero => simp [cnt]
  | succ n ih =>
    have := cnt_le p n
    simp only [cnt]
    constructor
    · intro h i hi
      by_cases hp : p n = true
      · by_cases hin : i = n
        · subst hin; exact hp
        · exact ih.1 (by simp [hp] at h; omega) i (by omega)
      · simp [hp] at h; omega
    · intro h
      rw [ih.2 (fun i hi => h i (by omega)), h n (by omega)]
      simp

theorem cnt_lt {p : Nat → Bool} {n i : Nat} (h : i < n) (hp : p i = false) : cnt p n < n := by
  have h1 := cnt_le p n
  by_cases h2 : cnt p n = n
  · have := cnt_all.1 h2 i h
    simp [hp] at this
  · omega

theorem cnt_insert {p q : Nat → Bool} {n i : Nat} (h : i < n) (hp : p i = false) (hq : q i = true)
    (hj : ∀ j, j ≠ i → q j = p j) : cnt q n = cnt p n + 1 := by
  induction n with
  | zero => omega
  | succ n ih =>
    simp only [cnt]
    by_cases hi : i = n
    · subst hi
      rw [cnt_congr (p := q) (q := p) (fun j hj' => hj j (by omega))]
      simp [hp, hq]
    · rw [ih (by omega), hj n (fun h => hi h.symm)]
      omega

end Verif
