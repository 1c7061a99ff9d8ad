/-!
Sums of weights over lists whose elements change one at a time.
-/

namespace Verif

def wsum {α : Type} (f : α → Nat) (l : List α) : Nat := (l.map f).sum

variable {α : Type}

theorem wsum_set {f : α → Nat} {l : List α} {i : Nat} {a b : α} (h : l[i]? = some a) : wsum f (l.set i b) + f a = wsum f l + f b := by
  induction l generalizing i with
  | nil => cases h
  | cons x l ih =>
    cases i with
    | zero =>
      have hx : x = a := by simpa using h
      subst hx
      simp [wsum]; omega
    | succ i =>
      have := ih (i := i) (by simpa using h)
      simp [wsum] at this ⊢
      omega

theorem wsum_map {f : α → Nat} {g : α → α} {l : List α} : wsum f (l.map g) = wsum (fun x => f (g x)) l := by
  simp [wsum, List.map_map]; rfl

theorem wsum_le {f g : α → Nat} {l : List α} (h : ∀ x, f x ≤ g x) : wsum f l ≤ wsum g l := by
  induction l with
  | nil => simp [wsum]
  | cons x l ih => have := h x; simp [wsum] at ih ⊢; omega

theorem wsum_congr {f g : α → Nat} {l : List α} (h : ∀ x, f x = g x) : wsum f l = wsum g l := by
  rw [show f = g from funext h]

theorem wsum_add {f g : α → Nat} {l : List α} : wsum (fun x => f x + g x) l = wsum f l + wsum g l := by
  induction l with
  | nil => rfl
  | cons x l ih => simp [wsum] at ih ⊢; omega

theorem wsum_one {l : List α} : wsum (fun _ => 1) l = l.length := by
  induction l with
  | nil => rfl
  | cons x l ih => simp [wsum] at ih ⊢; omega

theorem wsum_zero {l : List α} : wsum (fun _ => 0) l = 0 := by
  induction l with
  | nil => rfl
  | cons x l ih => simp [wsum] at ih ⊢; omega

theorem wsum_mem {f : α → Nat} {l : List α} {i : Nat} {a : α} (h : l[i]? = some a) : f a ≤ wsum f l := by
  have := wsum_set (f := f) (b := a) h
  induction l generalizing i with
  | nil => cases h
  | cons x l ih =>
    cases i with
    | zero =>
      have hx : x = a := by simpa using h
      subst hx
      simp [wsum]
    | succ i =>
      have := ih (i := i) (by simpa using h) (wsum_set (by simpa using h))
      simp [wsum] at this ⊢
      omega

theorem wsum_two {f : α → Nat} {l : List α} {i j : Nat} {a b : α} (h : l[i]? = some a) (h' : l[j]? = some b) (hij : i ≠ j) : f a + f b ≤ wsum f l := by
  induction l generalizing i j with
  | nil => cases h
  | cons x l ih =>
    cases i with
    | zero =>
      have hx : x = a := by simpa using h
      subst hx
      cases j with
      | zero => exact absurd rfl hij
      | succ j =>
        have := wsum_mem (f := f) (l := l) (i := j) (by simpa using h')
        simp [wsum] at this ⊢
        omega
    | succ i =>
      cases j with
      | zero =>
        have hx : x = b := by simpa using h'
        subst hx
        have := wsum_mem (f := f) (l := l) (i := i) (by simpa using h)
        simp [wsum] at this ⊢
        omega
      | succ j =>
        have := ih (i := i) (j := j) (by simpa using h) (by simpa using h') (by omega)
        simp [wsum] at this ⊢
        omega

theorem wsum_pos {f : α → Nat} {l : List α} (h : 0 < wsum f l) : ∃ (i : Nat) (a : α), l[i]? = some a ∧ 0 < f a := by
  induction l with
  | nil => simp [wsum] at h
  | cons x l ih =>
    by_cases hx : 0 < f x
    · exact ⟨0, x, rfl, hx⟩
    · obtain ⟨i, a, h1, h2⟩ := ih (by simp [wsum] at h ⊢; omega)
      exact ⟨i + 1, a, by simpa using h1, h2⟩

theorem wsum_replicate {f : α → Nat} {n : Nat} {a : α} (h : f a = 0) : wsum f (List.replicate n a) = 0 := by
  simp [wsum, h]

end Verif
