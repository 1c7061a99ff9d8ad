import Verif.Fiber.HeapModel
/-!
# The heap algorithms keep the heap and its elements
-/

namespace Verif.Fiber

/-- The elements. -/
def Heap.Has (h : Heap) (x : Nat) : Prop := ∃ i, i < h.n ∧ h.a i = x

/-- No element is there twice. -/
def Heap.Inj (h : Heap) : Prop := ∀ i j, i < h.n → j < h.n → h.a i = h.a j → i = j

/-- Every element comes after its parent, where the parent is at position `b` or later. -/
def Heap.Ord (key : Nat → Nat) (b : Nat) (h : Heap) : Prop :=
  ∀ i, 0 < i → i < h.n → b ≤ (i - 1) / 2 → key (h.a ((i - 1) / 2)) ≤ key (h.a i)

theorem Heap.Ord.top_le {key : Nat → Nat} {h : Heap} (ho : h.Ord key 0) {x : Nat} (hx : h.Has x) : key h.top ≤ key x := by
  obtain ⟨i, hi, rfl⟩ := hx
  induction i using Nat.strongRecOn with
  | ind i ih =>
    by_cases h0 : i = 0
    · subst h0; exact Nat.le_refl _
    · exact Nat.le_trans (ih ((i - 1) / 2) (by omega) (by omega)) (ho i (by omega) hi (Nat.zero_le _))

/-- The state during the sifting: the heap order is fine outside the hole and across the hole. -/
structure Hole (key : Nat → Nat) (b n : Nat) (a : Nat → Nat) (hole : Nat) : Prop where
  lt : hole < n
  out : ∀ i, 0 < i → i < n → b ≤ (i - 1) / 2 → i ≠ hole → (i - 1) / 2 ≠ hole → key (a ((i - 1) / 2)) ≤ key (a i)
  across : ∀ i, 0 < i → i < n → (i - 1) / 2 = hole → 0 < hole → b ≤ (hole - 1) / 2 → key (a ((hole - 1) / 2)) ≤ key (a i)

theorem siftUp_ord {key : Nat → Nat} {b n : Nat} {a : Nat → Nat} {hole v : Nat} (h : Hole key b n a hole)
    (hv : ∀ i, 0 < i → i < n → (i - 1) / 2 = hole → b ≤ hole → key v ≤ key (a i))
    (hb : b = 0 ∨ b = 1 ∧ 0 < hole ∧ key (a 0) ≤ key v) : (Heap.mk n (siftUp key a hole v)).Ord key b := by
  induction hole using Nat.strongRecOn generalizing a with
  | ind hole ih =>
    obtain ⟨h1, h2, h3⟩ := h
    unfold siftUp
    by_cases h0 : hole = 0
    · rw [dif_pos h0]
      subst h0
      intro i hi hin hbi
      have hbi' : b ≤ (i - 1) / 2 := hbi
      simp only [upd]
      rw [if_neg (show ¬ i = 0 by omega)]
      by_cases hp : (i - 1) / 2 = 0
      · rw [if_pos hp]; exact hv i hi hin hp (by omega)
      · rw [if_neg hp]; exact h2 i hi hin hbi' (by omega) hp
    · rw [dif_neg h0]
      by_cases hlt : key v < key (a ((hole - 1) / 2))
      · rw [if_pos hlt]
        have hpar : b = 0 ∨ 0 < (hole - 1) / 2 := by
          rcases hb with hb | ⟨hb, h', h''⟩
          · exact Or.inl hb
          · right
            by_cases hz : (hole - 1) / 2 = 0
            · rw [hz] at hlt; omega
            · omega
        have hbp : b ≤ (hole - 1) / 2 := by omega
        apply ih ((hole - 1) / 2) (by omega)
        · constructor
          · omega
          · intro i hi hin hbi hne1 hne2
            simp only [upd]
            by_cases e1 : i = hole
            · subst e1; exact absurd rfl hne2
            · rw [if_neg e1]
              by_cases e2 : (i - 1) / 2 = hole
              · rw [if_pos e2]; exact h3 i hi hin e2 (by omega) hbp
              · rw [if_neg e2]; exact h2 i hi hin hbi e1 e2
          · intro i hi hin he hpos hbq
            have hq : (hole - 1) / 2 ≠ hole := by omega
            have hq2 : ((hole - 1) / 2 - 1) / 2 ≠ hole := by omega
            have hh := h2 ((hole - 1) / 2) hpos (by omega) hbq hq hq2
            simp only [upd]
            rw [if_neg hq2]
            by_cases e1 : i = hole
            · rw [if_pos e1]; exact hh
            · rw [if_neg e1]
              have := h2 i hi hin (by omega) e1 (by omega)
              rw [he] at this
              exact Nat.le_trans hh this
        · intro i hi hin he hbh
          simp only [upd]
          by_cases e1 : i = hole
          · rw [if_pos e1]; omega
          · rw [if_neg e1]
            have := h2 i hi hin (by omega) e1 (by omega)
            rw [he] at this
            omega
        · rcases hb with hb | ⟨hb, h', h''⟩
          · exact Or.inl hb
          · right
            refine ⟨hb, by omega, ?_⟩
            simp only [upd]
            rw [if_neg (by omega)]
            exact h''
      · rw [if_neg hlt]
        intro i hi hin hbi
        simp only [upd]
        have hbi' : b ≤ (i - 1) / 2 := hbi
        by_cases e1 : i = hole
        · subst e1
          rw [if_neg (by omega), if_pos rfl]
          omega
        · rw [if_neg e1]
          by_cases e2 : (i - 1) / 2 = hole
          · rw [if_pos e2]; exact hv i hi hin e2 (by omega)
          · rw [if_neg e2]; exact h2 i hi hin hbi' e1 e2

theorem siftDown_hole {key : Nat → Nat} {n : Nat} {a : Nat → Nat} {hole : Nat} (h : Hole key 0 n a hole) :
    Hole key 0 n (siftDown key n a hole).1 (siftDown key n a hole).2 ∧
      ∀ i, 0 < i → i < n → (i - 1) / 2 ≠ (siftDown key n a hole).2 := by
  fun_induction siftDown key n a hole with
  | case1 a hole hlt second ih =>
    apply ih
    obtain ⟨h1, h2, h3⟩ := h
    have hs : second = 2 * hole + 1 ∨ second = 2 * hole + 2 := by simp only [second]; split <;> simp
    have hmin : ∀ i, 0 < i → i < n → (i - 1) / 2 = hole → key (a second) ≤ key (a i) := by
      intro i hi hin he
      have : i = 2 * hole + 1 ∨ i = 2 * hole + 2 := by omega
      simp only [second]
      split <;> rcases this with rfl | rfl <;> omega
    have hpar : (second - 1) / 2 = hole := by omega
    constructor
    · omega
    · intro i hi hin hb e1 e2
      simp only [upd]
      by_cases e3 : i = hole
      · subst e3
        rw [if_neg (by omega), if_pos rfl]
        exact h3 second (by omega) (by omega) hpar hi (Nat.zero_le _)
      · rw [if_neg e3]
        by_cases e4 : (i - 1) / 2 = hole
        · rw [if_pos e4]; exact hmin i hi hin e4
        · rw [if_neg e4]; exact h2 i hi hin hb e3 e4
    · intro i hi hin he hpos hb
      simp only [upd]
      rw [hpar, if_pos rfl, if_neg (by omega)]
      have := h2 i hi hin (Nat.zero_le _) (by omega) (by omega)
      rwa [he] at this
  | case2 a hole hlt hc =>
    obtain ⟨h1, h2, h3⟩ := h
    refine ⟨⟨by simp only; omega, ?_, ?_⟩, ?_⟩
    · intro i hi hin hb e1 e2
      simp only [upd] at *
      by_cases e3 : i = hole
      · subst e3
        rw [if_neg (by omega), if_pos rfl]
        exact h3 (2 * i + 1) (by omega) (by omega) (by omega) hi (Nat.zero_le _)
      · rw [if_neg e3]
        by_cases e4 : (i - 1) / 2 = hole
        · omega
        · rw [if_neg e4]; exact h2 i hi hin hb e3 e4
    · intro i hi hin he
      simp only at he
      omega
    · intro i hi hin
      simp only
      omega
  | case3 a hole hlt hc =>
    refine ⟨h, ?_⟩
    intro i hi hin
    simp only
    omega

/-! ### Elements -/

/-- A vector with a hole that is filled with `v`. -/
def Fill (n : Nat) (a : Nat → Nat) (hole v x : Nat) : Prop := ∃ i, i < n ∧ (upd a hole v) i = x

theorem siftUp_has {key : Nat → Nat} {n : Nat} {a : Nat → Nat} {hole v : Nat} (hn : hole < n) (x : Nat) :
    (Heap.mk n (siftUp key a hole v)).Has x ↔ Fill n a hole v x := by
  induction hole using Nat.strongRecOn generalizing a with
  | ind hole ih =>
    unfold siftUp
    by_cases h0 : hole = 0
    · rw [dif_pos h0]; rfl
    · rw [dif_neg h0]
      split
      · rw [ih ((hole - 1) / 2) (by omega) (by omega)]
        constructor
        · rintro ⟨i, hi, rfl⟩
          refine ⟨if i = (hole - 1) / 2 then hole else if i = hole then (hole - 1) / 2 else i, by grind, ?_⟩
          simp only [upd]
          grind
        · rintro ⟨i, hi, rfl⟩
          refine ⟨if i = (hole - 1) / 2 then hole else if i = hole then (hole - 1) / 2 else i, by grind, ?_⟩
          simp only [upd]
          grind
      · rfl

/-- The elements outside the hole are different from each other and from `v`. -/
def FillInj (n : Nat) (a : Nat → Nat) (hole v : Nat) : Prop :=
  ∀ i j, i < n → j < n → (upd a hole v) i = (upd a hole v) j → i = j

theorem FillInj.move {n : Nat} {a : Nat → Nat} {hole v p : Nat} (h : FillInj n a hole v) (hh : hole < n) (hp : p < n)
    (hne : p ≠ hole) : FillInj n (upd a hole (a p)) p v := by
  intro i j hi hj he
  have key := h (if i = p then hole else if i = hole then p else i) (if j = p then hole else if j = hole then p else j)
    (by grind) (by grind)
  simp only [upd] at he key
  grind

theorem siftUp_inj {key : Nat → Nat} {n : Nat} {a : Nat → Nat} {hole v : Nat} (hn : hole < n) (h : FillInj n a hole v) :
    (Heap.mk n (siftUp key a hole v)).Inj := by
  induction hole using Nat.strongRecOn generalizing a with
  | ind hole ih =>
    unfold siftUp
    by_cases h0 : hole = 0
    · rw [dif_pos h0]; exact h
    · rw [dif_neg h0]
      split
      · exact ih ((hole - 1) / 2) (by omega) (by omega) (h.move hn (by omega) (by omega))
      · exact h

theorem siftDown_fill {key : Nat → Nat} {n : Nat} {a : Nat → Nat} {hole : Nat} (hn : hole < n) (v : Nat) :
    (siftDown key n a hole).2 < n ∧
    (∀ x, Fill n (siftDown key n a hole).1 (siftDown key n a hole).2 v x ↔ Fill n a hole v x) ∧
    (FillInj n a hole v → FillInj n (siftDown key n a hole).1 (siftDown key n a hole).2 v) := by
  have mv : ∀ (a : Nat → Nat) (hole p x : Nat), hole < n → p < n → p ≠ hole →
      (Fill n (upd a hole (a p)) p v x ↔ Fill n a hole v x) := by
    intro a hole p x hh hp hne
    constructor
    · rintro ⟨i, hi, rfl⟩
      refine ⟨if i = p then hole else if i = hole then p else i, by grind, ?_⟩
      simp only [upd]
      grind
    · rintro ⟨i, hi, rfl⟩
      refine ⟨if i = p then hole else if i = hole then p else i, by grind, ?_⟩
      simp only [upd]
      grind
  fun_induction siftDown key n a hole with
  | case1 a hole hlt second ih =>
    have hs : second = 2 * hole + 1 ∨ second = 2 * hole + 2 := by simp only [second]; split <;> simp
    obtain ⟨i1, i2, i3⟩ := ih (by omega)
    refine ⟨i1, fun x => (i2 x).trans (mv a hole second x hn (by omega) (by omega)), fun hi => ?_⟩
    exact i3 (hi.move hn (by omega) (by omega))
  | case2 a hole hlt hc =>
    refine ⟨by simp only; omega, fun x => mv a hole (2 * hole + 1) x hn (by omega) (by omega), fun hi => ?_⟩
    exact hi.move hn (by omega) (by omega)
  | case3 a hole hlt hc => exact ⟨hn, fun x => Iff.rfl, id⟩

/-! ### Push and pop -/

theorem Heap.empty_ord (key : Nat → Nat) (b : Nat) : Heap.empty.Ord key b := by
  intro i _ h; exact absurd h (by simp [Heap.empty])

theorem Heap.Ord.congr {key key' : Nat → Nat} {b : Nat} {h : Heap} (ho : h.Ord key b) (he : ∀ x, h.Has x → key' x = key x) :
    h.Ord key' b := by
  intro i hi hin hb
  rw [he _ ⟨_, by omega, rfl⟩, he _ ⟨i, hin, rfl⟩]
  exact ho i hi hin hb

/-- If the key of the first element changes, the order below it is still fine. -/
theorem Heap.Ord.root {key key' : Nat → Nat} {h : Heap} (ho : h.Ord key 0) (hinj : h.Inj)
    (he : ∀ x, h.Has x → x ≠ h.top → key' x = key x) : h.Ord key' 1 := by
  intro i hi hin hb
  have h1 : h.a i ≠ h.top := fun e => by have := hinj i 0 hin (by omega) e; omega
  have h2 : h.a ((i - 1) / 2) ≠ h.top := fun e => by have := hinj ((i - 1) / 2) 0 (by omega) (by omega) e; omega
  rw [he _ ⟨_, by omega, rfl⟩ h2, he _ ⟨i, hin, rfl⟩ h1]
  exact ho i hi hin (Nat.zero_le _)

theorem Heap.push_ord {key : Nat → Nat} {b : Nat} {h : Heap} {v : Nat} (ho : h.Ord key b)
    (hb : b = 0 ∨ b = 1 ∧ 0 < h.n ∧ key h.top ≤ key v) : (h.push key v).Ord key b := by
  refine siftUp_ord (n := h.n + 1) ⟨by omega, ?_, ?_⟩ ?_ hb
  · intro i hi hin hbi e1 e2
    exact ho i hi (by omega) hbi
  · intro i hi hin he; omega
  · intro i hi hin he; omega

theorem Heap.push_has {key : Nat → Nat} {h : Heap} {v : Nat} (x : Nat) : (h.push key v).Has x ↔ h.Has x ∨ x = v := by
  unfold Heap.push
  rw [siftUp_has (by omega)]
  constructor
  · rintro ⟨i, hi, rfl⟩
    simp only [upd]
    split
    · exact Or.inr rfl
    · exact Or.inl ⟨i, by omega, rfl⟩
  · rintro (⟨i, hi, rfl⟩ | rfl)
    · exact ⟨i, by omega, by simp only [upd]; rw [if_neg (by omega)]⟩
    · exact ⟨h.n, by omega, by simp [upd]⟩

theorem Heap.push_inj {key : Nat → Nat} {h : Heap} {v : Nat} (hi : h.Inj) (hv : ¬ h.Has v) : (h.push key v).Inj := by
  refine siftUp_inj (by omega) ?_
  intro i j hin hjn he
  simp only [upd] at he
  by_cases e1 : i = h.n <;> by_cases e2 : j = h.n
  · omega
  · rw [if_pos e1, if_neg e2] at he; exact absurd ⟨j, by omega, he.symm⟩ hv
  · rw [if_neg e1, if_pos e2] at he; exact absurd ⟨i, by omega, he⟩ hv
  · rw [if_neg e1, if_neg e2] at he; exact hi i j (by omega) (by omega) he

theorem Heap.pop_ord {key : Nat → Nat} {h : Heap} (ho : h.Ord key 1) : (h.pop key).Ord key 0 := by
  unfold Heap.pop
  split
  · intro i hi hin
    simp only at hin
    omega
  · have hh : Hole key 0 (h.n - 1) h.a 0 := by
      refine ⟨by omega, ?_, ?_⟩
      · intro i hi hin hb e1 e2
        exact ho i hi (by omega) (by omega)
      · intro i hi hin he hpos; omega
    obtain ⟨h1, h2⟩ := siftDown_hole hh
    refine siftUp_ord h1 ?_ (Or.inl rfl)
    intro i hi hin he
    exact absurd he (h2 i hi hin)

theorem Heap.pop_has {key : Nat → Nat} {h : Heap} (hi : h.Inj) (hpos : 0 < h.n) (x : Nat) :
    (h.pop key).Has x ↔ h.Has x ∧ x ≠ h.top := by
  unfold Heap.pop
  split
  · constructor
    · rintro ⟨i, hin, _⟩
      simp only at hin
      omega
    · rintro ⟨⟨i, hin, rfl⟩, hne⟩
      have : i = 0 := by omega
      subst this
      exact absurd rfl hne
  · obtain ⟨f1, f2, -⟩ := siftDown_fill (key := key) (n := h.n - 1) (a := h.a) (hole := 0) (by omega) (h.a (h.n - 1))
    simp only
    rw [siftUp_has f1, f2]
    constructor
    · rintro ⟨i, hin, rfl⟩
      simp only [upd]
      split
      · exact ⟨⟨h.n - 1, by omega, rfl⟩, fun e => by have := hi (h.n - 1) 0 (by omega) (by omega) e; omega⟩
      · exact ⟨⟨i, by omega, rfl⟩, fun e => by have := hi i 0 (by omega) (by omega) e; omega⟩
    · rintro ⟨⟨i, hin, rfl⟩, hne⟩
      have h0 : i ≠ 0 := fun e => hne (by rw [e]; rfl)
      by_cases e : i = h.n - 1
      · exact ⟨0, by omega, by simp [upd, e]⟩
      · exact ⟨i, by omega, by simp only [upd]; rw [if_neg h0]⟩

theorem Heap.pop_inj {key : Nat → Nat} {h : Heap} (hi : h.Inj) : (h.pop key).Inj := by
  unfold Heap.pop
  split
  · intro i j hin hjn
    simp only at hin hjn
    omega
  · obtain ⟨f1, -, f3⟩ := siftDown_fill (key := key) (n := h.n - 1) (a := h.a) (hole := 0) (by omega) (h.a (h.n - 1))
    refine siftUp_inj f1 (f3 ?_)
    intro i j hin hjn he
    simp only [upd] at he
    by_cases e1 : i = 0 <;> by_cases e2 : j = 0
    · omega
    · rw [if_pos e1, if_neg e2] at he; have := hi _ _ (by omega) (by omega) he; omega
    · rw [if_neg e1, if_pos e2] at he; have := hi _ _ (by omega) (by omega) he; omega
    · rw [if_neg e1, if_neg e2] at he; exact hi i j (by omega) (by omega) he

/-- Sifting up an element that does not get to the first position changes the order of the others only. -/
theorem siftUp_pos {key : Nat → Nat} {n : Nat} {a : Nat → Nat} {hole v : Nat} (h0 : 0 < hole) (hn : hole < n)
    (hv : key (a 0) ≤ key v) :
    (∀ x, (∃ i, 0 < i ∧ i < n ∧ siftUp key a hole v i = x) ↔ ∃ i, 0 < i ∧ i < n ∧ upd a hole v i = x) ∧
    ((∀ i j, 0 < i → 0 < j → i < n → j < n → upd a hole v i = upd a hole v j → i = j) →
      ∀ i j, 0 < i → 0 < j → i < n → j < n → siftUp key a hole v i = siftUp key a hole v j → i = j) := by
  induction hole using Nat.strongRecOn generalizing a with
  | ind hole ih =>
    unfold siftUp
    rw [dif_neg (by omega)]
    split
    · next hlt =>
      have hp : (hole - 1) / 2 ≠ 0 := fun hp => by rw [hp] at hlt; omega
      obtain ⟨g1, g2⟩ := ih ((hole - 1) / 2) (by omega) (a := upd a hole (a ((hole - 1) / 2))) (by omega) (by omega)
        (by rw [upd_ne _ _ (by omega)]; exact hv)
      generalize hpp : (hole - 1) / 2 = p at *
      have hph : p < hole := by omega
      refine ⟨fun x => ?_, fun hi => g2 ?_⟩
      · rw [g1]
        constructor
        · rintro ⟨i, hi0, hi, rfl⟩
          refine ⟨if i = p then hole else if i = hole then p else i, by grind, by grind, ?_⟩
          simp only [upd]
          grind
        · rintro ⟨i, hi0, hi, rfl⟩
          refine ⟨if i = p then hole else if i = hole then p else i, by grind, by grind, ?_⟩
          simp only [upd]
          grind
      · intro i j hi0 hj0 hin hjn he
        have key := hi (if i = p then hole else if i = hole then p else i) (if j = p then hole else if j = hole then p else j)
          (by grind) (by grind) (by grind) (by grind)
        simp only [upd] at he key
        grind
    · exact ⟨fun x => Iff.rfl, id⟩

/-- Pushing the first element again and then removing the first element: the same elements. -/
theorem Heap.again_has {h : Heap} (hi : h.Inj) (hpos : 0 < h.n) (key : Nat → Nat) :
    (∀ x, ((h.push key h.top).pop key).Has x ↔ h.Has x) ∧ ((h.push key h.top).pop key).Inj := by
  obtain ⟨g1, g2⟩ := siftUp_pos (key := key) (n := h.n + 1) (a := h.a) (hole := h.n) (v := h.top) hpos (by omega) (Nat.le_refl _)
  have g2 := g2 (by
    intro i j hi0 hj0 hin hjn he
    simp only [upd, Heap.top] at he
    have := hi i j
    have := hi 0 j hpos
    have := hi i 0
    grind)
  generalize hb : siftUp key h.a h.n h.top = b at *
  have hpush : h.push key h.top = ⟨h.n + 1, b⟩ := by rw [Heap.push, hb]
  rw [hpush]
  unfold Heap.pop
  rw [if_neg (by simp only; omega)]
  simp only [Nat.add_sub_cancel]
  obtain ⟨f1, f2, f3⟩ := siftDown_fill (key := key) (n := h.n) (a := b) (hole := 0) hpos (b h.n)
  refine ⟨fun x => ?_, siftUp_inj f1 (f3 ?_)⟩
  · rw [siftUp_has f1, f2]
    have e1 : Fill h.n b 0 (b h.n) x ↔ ∃ i, 0 < i ∧ i < h.n + 1 ∧ b i = x := by
      constructor
      · rintro ⟨i, hin, rfl⟩
        by_cases h0 : i = 0
        · exact ⟨h.n, hpos, by omega, by simp [upd, h0]⟩
        · exact ⟨i, by omega, by omega, by simp [upd, h0]⟩
      · rintro ⟨i, h0, hin, rfl⟩
        by_cases hn : i = h.n
        · exact ⟨0, hpos, by simp [upd, hn]⟩
        · exact ⟨i, by omega, by simp only [upd]; rw [if_neg (by omega)]⟩
    rw [e1, g1]
    constructor
    · rintro ⟨i, h0, hin, rfl⟩
      by_cases hn : i = h.n
      · exact ⟨0, hpos, by simp [upd, hn, Heap.top]⟩
      · exact ⟨i, by omega, by simp [upd, hn]⟩
    · rintro ⟨i, hin, rfl⟩
      by_cases h0 : i = 0
      · exact ⟨h.n, hpos, by omega, by simp [upd, h0, Heap.top]⟩
      · exact ⟨i, by omega, by omega, by simp only [upd]; rw [if_neg (by omega)]⟩
  · intro i j hin hjn he
    simp only [upd] at he
    have := g2 i j
    have := g2 h.n j hpos
    have := g2 i h.n
    grind

end Verif.Fiber
