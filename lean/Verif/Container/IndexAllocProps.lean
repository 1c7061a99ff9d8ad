import Verif.Container.IndexAlloc

/-!
# C164: indices in use are distinct and as small as possible

The specification looks at the calls only (the last one is first).
-/

namespace Verif.Container.IndexAlloc

/-- The index was returned and has not been freed since. -/
def Held (i : Nat) : List Ev → Prop
  | [] => False
  | .next r :: t => r = i ∨ Held i t
  | .free j :: t => j ≠ i ∧ Held i t

/-- How many calls of `Next` were not yet followed by one of `Free`. -/
def count : List Ev → Nat
  | [] => 0
  | .next _ :: t => count t + 1
  | .free _ :: t => count t - 1

/-- The largest such number at any time. -/
def peak : List Ev → Nat
  | [] => 0
  | e :: t => max (count (e :: t)) (peak t)

/-- Callers free what they hold only. -/
def Proper : List Ev → Prop
  | [] => True
  | .next _ :: t => Proper t
  | .free i :: t => Held i t ∧ Proper t

/-- The indices in use, in some order, with those recycled are all below `current_`. -/
structure Inv (t : List Ev) (s : St) (u : List Nat) : Prop where
  held : ∀ i, i ∈ u ↔ Held i t
  nodup : (u ++ s.recycled).Nodup
  below : ∀ i ∈ u ++ s.recycled, i < s.current
  all : u.length + s.recycled.length = s.current
  cnt : count t = u.length
  top : s.current = peak t

theorem inv {t : List Ev} {s : St} (r : Run t s) (hp : Proper t) : ∃ u, Inv t s u := by
  induction r with
  | init => exact ⟨[], by simp [Held], by simp [St.init], by simp [St.init], rfl, rfl, rfl⟩
  | @next t s r ih =>
    obtain ⟨u, w⟩ := ih hp
    obtain ⟨c, l⟩ := s
    have hn := w.nodup
    have hb := w.below
    have ha := w.all
    have hc := w.cnt
    have ht := w.top
    simp only at hn hb ha hc ht
    cases l with
    | cons x l =>
      refine ⟨x :: u, ?_, ?_, ?_, ?_, ?_, ?_⟩
      · intro i; simp only [St.next, Held, List.mem_cons, w.held]; grind
      · simp only [St.next]; grind
      · intro i hi
        simp only [St.next, List.cons_append, List.mem_cons, List.mem_append] at hi
        exact hb i (by simp only [List.mem_append, List.mem_cons]; grind)
      · simp only [St.next, List.length_cons] at ha ⊢; omega
      · simp only [count, List.length_cons]; omega
      · simp only [St.next, peak, count, List.length_cons] at ha ⊢; omega
    | nil =>
      refine ⟨c :: u, ?_, ?_, ?_, ?_, ?_, ?_⟩
      · intro i; simp only [St.next, Held, List.mem_cons, w.held]; grind
      · simp only [St.next]; grind
      · simp only [St.next]; grind
      · simp only [St.next, List.length_cons, List.length_nil] at ha ⊢; omega
      · simp only [count, List.length_cons]; omega
      · simp only [St.next, peak, count, List.length_nil] at ha ⊢; omega
  | @free t s i r ih =>
    obtain ⟨u, w⟩ := ih hp.2
    have hi : i ∈ u := (w.held i).mpr hp.1
    have hn := w.nodup
    have hb := w.below
    have ha := w.all
    have hc := w.cnt
    have ht := w.top
    have hu := (List.nodup_append.mp hn).1
    have hl : (u.erase i).length + 1 = u.length := by
      have := List.length_pos_of_mem hi
      rw [List.length_erase_of_mem hi]; omega
    refine ⟨u.erase i, ?_, ?_, ?_, ?_, ?_, ?_⟩
    · intro j
      rw [hu.mem_erase_iff, w.held]
      simp only [Held]
      exact ⟨fun h => ⟨fun e => h.1 e.symm, h.2⟩, fun h => ⟨fun e => h.1 e.symm, h.2⟩⟩
    · have q := List.nodup_append.mp hn
      refine List.nodup_append.mpr ⟨hu.erase i, List.nodup_cons.mpr ⟨fun hm => q.2.2 i hi i hm rfl, q.2.1⟩, fun a h1 b h2 e => ?_⟩
      have h1' := hu.mem_erase_iff.mp h1
      rcases List.mem_cons.mp h2 with h3 | h3
      · exact h1'.1 (e.trans h3)
      · exact q.2.2 a h1'.2 b h3 e
    · intro j hj
      rcases List.mem_append.mp hj with h1 | h1
      · exact hb j (List.mem_append_left _ (List.mem_of_mem_erase h1))
      · rcases List.mem_cons.mp h1 with h2 | h2
        · rw [h2]; exact hb i (List.mem_append_left _ hi)
        · exact hb j (List.mem_append_right _ h2)
    · simp only [St.free, List.length_cons]; omega
    · simp only [count]; omega
    · simp only [St.free, peak, count]
      have : u.length ≤ peak t := by omega
      omega

/-- **C164.** An index that is returned is not in use. -/
theorem C164_fresh {t : List Ev} {s : St} (r : Run t s) (hp : Proper t) : ¬ Held s.next.1 t := by
  obtain ⟨u, w⟩ := inv r hp
  rw [← w.held]
  have hn := w.nodup
  have hb := w.below
  unfold St.next
  split
  · next x l e =>
    rw [e] at hn
    exact fun hm => (List.nodup_append.mp hn).2.2 x hm x (by simp) rfl
  · exact fun hm => absurd (hb _ (List.mem_append_left _ hm)) (Nat.lt_irrefl _)

/-- **C164.** All indices in use, and the next one, are smaller than the largest number in use at a time (with the next one). -/
theorem C164_small {t : List Ev} {s : St} (r : Run t s) (hp : Proper t) : (∀ i, Held i t → i < peak t) ∧ s.next.1 < peak (.next s.next.1 :: t) := by
  obtain ⟨u, w⟩ := inv r hp
  obtain ⟨u', w'⟩ := inv (.next r) (show Proper (.next s.next.1 :: t) from hp)
  refine ⟨fun i hi => ?_, ?_⟩
  · rw [← w.top]; exact w.below i (List.mem_append_left _ ((w.held i).mpr hi))
  · rw [← w'.top]; exact w'.below _ (List.mem_append_left _ ((w'.held _).mpr (.inl rfl)))

/-- **C164.** An index that was freed is used again before a new one: a new index is returned only if all returned before are in use. -/
theorem C164_reuse {t : List Ev} {s : St} (r : Run t s) (hp : Proper t) (hnew : ∀ i, .next i ∈ t → i ≠ s.next.1) : ∀ i, .next i ∈ t → Held i t := by
  -- whatever was returned is in use or recycled
  have key : ∀ {t s}, Run t s → ∀ i, (Ev.next i ∈ t → Held i t ∨ i ∈ s.recycled) ∧ (Proper t → i ∈ s.recycled → Ev.next i ∈ t) ∧ (Held i t → Ev.next i ∈ t) := by
    intro t s r
    induction r with
    | init => intro i; simp [St.init, Held]
    | @next t s r ih =>
      intro i
      obtain ⟨i1, i2, i3⟩ := ih i
      obtain ⟨c, l⟩ := s
      cases l with
      | cons x l =>
        simp only [St.next, Held, List.mem_cons, Ev.next.injEq, Proper] at i1 i2 i3 ⊢
        grind
      | nil =>
        simp only [St.next, Held, List.mem_cons, Ev.next.injEq, Proper] at i1 i2 i3 ⊢
        grind
    | @free t s j r ih =>
      intro i
      obtain ⟨i1, i2, i3⟩ := ih i
      have hj := (ih j).2.2
      simp only [St.free, Held, List.mem_cons, Proper, reduceCtorEq, false_or] at i1 i2 i3 ⊢
      grind
  intro i hi
  rcases (key r i).1 hi with h | h
  · exact h
  · cases hl : s.recycled with
    | nil => rw [hl] at h; cases h
    | cons x l =>
      have hx : s.next.1 = x := by simp [St.next, hl]
      exact absurd hx.symm (hnew x ((key r x).2.1 hp (by rw [hl]; simp)))

/-- Two indices are taken, the first is freed and taken again. -/
example : ∃ s, Run [.next 0, .free 0, .next 1, .next 0] s ∧ Proper [.next 0, .free 0, .next 1, .next 0] ∧ s.next.1 = 2 ∧ peak [.next 2, .next 0, .free 0, .next 1, .next 0] = 3 :=
  ⟨_, .next (.free 0 (.next (.next .init))), ⟨.inr (.inl rfl), trivial⟩, rfl, by decide⟩

/-- An index that is freed twice is returned to two callers. -/
example : ∃ s, Run [.next 0, .free 0, .free 0, .next 0] s ∧ Held s.next.1 [.next 0, .free 0, .free 0, .next 0] :=
  ⟨_, .next (.free 0 (.free 0 (.next .init))), .inl rfl⟩

end Verif.Container.IndexAlloc
