import Verif.Future.WhenAll
/-!
# `WhenAny`
-/

namespace Verif.Future.When

open Core (Res)

variable {V E : Type} {n : Nat} {s : St V E} {tr : List (Ev V E)}

theorem mem_takeWhile_imp {α : Type} {p : α → Bool} {l : List α} {x : α} (h : x ∈ l.takeWhile p) : p x = true := by
  induction l with
  | nil => simp at h
  | cons a l ih =>
    rw [List.takeWhile_cons] at h
    split at h
    · rcases List.mem_cons.1 h with rfl | h
      · assumption
      · exact ih h
    · simp at h

theorem before_append {i : Nat} {r : Res V E} (h : .called i r ∈ tr) (x : List (Ev V E)) : before i (tr ++ x) = before i tr := by
  unfold before
  rw [List.takeWhile_append]
  have : (List.takeWhile (fun e => !e.calls i) tr).length ≠ tr.length := by
    intro hl
    have h1 := List.takeWhile_prefix (l := tr) (fun e => !Ev.calls i e)
    have h2 := h1.eq_of_length hl
    rw [← h2] at h
    have := mem_takeWhile_imp h
    simp [Ev.calls] at this
  simp [this]

theorem before_sub {i : Nat} {e : Ev V E} (h : e ∈ before i tr) : e ∈ tr :=
  (List.takeWhile_prefix _).subset h

theorem u32_lt {i : Nat} (h : i < 2 ^ 32) : u32 i = i := Nat.mod_eq_of_lt h

structure AnyInv (n : Nat) (s : St V E) (tr : List (Ev V E)) : Prop where
  lt : ∀ i, s.pc i ≠ .idle → i < n
  called : ∀ i r, .called i r ∈ tr → s.pc i ≠ .idle
  start : ∀ i r, s.pc i = .start r → .called i r ∈ tr
  pcs : ∀ i, s.pc i ≠ .stored ∧ s.pc i ≠ .setAll
  set : ∀ i r, s.pc i = .set r →
    s.flag = true ∧ s.resolved = false ∧ .called i r ∈ tr ∧ ∀ j, .finished j ∉ before i tr
  uniq : ∀ i j r r', s.pc i = .set r → s.pc j = .set r' → i = j
  flag : s.flag = true → (∃ i r, s.pc i = .set r) ∨ s.resolved = true
  res : s.resolved = true → s.flag = true
  done : ∀ i, s.pc i = .done → s.flag = true
  fin : ∀ i, .finished i ∈ tr → s.flag = true
  num : tr.countP Ev.resolves = s.resolved.toNat
  value : ∀ i v, .value i v ∈ tr → .called i (.val v) ∈ tr ∧ ∀ j, .finished j ∉ before i tr
  failed : ∀ e, .failed e ∈ tr → ∃ i, .called i (.exc e) ∈ tr ∧ ∀ j, .finished j ∉ before i tr
  all : ∀ rs, .all rs ∉ tr
  ok : s.crashed = false
  ok' : .crash ∉ tr

theorem anyInv_init : AnyInv n (init V E) [] := by
  constructor <;> simp [init]

theorem AnyInv.step (h : AnyInv n s tr) (hn : n < 2 ^ 32) (a : Act V E) :
    AnyInv n (step .any n s a).1 (tr ++ (step .any n s a).2) := by
  unfold When.step
  rw [h.ok]
  simp only [Bool.false_eq_true, ↓reduceIte]
  obtain ⟨h1, h2, h3, h4, h5, h6, h7, h8, h9, h10, h11, h12, h13, h14, h15, h16⟩ := h
  have hva : ∀ x i v, .value i v ∈ tr → .called i (.val v) ∈ tr ++ x ∧ ∀ j, .finished j ∉ before i (tr ++ x) := by
    intro x i v h
    obtain ⟨a, b⟩ := h12 i v h
    exact ⟨by simp [a], by rw [before_append a]; exact b⟩
  have hfa : ∀ x e, .failed e ∈ tr → ∃ i, .called i (.exc e) ∈ tr ++ x ∧ ∀ j, .finished j ∉ before i (tr ++ x) := by
    intro x e h
    obtain ⟨i, a, b⟩ := h13 e h
    exact ⟨i, by simp [a], by rw [before_append a]; exact b⟩
  have hse : ∀ x i r, s.pc i = .set r →
      s.flag = true ∧ s.resolved = false ∧ .called i r ∈ tr ++ x ∧ ∀ j, .finished j ∉ before i (tr ++ x) := by
    intro x i v h
    obtain ⟨a, b, c, d⟩ := h5 i v h
    exact ⟨a, b, by simp [c], by rw [before_append c]; exact d⟩
  cases a with
  | call i r =>
    simp only
    split
    · rename_i hc
      obtain ⟨hc, hp⟩ := hc
      have hp : s.pc i = .idle := by
        cases hpi : s.pc i <;> simp_all [Pc.isIdle]
      constructor <;> try simp only [goto_pc]
      · grind
      · grind
      · grind
      · grind
      · intro j r'; split
        · simp
        · exact hse _ j r'
      · grind
      · intro h; rcases h7 h with ⟨j, r', hj⟩ | h
        · refine .inl ⟨j, r', ?_⟩
          have : j ≠ i := by rintro rfl; simp [hp] at hj
          simpa [this] using hj
        · exact .inr h
      · exact h8
      · intro j; split
        · simp
        · exact h9 j
      · intro j h; exact h10 j (by simpa using h)
      · simpa [Ev.resolves] using h11
      · intro j v h; exact hva _ j v (by simpa using h)
      · intro e h; exact hfa _ e (by simpa using h)
      · simpa using h14
      · exact h15
      · simpa using h16
    · simpa using ⟨h1, h2, h3, h4, h5, h6, h7, h8, h9, h10, h11, h12, h13, h14, h15, h16⟩
  | step i =>
    simp only [cbStep]
    unfold anyStep
    split
    · rename_i r hp
      have hi := h1 i (by simp [hp])
      split
      · rename_i hf
        constructor <;> try simp only [goto_pc]
        · grind
        · grind
        · grind
        · grind
        · intro j r'; split
          · simp
          · exact hse _ j r'
        · grind
        · intro h; rcases h7 h with ⟨j, r', hj⟩ | h
          · refine .inl ⟨j, r', ?_⟩
            have : j ≠ i := by rintro rfl; simp [hp] at hj
            simpa [this] using hj
          · exact .inr h
        · exact h8
        · intro _ _; exact hf
        · intro _ _; exact hf
        · simpa [Ev.resolves] using h11
        · intro j v h; exact hva _ j v (by simpa using h)
        · intro e h; exact hfa _ e (by simpa using h)
        · simpa using h14
        · exact h15
        · simpa using h16
      · rename_i hf
        have hf : s.flag = false := by simpa using hf
        have hr : s.resolved = false := by
          cases hr : s.resolved
          · rfl
          · have := h8 hr; simp [hf] at this
        have hnf : ∀ j, .finished j ∉ tr := by intro j h; have := h10 j h; simp [hf] at this
        rw [List.append_nil]
        constructor <;> try simp only [goto_pc]
        · grind
        · grind
        · grind
        · grind
        · intro j r'; split
          · intro h; cases h; subst_vars
            exact ⟨trivial, hr, h3 _ _ hp, fun k h => hnf k (before_sub h)⟩
          · intro h; have := (h5 j r' h).1; simp [hf] at this
        · intro j k r1 r2
          have hn : ∀ j r', s.pc j ≠ .set r' := by
            intro j r' h; have := (h5 j r' h).1; simp [hf] at this
          split <;> split <;> simp_all
        · intro _; exact .inl ⟨i, r, by simp⟩
        · simp
        · simp
        · simp
        · exact h11
        · exact h12
        · exact h13
        · exact h14
        · exact h15
        · exact h16
    · rename_i r hp
      have hi := h1 i (by simp [hp])
      obtain ⟨hf, hr, hc, hb⟩ := h5 i r hp
      have hns : ∀ j r', j ≠ i → s.pc j ≠ .set r' := fun j r' hj h => hj (h6 j i r' r h hp)
      unfold St.resolve
      simp only [hr, Bool.false_eq_true, ↓reduceIte]
      have hu := u32_lt (Nat.lt_trans hi hn)
      have how : own i r ≠ .crash ∧ (∀ j r', own i r ≠ .called j r') ∧ (∀ j, own i r ≠ .finished j) ∧ (∀ rs, own i r ≠ .all rs) ∧
          (own i r).resolves = true ∧ (∀ j v, own i r = .value j v → j = i ∧ r = .val v) ∧
          (∀ e, own i r = .failed e → r = .exc e) := by
        cases r <;> simp [own, Ev.resolves, hu]
      generalize own i r = ev at how
      obtain ⟨o1, o2, o3, o4, o5, o6, o7⟩ := how
      have hca : ∀ j r', Ev.called j r' ∈ tr ++ [ev, .finished i] ↔ .called j r' ∈ tr := by
        intro j r'; have := o2 j r'
        simp [this.symm]
      have hbe : before i (tr ++ [ev, .finished i]) = before i tr := before_append hc _
      constructor <;> try simp only [goto_pc, hca]
      · grind
      · grind
      · grind
      · grind
      · grind
      · grind
      · simp
      · intro _; exact hf
      · intro _ _; exact hf
      · intro _ _; exact hf
      · rw [List.countP_append, h11]
        have o8 : (Ev.finished i : Ev V E).resolves = false := rfl
        simp [List.countP_cons, o5, o8, hr]
      · intro j v h
        simp only [List.mem_append, List.mem_cons, reduceCtorEq, List.not_mem_nil, or_false] at h
        rcases h with h | h
        · have := hva [ev, .finished i] j v h
          rw [hca] at this
          exact this
        · obtain ⟨rfl, rfl⟩ := o6 j v h.symm
          rw [hbe]
          exact ⟨hc, hb⟩
      · intro e h
        simp only [List.mem_append, List.mem_cons, reduceCtorEq, List.not_mem_nil, or_false] at h
        rcases h with h | h
        · obtain ⟨j, a, b⟩ := hfa [ev, .finished i] e h
          rw [hca] at a
          exact ⟨j, a, b⟩
        · have := o7 e h.symm
          subst this
          exact ⟨i, hc, by rw [hbe]; exact hb⟩
      · intro rs h
        have := o4 rs
        simp [this.symm] at h
        exact h14 rs h
      · exact h15
      · simp [h16, o1.symm]
    all_goals simpa using ⟨h1, h2, h3, h4, h5, h6, h7, h8, h9, h10, h11, h12, h13, h14, h15, h16⟩

theorem anyInv_run (h : AnyInv n s tr) (hn : n < 2 ^ 32) (as : List (Act V E)) :
    AnyInv n (run .any n s tr as).1 (run .any n s tr as).2 := by
  induction as generalizing s tr with
  | nil => exact h
  | cons a as ih => exact ih (h.step hn a)

end Verif.Future.When
