import Verif.Buffer.BuilderLemmas
/-! Helper lemmas: flattening, searching for a delimiter, streams. -/

namespace Verif.Buffer

theorem flattenLoop_spec (bs : List Block) : ∀ (n : Nat), (∀ b ∈ bs, b.WF) →
    flattenLoop bs n = (blocksContent bs).take n := by
  induction bs with
  | nil => intro n _; cases n <;> simp [flattenLoop]
  | cons b bs ih =>
    intro n hw
    cases n with
    | zero => simp [flattenLoop]
    | succ n =>
      have hb := Block.bytes_length (hw b (by simp))
      simp only [flattenLoop, blocksContent_cons]
      rw [ih _ (fun x hx => hw x (by simp [hx])), List.take_append, hb]
      congr 1
      · rw [List.take_eq_take_iff]; omega
      · congr 1; omega

theorem flattenToLoop_spec (bs : List Block) : ∀ (n : Nat) (acc : Bytes), (∀ b ∈ bs, b.WF) →
    acc.length ≤ n → flattenToLoop bs n acc = (acc ++ blocksContent bs).take n := by
  induction bs with
  | nil => intro n acc _ h; simp [flattenToLoop, List.take_of_length_le h]
  | cons b bs ih =>
    intro n acc hw h
    have hb := Block.bytes_length (hw b (by simp))
    rw [flattenToLoop]
    by_cases he : acc.length = n
    · rw [if_pos he, ← he]; simp
    · rw [if_neg he]
      rw [ih _ _ (fun x hx => hw x (by simp [hx])) (by
        simp only [List.length_append, List.length_take]; omega)]
      simp only [blocksContent_cons]
      by_cases hlt : n - acc.length ≤ b.size
      · have e1 : min (n - acc.length) b.size = n - acc.length := by omega
        rw [e1]
        have e2 : acc ++ (b.bytes ++ blocksContent bs) = acc ++ b.bytes ++ blocksContent bs := by simp
        rw [e2, List.take_append_of_le_length (by simp only [List.length_append, List.length_take]; omega),
          List.take_append_of_le_length (l₁ := acc ++ b.bytes) (by simp only [List.length_append]; omega)]
        rw [List.take_append, List.take_append, List.take_take]
        congr 2; omega
      · have e1 : b.bytes.take (min (n - acc.length) b.size) = b.bytes := List.take_of_length_le (by omega)
        rw [e1]; simp

theorem occursAt_iff {d s : Bytes} {i : Nat} :
    OccursAt d s i ↔ i + d.length ≤ s.length ∧ (s.drop i).take d.length = d := by
  unfold OccursAt
  constructor
  · rintro ⟨h1, h2⟩
    have := h2.length_le
    rw [List.length_drop] at this
    refine ⟨by omega, ?_⟩
    exact (List.prefix_iff_eq_take.1 h2).symm
  · rintro ⟨h1, h2⟩
    exact ⟨by omega, List.prefix_iff_eq_take.2 h2.symm⟩

theorem occursAt_append {d s t : Bytes} {i : Nat} (h : i + d.length ≤ s.length) :
    OccursAt d (s ++ t) i ↔ OccursAt d s i := by
  rw [occursAt_iff, occursAt_iff, List.drop_append_of_le_length (by omega),
    List.take_append_of_le_length (by rw [List.length_drop]; omega), List.length_append]
  constructor
  · rintro ⟨_, h2⟩; exact ⟨h, h2⟩
  · rintro ⟨_, h2⟩; exact ⟨by omega, h2⟩

theorem strFind_some {s d : Bytes} {pos i : Nat} :
    strFind s d pos = some i ↔ pos ≤ i ∧ OccursAt d s i ∧ ∀ j, pos ≤ j → j < i → ¬ OccursAt d s j := by
  unfold strFind
  rw [List.find?_range'_eq_some]
  simp only [List.isPrefixOf_iff_prefix, List.mem_range'_1, Bool.not_eq_true', ← Bool.not_eq_true]
  constructor
  · rintro ⟨h1, ⟨h2, h3⟩, h4⟩
    exact ⟨h2, ⟨by omega, h1⟩, fun j hj hji ho => h4 j hj hji ho.2⟩
  · rintro ⟨h1, ⟨h2, h3⟩, h4⟩
    exact ⟨h3, ⟨h1, by omega⟩, fun j hj hji ho => h4 j hj hji ⟨by omega, ho⟩⟩

theorem strFind_none {s d : Bytes} {pos : Nat} :
    strFind s d pos = none ↔ ∀ j, pos ≤ j → ¬ OccursAt d s j := by
  unfold strFind
  rw [List.find?_range'_eq_none]
  simp only [List.isPrefixOf_iff_prefix, Bool.not_eq_true', ← Bool.not_eq_true]
  constructor
  · intro h j hj ho
    exact h j hj (by have := ho.1; omega) ho.2
  · intro h j hj hjl ho
    exact h j hj ⟨by omega, ho⟩

theorem FirstOcc.unique {d s : Bytes} {i j : Nat} (hi : FirstOcc d s i) (hj : FirstOcc d s j) : i = j := by
  rcases Nat.lt_trichotomy i j with h | h | h
  · exact absurd hi.1 (hj.2 i h)
  · exact h
  · exact absurd hj.1 (hi.2 j h)

theorem FirstOcc.append {d s t : Bytes} {i : Nat} (h : FirstOcc d s i) : FirstOcc d (s ++ t) i := by
  have h1 := (occursAt_iff.1 h.1).1
  refine ⟨(occursAt_append h1).2 h.1, fun j hj ho => h.2 j hj ?_⟩
  exact (occursAt_append (by omega)).1 ho

theorem untilLoop_spec (d : Bytes) (maxBytes : Nat) (bs : List Block) : ∀ (rc : Bytes),
    (∀ i, ¬ OccursAt d rc i) →
    UntilSpec (rc ++ blocksContent bs) d maxBytes ((untilLoop d maxBytes bs rc).take maxBytes) := by
  induction bs with
  | nil =>
    intro rc hrc
    refine ⟨fun i hi => ?_, fun _ => ?_⟩
    · simp at hi; exact absurd hi.1 (hrc i)
    · simp [untilLoop]
  | cons b bs ih =>
    intro rc hrc
    rw [untilLoop]
    by_cases hlt : rc.length < maxBytes
    · rw [if_pos hlt]
      simp only
      have hearly : ∀ j, j < rc.length - min rc.length d.length → ¬ OccursAt d (rc ++ b.bytes) j := by
        intro j hj ho
        exact hrc j ((occursAt_append (by omega)).1 ho)
      have eassoc : rc ++ blocksContent (b :: bs) = rc ++ b.bytes ++ blocksContent bs := by simp
      cases hf : strFind (rc ++ b.bytes) d (rc.length - min rc.length d.length) with
      | some pos =>
        obtain ⟨h1, h2, h3⟩ := strFind_some.1 hf
        have hfo : FirstOcc d (rc ++ b.bytes) pos := by
          refine ⟨h2, fun j hj => ?_⟩
          by_cases hjs : j < rc.length - min rc.length d.length
          · exact hearly j hjs
          · exact h3 j (by omega) hj
        have hfo' := hfo.append (t := blocksContent bs)
        have hle := (occursAt_iff.1 h2).1
        simp only
        rw [eassoc]
        refine ⟨fun i hi => ?_, fun hno => absurd hfo'.1 (hno pos)⟩
        have := FirstOcc.unique hi hfo'
        subst this
        rw [List.take_take, List.take_append_of_le_length (l₁ := rc ++ b.bytes) (by omega)]
        congr 1; omega
      | none =>
        have hno := strFind_none.1 hf
        simp only
        rw [eassoc]
        apply ih
        intro i hi
        by_cases hjs : i < rc.length - min rc.length d.length
        · exact hearly i hjs hi
        · exact hno i (by omega) hi
    · rw [if_neg hlt]
      refine ⟨fun i hi => ?_, fun _ => ?_⟩
      · have hgt : rc.length < i + d.length := by
          by_cases h : i + d.length ≤ rc.length
          · exact absurd ((occursAt_append h).1 hi.1) (hrc i)
          · omega
        rw [show min (i + d.length) maxBytes = maxBytes by omega, List.take_append_of_le_length (by omega)]
      · rw [List.take_append_of_le_length (by omega)]

theorem flattenSlowUntil_spec (nb : NB) (d : Bytes) (maxBytes : Nat) (hw : nb.WF) :
    ∃ r, flattenSlowUntil nb d maxBytes = some r ∧ UntilSpec nb.content d maxBytes r := by
  unfold flattenSlowUntil
  by_cases h0 : nb.byteSize = 0
  · rw [if_pos h0]
    have := NB.content_nil_of_size hw h0
    rw [this]
    exact ⟨[], rfl, by intro i _; simp, by simp⟩
  · rw [if_neg h0]
    cases hb : nb.blocks with
    | nil => exact absurd (by rw [hw.size, hb]; rfl) h0
    | cons b bs =>
      simp only
      have hc : nb.content = b.bytes ++ blocksContent bs := by simp [NB.content, hb]
      cases hf : strFind b.bytes d 0 with
      | some pos =>
        obtain ⟨_, h2, h3⟩ := strFind_some.1 hf
        have hfo : FirstOcc d b.bytes pos := ⟨h2, fun j hj => h3 j (by omega) hj⟩
        have hfo' := hfo.append (t := blocksContent bs)
        have hle := (occursAt_iff.1 h2).1
        refine ⟨_, rfl, fun i hi => ?_, fun hno => ?_⟩
        · rw [hc] at hi
          have := FirstOcc.unique hi hfo'
          subst this
          rw [hc, List.take_append_of_le_length (by omega)]
        · rw [hc] at hno; exact absurd hfo'.1 (hno pos)
      | none =>
        have hno := strFind_none.1 hf
        have hd : d ≠ [] := by
          rintro rfl
          exact hno 0 (by omega) ⟨by omega, List.nil_prefix⟩
        have key := untilLoop_spec d maxBytes (b :: bs) [] (by
          intro i hi
          have := (occursAt_iff.1 hi).1
          simp only [List.length_nil] at this
          exact hd (List.length_eq_zero_iff.1 (by omega)))
        refine ⟨_, rfl, ?_⟩
        simp only [List.nil_append] at key
        have e : (if (untilLoop d maxBytes (b :: bs) []).length > maxBytes
            then (untilLoop d maxBytes (b :: bs) []).take maxBytes else untilLoop d maxBytes (b :: bs) []) =
            (untilLoop d maxBytes (b :: bs) []).take maxBytes := by
          split
          · rfl
          · rw [List.take_of_length_le (by omega)]
        rw [e]
        have e2 : nb.content = blocksContent (b :: bs) := by simp [NB.content, hb]
        rw [e2]; exact key

end Verif.Buffer
