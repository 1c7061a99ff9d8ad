import Verif.Buffer.Spec
/-! Helper lemmas for the buffer proofs. -/

namespace Verif.Buffer

theorem Block.bytes_length {b : Block} (h : b.WF) : b.bytes.length = b.size := by
  unfold Block.WF at h
  simp only [Block.bytes, List.length_take, List.length_drop]; omega

theorem Block.skip_some {b b' : Block} {n : Nat} (h : b.skip n = some b') (hw : b.WF) :
    b'.WF ∧ b'.bytes = b.bytes.drop n ∧ b'.size = b.size - n ∧ 0 < b'.size := by
  unfold Block.skip at h
  split at h
  · cases h
    unfold Block.WF at *
    refine ⟨by simp only; omega, ?_, rfl, by simp only; omega⟩
    simp only [Block.bytes, List.drop_take, List.drop_drop]
  · cases h

theorem Block.skip_isSome {b : Block} {n : Nat} (h : n < b.size) : ∃ b', b.skip n = some b' := by
  simp [Block.skip, h]

theorem Block.setSize_some {b b' : Block} {n : Nat} (h : b.setSize n = some b') (hw : b.WF) :
    b'.WF ∧ b'.bytes = b.bytes.take n ∧ b'.size = n := by
  unfold Block.setSize at h
  split at h
  · cases h
    unfold Block.WF at *
    refine ⟨by simp only; omega, ?_, rfl⟩
    simp only [Block.bytes, List.take_take]
    congr 1; omega
  · cases h

@[simp] theorem blocksContent_nil : blocksContent [] = [] := rfl
@[simp] theorem blocksContent_cons (b : Block) (bs) :
    blocksContent (b :: bs) = b.bytes ++ blocksContent bs := by simp [blocksContent]
@[simp] theorem blocksContent_append (a b : List Block) :
    blocksContent (a ++ b) = blocksContent a ++ blocksContent b := by simp [blocksContent]

theorem blocksContent_length {bs : List Block} (h : ∀ b ∈ bs, b.WF) :
    (blocksContent bs).length = (bs.map Block.size).sum := by
  induction bs with
  | nil => rfl
  | cons b bs ih =>
    simp only [blocksContent_cons, List.length_append, List.map_cons, List.sum_cons]
    rw [Block.bytes_length (h b (by simp)), ih (fun x hx => h x (by simp [hx]))]

theorem NB.WF.content_length {nb : NB} (h : nb.WF) : nb.content.length = nb.byteSize := by
  rw [h.size]; exact blocksContent_length h.inMem

/-- The blocks of a buffer before/after, with all invariants. -/
structure Good (bs : List Block) (c : Bytes) : Prop where
  inMem : ∀ b ∈ bs, b.WF
  content : blocksContent bs = c

theorem skipLoop_spec (bs : List Block) (n : Nat) (hw : ∀ b ∈ bs, b.WF)
    (hn : n ≤ (blocksContent bs).length) :
    ∃ bs', NB.skipLoop bs n = some bs' ∧ (∀ b ∈ bs', b.WF) ∧
      blocksContent bs' = (blocksContent bs).drop n ∧
      ((∀ b ∈ bs, 0 < b.size) → ∀ b ∈ bs', 0 < b.size) := by
  induction bs, n using NB.skipLoop.induct with
  | case1 bs => exact ⟨bs, by simp [NB.skipLoop], hw, by simp, fun h => h⟩
  | case2 n => simp at hn
  | case3 b bs n os hos ih =>
    have hb := Block.bytes_length (hw b (by simp))
    have hle : b.size ≤ n + 1 := by
      have : min (n + 1) b.size = b.size := hos
      omega
    simp only [blocksContent_cons, List.length_append, hb] at hn
    have hos' : os = b.size := hos
    obtain ⟨bs', h1, h2, h3, h4⟩ := ih (fun x hx => hw x (by simp [hx])) (by omega)
    refine ⟨bs', ?_, h2, ?_, fun h => h4 (fun x hx => h x (by simp [hx]))⟩
    · rw [NB.skipLoop]
      rw [if_pos hos]; exact h1
    · have e : b.bytes.drop (n + 1) = [] := List.drop_eq_nil_of_le (by omega)
      rw [h3, blocksContent_cons, List.drop_append, hb]
      show _ = List.drop (n + 1) _ ++ List.drop (n + 1 - b.size) _
      rw [e, hos']; simp
  | case4 b bs n os hos b' hb' ih =>
    have hwb := hw b (by simp)
    have hb := Block.bytes_length hwb
    obtain ⟨w1, w2, w3, w4⟩ := Block.skip_some hb' hwb
    have hos' : ¬ min (n + 1) b.size = b.size := hos
    have hos2 : os = n + 1 := by
      show min (n+1) b.size = n + 1
      omega
    simp only [blocksContent_cons, List.length_append, hb] at hn
    obtain ⟨bs', h1, h2, h3, h4⟩ := ih (by
        intro x hx
        rcases List.mem_cons.1 hx with rfl | hx
        · exact w1
        · exact hw x (by simp [hx])) (by
        simp only [blocksContent_cons, List.length_append, Block.bytes_length w1, w3]; omega)
    refine ⟨bs', ?_, h2, ?_, fun h => h4 ?_⟩
    · rw [NB.skipLoop]
      rw [if_neg hos]
      have : b.skip (min (n+1) b.size) = some b' := hb'
      rw [this]; exact h1
    · rw [h3, blocksContent_cons, blocksContent_cons, w2, hos2]
      have hlt : n + 1 < b.bytes.length := by omega
      simp only [Nat.sub_self, List.drop_zero]
      rw [List.drop_append_of_le_length (by omega)]
    · intro x hx
      rcases List.mem_cons.1 hx with rfl | hx
      · exact w4
      · exact h x (by simp [hx])
  | case5 b bs n os hos hb' =>
    exfalso
    have hos' : ¬ min (n + 1) b.size = b.size := hos
    have : b.skip (min (n+1) b.size) = none := hb'
    unfold Block.skip at this
    rw [if_pos (by omega)] at this
    cases this

theorem cutLoop_spec (bs : List Block) (n : Nat) (acc : List Block) (hw : ∀ b ∈ bs, b.WF)
    (hn : n ≤ (blocksContent bs).length) :
    ∃ rc rest left, NB.cutLoop bs n acc = some (acc ++ rc, rest, left) ∧
      bs = rc ++ rest ∧ n = (blocksContent rc).length + left ∧
      (left ≠ 0 → ∃ b tl, rest = b :: tl ∧ left < b.size) := by
  induction bs, n, acc using NB.cutLoop.induct with
  | case1 bs acc => exact ⟨[], bs, 0, by simp [NB.cutLoop], rfl, by simp, by simp⟩
  | case2 n acc => simp at hn
  | case3 b bs n acc hle ih =>
    have hb := Block.bytes_length (hw b (by simp))
    simp only [blocksContent_cons, List.length_append, hb] at hn
    obtain ⟨rc, rest, left, h1, h2, h3, h4⟩ := ih (fun x hx => hw x (by simp [hx])) (by omega)
    refine ⟨b :: rc, rest, left, ?_, by simp [h2], ?_, h4⟩
    · rw [NB.cutLoop, if_pos hle, h1]; simp
    · clear h4
      simp only [blocksContent_cons, List.length_append, hb]; omega
  | case4 b bs n acc hle =>
    refine ⟨[], b :: bs, n + 1, ?_, rfl, by simp, fun _ => ⟨b, bs, rfl, by omega⟩⟩
    rw [NB.cutLoop, if_neg hle]; simp

theorem NB.skip_spec (nb : NB) (n : Nat) (hw : nb.WF) :
    (n ≤ nb.content.length → ∃ nb', nb.skip n = some nb' ∧ nb'.WF ∧ nb'.content = nb.content.drop n ∧
      (nb.NoZero → nb'.NoZero) ∧ nb'.contiguous = nb.contiguous) ∧
    (nb.content.length < n → nb.skip n = none) := by
  have hl := hw.content_length
  constructor
  · intro hn
    unfold NB.skip
    rw [if_pos (by omega)]
    by_cases h0 : n = 0
    · subst h0
      exact ⟨nb, by simp, hw, by simp, fun h => h, rfl⟩
    · rw [if_neg h0]
      cases hbs : nb.blocks with
      | nil =>
        exfalso
        have : nb.content = [] := by simp [NB.content, hbs]
        rw [this] at hn; simp at hn; exact h0 hn
      | cons b bs =>
        have hwb : b.WF := hw.inMem b (by simp [hbs])
        simp only
        by_cases hlt : n < b.size
        · rw [if_pos hlt]
          obtain ⟨b', hb'⟩ := Block.skip_isSome hlt
          rw [hb']
          obtain ⟨w1, w2, w3, w4⟩ := Block.skip_some hb' hwb
          refine ⟨_, rfl, ⟨?_, ?_⟩, ?_, ?_, rfl⟩
          · intro x hx
            rcases List.mem_cons.1 hx with rfl | hx
            · exact w1
            · exact hw.inMem x (by simp [hbs, hx])
          · simp only [List.map_cons, List.sum_cons]
            rw [hw.size, hbs]; simp only [List.map_cons, List.sum_cons]; omega
          · simp only [NB.content, hbs, blocksContent_cons, w2]
            rw [List.drop_append_of_le_length]
            rw [Block.bytes_length hwb]; omega
          · intro hz x hx
            rcases List.mem_cons.1 hx with rfl | hx
            · exact w4
            · exact hz x (by simp [hbs, hx])
        · rw [if_neg hlt]
          obtain ⟨bs', h1, h2, h3, h4⟩ := skipLoop_spec nb.blocks n hw.inMem (by simpa [NB.content] using hn)
          rw [← hbs, h1]
          refine ⟨_, rfl, ⟨h2, ?_⟩, h3, fun h => h4 h, rfl⟩
          have := blocksContent_length h2
          simp only
          rw [← this, h3, List.length_drop]
          show nb.byteSize - n = nb.content.length - n
          omega
  · intro hn
    unfold NB.skip
    rw [if_neg (by omega)]

theorem NB.cut_spec (nb : NB) (n : Nat) (hw : nb.WF) :
    (n ≤ nb.content.length → ∃ p r, nb.cut n = some (p, r) ∧ p.WF ∧ r.WF ∧
      p.content = nb.content.take n ∧ r.content = nb.content.drop n ∧
      (nb.NoZero → p.NoZero ∧ r.NoZero) ∧
      (nb.contiguous = false → p.contiguous = false ∧ r.contiguous = false)) ∧
    (nb.content.length < n → nb.cut n = none) := by
  have hl := hw.content_length
  constructor
  · intro hn
    unfold NB.cut
    rw [if_pos (by omega)]
    by_cases he : n = nb.byteSize
    · rw [if_pos he]
      refine ⟨_, _, rfl, hw, ⟨by simp, by simp⟩, ?_, ?_, fun h => ⟨h, by simp [NB.NoZero]⟩, fun h => ⟨h, rfl⟩⟩
      · rw [List.take_of_length_le (by omega)]
      · rw [List.drop_eq_nil_of_le (by omega)]; simp [NB.content]
    · rw [if_neg he]
      obtain ⟨rc, rest, left, h1, h2, h3, h4⟩ :=
        cutLoop_spec nb.blocks n [] hw.inMem (by simpa [NB.content] using hn)
      rw [h1]
      simp only [List.nil_append]
      have hwrc : ∀ b ∈ rc, b.WF := fun b hb => hw.inMem b (by simp [h2, hb])
      have hwrest : ∀ b ∈ rest, b.WF := fun b hb => hw.inMem b (by simp [h2, hb])
      have hcont : nb.content = blocksContent rc ++ blocksContent rest := by
        simp [NB.content, h2]
      have hlr := blocksContent_length hwrc
      have hls := blocksContent_length hwrest
      by_cases h0 : left = 0
      · rw [if_pos h0]
        have hn' : n = (blocksContent rc).length := by omega
        refine ⟨_, _, rfl, ⟨hwrc, by simp only; omega⟩, ⟨hwrest, ?_⟩, ?_, ?_, ?_, ?_⟩
        · simp only
          rw [← hls, ← hl, hcont, List.length_append]; omega
        · rw [hcont, hn']; simp [NB.content]
        · rw [hcont, hn']; simp [NB.content]
        · intro hz
          exact ⟨fun b hb => hz b (by simp [h2, hb]), fun b hb => hz b (by simp [h2, hb])⟩
        · intro hc; exact ⟨rfl, hc⟩
      · rw [if_neg h0]
        obtain ⟨b, tl, hr, hlt⟩ := h4 h0
        subst hr
        have hwb : b.WF := hwrest b (by simp)
        obtain ⟨b', hb'⟩ := Block.skip_isSome hlt
        have hs : ∃ c, b.setSize left = some c := by simp [Block.setSize, Nat.le_of_lt hlt]
        obtain ⟨c, hc⟩ := hs
        obtain ⟨w1, w2, w3, w4⟩ := Block.skip_some hb' hwb
        obtain ⟨v1, v2, v3⟩ := Block.setSize_some hc hwb
        have hbl := Block.bytes_length hwb
        simp only [hc, hb']
        refine ⟨_, _, rfl, ⟨?_, ?_⟩, ⟨?_, ?_⟩, ?_, ?_, ?_, ?_⟩
        · intro x hx
          rcases List.mem_append.1 hx with hx | hx
          · exact hwrc x hx
          · simp at hx; subst hx; exact v1
        · simp only [List.map_append, List.sum_append, List.map_cons, List.map_nil, List.sum_cons, List.sum_nil, v3]
          omega
        · intro x hx
          rcases List.mem_cons.1 hx with rfl | hx
          · exact w1
          · exact hwrest x (by simp [hx])
        · simp only [List.map_cons, List.sum_cons, w3]
          simp only [blocksContent_cons, List.length_append, List.map_cons, List.sum_cons] at hls
          rw [← hl, hcont]
          simp only [blocksContent_cons, List.length_append]; omega
        · rw [hcont]
          simp only [NB.content, blocksContent_append, blocksContent_cons, blocksContent_nil, v2, List.append_nil]
          rw [h3, List.take_length_add_append, List.take_append_of_le_length (by omega)]
        · rw [hcont]
          simp only [NB.content, blocksContent_cons, w2]
          rw [h3, List.drop_length_add_append, List.drop_append_of_le_length (by omega)]
        · intro hz
          refine ⟨fun x hx => ?_, fun x hx => ?_⟩
          · rcases List.mem_append.1 hx with hx | hx
            · exact hz x (by simp [h2, hx])
            · simp at hx; subst hx; omega
          · rcases List.mem_cons.1 hx with rfl | hx
            · exact w4
            · exact hz x (by simp [h2, hx])
        · intro hc'; exact ⟨rfl, hc'⟩
  · intro hn
    unfold NB.cut
    rw [if_neg (by omega)]

theorem NB.appendNB_spec {nb o nb' : NB} (hw : nb.WF) (ho : o.WF) (h : nb.appendNB o = some nb') :
    nb'.WF ∧ nb'.content = nb.content ++ o.content ∧ nb'.contiguous = nb.contiguous := by
  unfold NB.appendNB at h
  split at h
  · cases h
  · cases h
    refine ⟨⟨?_, ?_⟩, ?_, rfl⟩
    · intro b hb
      rcases List.mem_append.1 hb with hb | hb
      · exact hw.inMem b hb
      · exact ho.inMem b hb
    · simp [hw.size, ho.size]
    · simp [NB.content]

theorem NB.appendBlock_spec {nb nb' : NB} {b : Block} (hw : nb.WF) (hb : b.WF)
    (h : nb.appendBlock b = some nb') :
    nb'.WF ∧ nb'.content = nb.content ++ b.bytes ∧ nb'.contiguous = nb.contiguous ∧
      nb'.blocks = nb.blocks ++ [b] := by
  unfold NB.appendBlock at h
  split at h
  · cases h
  · cases h
    refine ⟨⟨?_, ?_⟩, ?_, rfl, rfl⟩
    · intro x hx
      rcases List.mem_append.1 hx with hx | hx
      · exact hw.inMem x hx
      · simp at hx; subst hx; exact hb
    · simp [hw.size]
    · simp [NB.content]

theorem NB.WF_empty : (NB.mk 0 [] c).WF := ⟨by simp, by simp⟩

theorem NB.content_nil_of_size {nb : NB} (hw : nb.WF) (h : nb.byteSize = 0) : nb.content = [] := by
  have := hw.content_length
  exact List.length_eq_zero_iff.1 (by omega)

theorem NB.clear_spec {nb : NB} (hw : nb.WF) :
    nb.clear.WF ∧ nb.clear.content = [] ∧ nb.clear.contiguous = false ∧ nb.clear.byteSize = 0 := by
  unfold NB.clear
  split
  · exact ⟨NB.WF_empty, rfl, rfl, rfl⟩
  · rename_i h
    have h : nb.byteSize = 0 := by simpa using h
    exact ⟨⟨hw.inMem, hw.size⟩, (NB.content_nil_of_size hw h : nb.content = []), rfl, h⟩

theorem NB.appendWhole_spec {nb : NB} {m : Bytes} (hw : nb.WF) (c : Bool) :
    (NB.mk (nb.byteSize + m.length) (nb.blocks ++ [{ mem := m, start := 0, size := m.length }]) c).WF ∧
    (NB.mk (nb.byteSize + m.length) (nb.blocks ++ [{ mem := m, start := 0, size := m.length }]) c).content
      = nb.content ++ m := by
  refine ⟨⟨?_, ?_⟩, ?_⟩
  · intro b hb
    rcases List.mem_append.1 hb with hb | hb
    · exact hw.inMem b hb
    · simp at hb; subst hb; simp [Block.WF]
  · simp [hw.size]
  · simp [NB.content, Block.bytes]

theorem NB.NoZero.empty_iff {nb : NB} (hw : nb.WF) (hz : nb.NoZero) :
    nb.blocks = [] ↔ nb.byteSize = 0 := by
  constructor
  · intro h; rw [hw.size, h]; rfl
  · intro h
    cases hb : nb.blocks with
    | nil => rfl
    | cons b bs =>
      have := hz b (by simp [hb])
      rw [hw.size, hb] at h
      simp at h; omega

end Verif.Buffer
