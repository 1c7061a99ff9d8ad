import Verif.Buffer.Lemmas
/-! Helper lemmas: the builder invariant. -/

namespace Verif.Buffer
namespace Builder

/-- Builder invariant: `w` has been written so far. -/
structure Inv (B : Nat) (s : Builder) (w : Bytes) : Prop where
  nbWF : s.nb.WF
  nc : s.nb.contiguous = false
  lt : s.used < B
  ex : ∃ m, s.cur = some m ∧ m.length = B ∧ s.nb.content ++ m.take s.used = w

theorem fresh_length (B g) : (fresh B g).length = B := by simp [fresh]

theorem memWrite_spec {m : Bytes} {off : Nat} {src : Bytes} (h : off + src.length ≤ m.length) :
    ∃ m', memWrite m off src = some m' ∧ m'.length = m.length ∧
      m'.take (off + src.length) = m.take off ++ src ∧ m'.take off = m.take off := by
  refine ⟨m.take off ++ src ++ m.drop (off + src.length), by rw [memWrite, if_pos h], ?_, ?_, ?_⟩
  · simp only [List.length_append, List.length_take, List.length_drop]; omega
  · rw [List.take_append_of_le_length (by simp only [List.length_append, List.length_take]; omega)]
    apply List.take_of_length_le; simp only [List.length_append, List.length_take]; omega
  · rw [List.append_assoc, List.take_append_of_le_length (by simp only [List.length_take]; omega), List.take_take, Nat.min_self]

theorem poke_spec {B : Nat} {s : Builder} {w src : Bytes} (h : Inv B s w) (hl : src.length ≤ B - s.used) :
    ∃ m', s.poke src = some { s with cur := some m' } ∧ m'.length = B ∧
      s.nb.content ++ m'.take (s.used + src.length) = w ++ src ∧
      s.nb.content ++ m'.take s.used = w := by
  obtain ⟨m, hm, hml, hw⟩ := h.ex
  have := h.lt
  obtain ⟨m', h1, h2, h3, h4⟩ := memWrite_spec (m := m) (off := s.used) (src := src) (by omega)
  refine ⟨m', by simp [poke, hm, h1], by omega, ?_, ?_⟩
  · rw [h3, ← hw]; simp
  · rw [h4, ← hw]

/-- flushing a non-empty block and starting the next one. -/
theorem flush_init_spec {B : Nat} (g : Garbage) {s : Builder} {m : Bytes} (hB : 0 < B)
    (hwf : s.nb.WF) (hnc : s.nb.contiguous = false) (hc : s.cur = some m) (hml : m.length = B)
    (hu : 0 < s.used) (hle : s.used ≤ B) :
    ∃ s1 s2, flush s = some s1 ∧ initNext B g s1 = some s2 ∧ s2.used = 0 ∧ s1.used = 0 ∧
      Inv B s2 (s.nb.content ++ m.take s.used) ∧ s1.nb = s2.nb := by
  have hb : (Block.mk m 0 s.used).WF := by simp [Block.WF]; omega
  have ha : ∃ nb', s.nb.appendBlock { mem := m, start := 0, size := s.used } = some nb' := by
    simp [NB.appendBlock, hnc]
  obtain ⟨nb', ha⟩ := ha
  obtain ⟨w1, w2, w3, w4⟩ := NB.appendBlock_spec hwf hb ha
  refine ⟨{ nb := nb', used := 0, cur := none }, { nb := nb', used := 0, cur := some (fresh B g) },
    ?_, rfl, rfl, rfl, ⟨w1, by rw [w3, hnc], hB, fresh B g, rfl, fresh_length B g, ?_⟩, rfl⟩
  · simp only [flush]
    rw [if_neg (by omega)]
    simp only [hc, ha]
  · simp [w2, Block.bytes]

theorem markWritten_spec {B : Nat} (g : Garbage) {s : Builder} {m : Bytes} {n : Nat}
    (hwf : s.nb.WF) (hnc : s.nb.contiguous = false) (hc : s.cur = some m) (hml : m.length = B)
    (hu : s.used < B) (hn : n ≤ B - s.used) :
    ∃ s', markWritten B g s n = some s' ∧ Inv B s' (s.nb.content ++ m.take (s.used + n)) := by
  unfold markWritten
  rw [if_pos hn]
  by_cases he : B - (s.used + n) = 0
  · simp only
    rw [if_pos he]
    obtain ⟨s1, s2, h1, h2, _, _, h3, _⟩ := flush_init_spec (B := B) g
      (s := { s with used := s.used + n }) (m := m) (by omega) hwf hnc hc hml
      (by simp only; omega) (by simp only; omega)
    exact ⟨s2, by simp only [flushInit, h1, h2], h3⟩
  · simp only
    rw [if_neg he]
    exact ⟨_, rfl, hwf, hnc, by simp only; omega, m, hc, hml, rfl⟩

theorem pokeMark_spec {B : Nat} (g : Garbage) {s : Builder} {w src : Bytes} (h : Inv B s w)
    (hl : src.length ≤ B - s.used) :
    ∃ s1 s2, s.poke src = some s1 ∧ s1.markWritten B g src.length = some s2 ∧ Inv B s2 (w ++ src) := by
  obtain ⟨m', h1, h2, h3, _⟩ := poke_spec h hl
  obtain ⟨s', h4, h5⟩ := markWritten_spec (B := B) g (s := { s with cur := some m' }) (m := m')
    (n := src.length) h.nbWF h.nc rfl h2 h.lt hl
  refine ⟨_, s', h1, h4, ?_⟩
  rw [← h3]; exact h5

theorem new_spec {B : Nat} (g : Garbage) (hB : 0 < B) : ∃ s, new B g = some s ∧ Inv B s [] ∧ s.used = 0 := by
  refine ⟨_, rfl, ⟨NB.WF_empty, rfl, hB, _, rfl, fresh_length B g, ?_⟩, rfl⟩
  simp [NB.content]

theorem appendSlow_spec {B : Nat} (g : Garbage) (src : Bytes) : ∀ (s : Builder) (w : Bytes), Inv B s w →
    ∃ s', appendSlow B g s src = some s' ∧ Inv B s' (w ++ src) := by
  induction hlen : src.length using Nat.strongRecOn generalizing src with
  | _ n ih =>
    intro s w h
    rw [appendSlow]
    by_cases h0 : src.length = 0
    · rw [if_pos h0]
      have : src = [] := List.length_eq_zero_iff.1 h0
      subst this
      exact ⟨s, rfl, by simpa using h⟩
    · rw [if_neg h0]
      have hlt := h.lt
      simp only
      rw [if_neg (by omega)]
      have hl : (src.take (min src.length (B - s.used))).length = min src.length (B - s.used) := by
        simp only [List.length_take]; omega
      obtain ⟨s1, s2, h1, h2, h3⟩ := pokeMark_spec (B := B) g (src := src.take (min src.length (B - s.used))) h
        (by rw [hl]; omega)
      rw [hl] at h2
      obtain ⟨s', h4, h5⟩ := ih (src.drop (min src.length (B - s.used))).length
        (by rw [List.length_drop]; omega) _ rfl s2 _ h3
      refine ⟨s', by simp only [h1, h2]; exact h4, ?_⟩
      rw [List.append_assoc, List.take_append_drop] at h5
      exact h5

theorem append_spec {B : Nat} (g : Garbage) {s : Builder} {w : Bytes} (src : Bytes) (h : Inv B s w) :
    ∃ s', append B g s src = some s' ∧ Inv B s' (w ++ src) := by
  unfold append
  by_cases h0 : src.length = 0
  · rw [if_pos h0]
    have : src = [] := List.length_eq_zero_iff.1 h0
    subst this
    exact ⟨s, rfl, by simpa using h⟩
  · rw [if_neg h0]
    by_cases hlt : s.used + src.length < B
    · rw [if_pos hlt]
      obtain ⟨m', h1, h2, h3, _⟩ := poke_spec h (src := src) (by omega)
      rw [h1]
      exact ⟨_, rfl, h.nbWF, h.nc, hlt, m', rfl, h2, h3⟩
    · rw [if_neg hlt]
      exact appendSlow_spec g src s w h

theorem appendEach_spec {B : Nat} (g : Garbage) (bs : List Bytes) : ∀ {s : Builder} {w : Bytes}, Inv B s w →
    ∃ s', appendEach B g s bs = some s' ∧ Inv B s' (w ++ bs.flatten) := by
  induction bs with
  | nil => intro s w h; exact ⟨s, rfl, by simpa using h⟩
  | cons b bs ih =>
    intro s w h
    obtain ⟨s1, h1, h2⟩ := append_spec g b h
    obtain ⟨s2, h3, h4⟩ := ih h2
    refine ⟨s2, by simp only [appendEach, h1, h3], ?_⟩
    simpa using h4

theorem uncheckedAppend_spec {B : Nat} (bs : List Bytes) : ∀ {s : Builder} {off : Nat} {m : Bytes},
    s.cur = some m → m.length = B → off + (bs.map List.length).sum ≤ B →
    ∃ m', uncheckedAppend s off bs = some { s with cur := some m' } ∧ m'.length = B ∧
      m'.take (off + (bs.map List.length).sum) = m.take off ++ bs.flatten := by
  induction bs with
  | nil => intro s off m hc hl hle; exact ⟨m, by simp [uncheckedAppend, ← hc], hl, by simp⟩
  | cons b bs ih =>
    intro s off m hc hl hle
    simp only [List.map_cons, List.sum_cons] at hle
    obtain ⟨m1, h1, h2, h3, _⟩ := memWrite_spec (m := m) (off := off) (src := b) (by omega)
    obtain ⟨m2, h4, h5, h6⟩ := ih (s := { s with cur := some m1 }) (off := off + b.length) (m := m1) rfl
      (by omega) (by omega)
    refine ⟨m2, ?_, h5, ?_⟩
    · simp only [uncheckedAppend, hc, h1]
      exact h4
    · simp only [List.map_cons, List.sum_cons, List.flatten_cons]
      rw [← Nat.add_assoc, h6, h3, List.append_assoc]

theorem appendMany_spec {B : Nat} (g : Garbage) {s : Builder} {w : Bytes} (bs : List Bytes) (h : Inv B s w) :
    ∃ s', appendMany B g s bs = some s' ∧ Inv B s' (w ++ bs.flatten) := by
  unfold appendMany
  simp only
  by_cases hlt : s.used + (bs.map List.length).sum < B
  · rw [if_pos hlt]
    obtain ⟨m, hc, hl, hw⟩ := h.ex
    obtain ⟨m', h1, h2, h3⟩ := uncheckedAppend_spec (B := B) bs (off := s.used) hc hl (by omega)
    rw [h1]
    refine ⟨_, rfl, h.nbWF, h.nc, hlt, m', rfl, h2, ?_⟩
    simp only
    rw [h3, ← List.append_assoc, hw]
  · rw [if_neg hlt]
    exact appendEach_spec g bs h

theorem appendNB_spec {B : Nat} (g : Garbage) {s : Builder} {w : Bytes} {o : NB} (h : Inv B s w) (ho : o.WF) :
    ∃ s', Builder.appendNB B g s o = some s' ∧ Inv B s' (w ++ o.content) := by
  have key : ∃ s1, (if s.used ≠ 0 then flushInit B g s else some s) = some s1 ∧ Inv B s1 w ∧ s1.used = 0 := by
    by_cases h0 : s.used ≠ 0
    · rw [if_pos h0]
      obtain ⟨m, hc, hl, hw⟩ := h.ex
      have := h.lt
      obtain ⟨s1, s2, h1, h2, h3, _, h4, _⟩ := flush_init_spec (B := B) g (by omega) h.nbWF h.nc hc hl
        (by omega) (by omega)
      refine ⟨s2, by simp only [flushInit, h1, h2], ?_, h3⟩
      rw [← hw]; exact h4
    · rw [if_neg h0]; exact ⟨s, rfl, h, by simpa using h0⟩
  obtain ⟨s1, h1, h2, h3⟩ := key
  unfold Builder.appendNB
  simp only [h1]
  have ha : ∃ nb', s1.nb.appendNB o = some nb' := by simp [NB.appendNB, h2.nc]
  obtain ⟨nb', ha⟩ := ha
  obtain ⟨w1, w2, w3⟩ := NB.appendNB_spec h2.nbWF ho ha
  obtain ⟨m, hc, hl, hw⟩ := h2.ex
  rw [ha]
  refine ⟨_, rfl, w1, by rw [w3, h2.nc], h2.lt, m, hc, hl, ?_⟩
  simp only [w2]
  rw [← hw, h3]; simp

theorem reserveFill_spec {B : Nat} (g : Garbage) {s : Builder} {w src : Bytes} (h : Inv B s w)
    (hl : src.length ≤ B) :
    ∃ s', reserveFill B g s src = some s' ∧ Inv B s' (w ++ src) := by
  unfold reserveFill
  rw [if_pos hl]
  have hlt := h.lt
  have key : ∃ s1, (if B - s.used < src.length then flushInit B g s else some s) = some s1 ∧ Inv B s1 w ∧ src.length ≤ B - s1.used := by
    by_cases hav : B - s.used < src.length
    · rw [if_pos hav]
      obtain ⟨m, hc, hml, hw⟩ := h.ex
      obtain ⟨s1, s2, h1, h2, h3, _, h4, _⟩ := flush_init_spec (B := B) g (by omega) h.nbWF h.nc hc hml
        (by omega) (by omega)
      refine ⟨s2, by simp only [flushInit, h1, h2], ?_, by rw [h3]; omega⟩
      rw [← hw]; exact h4
    · rw [if_neg hav]; exact ⟨s, rfl, h, by omega⟩
  obtain ⟨s1, h1, h2, h3⟩ := key
  simp only [h1]
  obtain ⟨s2, s3, h4, h5, h6⟩ := pokeMark_spec (B := B) g h2 h3
  simp only [h4, h5]
  exact ⟨s3, rfl, h6⟩

theorem appendChar_spec {B : Nat} (g : Garbage) {s : Builder} {w : Bytes} (c : UInt8) (h : Inv B s w) :
    ∃ s', appendChar B g s c = some s' ∧ Inv B s' (w ++ [c]) := by
  have := h.lt
  obtain ⟨s1, s2, h1, h2, h3⟩ := pokeMark_spec (B := B) g (src := [c]) h (by simp; omega)
  refine ⟨s2, ?_, h3⟩
  simp only [appendChar, h1]
  exact h2

theorem byteSize_spec {B : Nat} {s : Builder} {w : Bytes} (h : Inv B s w) : s.byteSize = w.length := by
  obtain ⟨m, hc, hl, hw⟩ := h.ex
  rw [← hw, List.length_append, h.nbWF.content_length, List.length_take]
  have := h.lt
  unfold byteSize; omega

theorem destructiveGet_spec {B : Nat} {s : Builder} {w : Bytes} (h : Inv B s w) :
    ∃ nb, s.destructiveGet = some nb ∧ nb.WF ∧ nb.content = w ∧ nb.contiguous = false := by
  obtain ⟨m, hc, hl, hw⟩ := h.ex
  have hlt := h.lt
  unfold destructiveGet
  by_cases h0 : s.used = 0
  · refine ⟨s.nb, ?_, h.nbWF, ?_, h.nc⟩
    · unfold flush; rw [if_pos h0]
    · rw [← hw, h0]; simp
  · obtain ⟨s1, s2, h1, h2, h3, _, h4, h5⟩ := flush_init_spec (B := B) (fun _ => 0) (by omega) h.nbWF h.nc hc hl
      (by omega) (by omega)
    rw [h1]
    refine ⟨_, rfl, by rw [h5]; exact h4.nbWF, ?_, by rw [h5]; exact h4.nc⟩
    obtain ⟨m2, _, _, hw2⟩ := h4.ex
    rw [h3] at hw2
    simp only [List.take_zero, List.append_nil] at hw2
    rw [h5, hw2, hw]

end Builder
end Verif.Buffer
