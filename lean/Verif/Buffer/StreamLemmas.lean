import Verif.Buffer.FlattenLemmas
/-! Helper lemmas: streams. -/

namespace Verif.Buffer

structure InStream.Inv (orig : Bytes) (s : InStream) (c : Cursor) : Prop where
  wf : s.nb.WF
  nz : s.nb.NoZero
  pos : s.read = c.pos
  last : s.skipBeforeRead = c.last
  le : c.last ≤ s.nb.content.length
  rest : s.nb.content.drop c.last = orig.drop c.pos
  lp : c.last ≤ c.pos
  posle : c.pos ≤ orig.length
  back : s.nb.content = orig.drop (c.pos - c.last)

theorem InStream.pending_spec {orig : Bytes} {s : InStream} {c : Cursor} (h : InStream.Inv orig s c) :
    ∃ s', s.performPendingSkips = some s' ∧ InStream.Inv orig s' ⟨c.pos, 0⟩ := by
  unfold performPendingSkips
  by_cases h0 : s.skipBeforeRead ≠ 0
  · rw [if_pos h0]
    obtain ⟨nb', h1, h2, h3, h4, _⟩ := (NB.skip_spec s.nb s.skipBeforeRead h.wf).1 (by rw [h.last]; exact h.le)
    rw [h1]
    have e : nb'.content = orig.drop c.pos := by rw [h3, h.last, h.rest]
    exact ⟨_, rfl, h2, h4 h.nz, h.pos, rfl, by simp, by simpa using e, by simp, h.posle, by simpa using e⟩
  · rw [if_neg h0]
    have h0 : s.skipBeforeRead = 0 := by simpa using h0
    have h1 : c.last = 0 := by rw [← h.last, h0]
    refine ⟨s, rfl, h.wf, h.nz, h.pos, h0, by simp, ?_, by simp, h.posle, ?_⟩
    · have := h.rest; rw [h1] at this; exact this
    · have := h.back; rw [h1] at this; exact this

theorem inStep_spec {orig : Bytes} {s : InStream} {c : Cursor} (h : InStream.Inv orig s c) (o : InOp)
    (hl : inLegal c o) :
    ∃ s' out c', inStep s o = some (s', out) ∧ cursorStep orig c o out c' ∧ InStream.Inv orig s' c' := by
  cases o with
  | next =>
    obtain ⟨s1, h1, h2⟩ := InStream.pending_spec h
    have hlen : s1.nb.content.length = orig.length - c.pos := by
      have := congrArg List.length h2.rest
      simpa using this
    by_cases he : s1.nb.byteSize = 0
    · have e : InStream.next s = some (s1, none) := by
        simp only [InStream.next, h1]; rw [if_pos he]
      refine ⟨s1, .eof, ⟨c.pos, 0⟩, by simp [inStep, e], ⟨?_, rfl, rfl⟩, h2⟩
      have := h2.wf.content_length
      have hp := h.posle
      omega
    · cases hb : s1.nb.blocks with
      | nil => exact absurd ((NB.NoZero.empty_iff h2.wf h2.nz).1 hb) he
      | cons b bs =>
        have hwb : b.WF := h2.wf.inMem b (by simp [hb])
        have hpos : 0 < b.size := h2.nz b (by simp [hb])
        have hbl := Block.bytes_length hwb
        have hcont : s1.nb.content = b.bytes ++ blocksContent bs := by simp [NB.content, hb]
        have hrest : b.bytes ++ blocksContent bs = orig.drop c.pos := by
          rw [← hcont]; simpa using h2.rest
        have e : InStream.next s = some ({ s1 with skipBeforeRead := b.size, read := s1.read + b.size }, some b.bytes) := by
          simp only [InStream.next, h1]; rw [if_neg he]; simp only [hb]
        have hlenb : b.size ≤ orig.length - c.pos := by
          rw [← hlen, hcont, List.length_append]; omega
        refine ⟨{ s1 with skipBeforeRead := b.size, read := s1.read + b.size }, .chunk b.bytes, ⟨c.pos + b.size, b.size⟩, by simp only [inStep, e],
          ⟨?_, ?_, by simp [hbl], by simp [hbl]⟩, h2.wf, h2.nz, ?_, rfl, ?_, ?_, ?_, ?_, ?_⟩
        · intro hn; rw [hn] at hbl; simp at hbl; omega
        · rw [← hrest]; exact List.prefix_append _ _
        · simp only [h2.pos]
        · simp only; rw [hcont, List.length_append]; omega
        · simp only
          rw [hcont, ← List.drop_drop, ← hrest]
        · simp only; omega
        · simp only; have := h.posle; omega
        · simp only [Nat.add_sub_cancel]
          have := h2.back; simpa using this
  | backUp n =>
    have hl : n ≤ c.last := hl
    have hle := h.le
    have hlp := h.lp
    have e : InStream.backUp s n = some { s with skipBeforeRead := s.skipBeforeRead - n, read := s.read - n } := by
      unfold InStream.backUp; rw [if_pos (by rw [h.last]; exact hl)]
    refine ⟨{ s with skipBeforeRead := s.skipBeforeRead - n, read := s.read - n }, .unit, ⟨c.pos - n, c.last - n⟩, by simp only [inStep, e, Option.map_some],
      ⟨hl, by simp only; omega, by simp only; omega⟩, h.wf, h.nz, ?_, ?_, ?_, ?_, ?_, ?_, ?_⟩
    · simp only [h.pos]
    · simp only [h.last]
    · simp only; omega
    · simp only
      rw [h.back, List.drop_drop]; congr 1; omega
    · simp only; omega
    · simp only; have := h.posle; omega
    · simp only; rw [h.back]; congr 1; omega
  | skip n =>
    obtain ⟨s1, h1, h2⟩ := InStream.pending_spec h
    have hcl := h2.wf.content_length
    have hlen : s1.nb.content.length = orig.length - c.pos := by
      have := congrArg List.length h2.rest
      simpa using this
    have hp := h.posle
    by_cases hlt : s1.nb.byteSize < n
    · have e : InStream.skip s n = some (s1, false) := by
        simp only [InStream.skip, h1]; rw [if_pos hlt]
      refine ⟨s1, .skipped false, ⟨c.pos, 0⟩, by simp [inStep, e], ⟨by omega, rfl, rfl⟩, h2⟩
    · obtain ⟨nb', k1, k2, k3, k4, _⟩ := (NB.skip_spec s1.nb n h2.wf).1 (by omega)
      have e : InStream.skip s n = some ({ s1 with nb := nb', read := s1.read + n }, true) := by
        simp only [InStream.skip, h1]; rw [if_neg hlt]; simp only [k1]
      have e2 : nb'.content = orig.drop (c.pos + n) := by
        rw [k3, ← List.drop_drop]; congr 1
        simpa using h2.rest
      refine ⟨{ s1 with nb := nb', read := s1.read + n }, .skipped true, ⟨c.pos + n, 0⟩, by simp only [inStep, e, Option.map_some],
        ⟨by omega, rfl, rfl⟩, k2, k4 h2.nz, ?_, h2.last, by simp, by simpa using e2, by simp, ?_, by simpa using e2⟩
      · simp only [h2.pos]
      · simp only; omega

/-! Output stream -/

structure OutStream.Inv (B : Nat) (s : OutStream) (w pend : Bytes) : Prop where
  binv : Builder.Inv B s.b w
  len : pend.length = s.usingBytes
  le : s.b.used + s.usingBytes ≤ B
  mem : ∃ m, s.b.cur = some m ∧ m.length = B ∧
    s.b.nb.content ++ m.take (s.b.used + s.usingBytes) = w ++ pend

theorem OutStream.flush_spec {B : Nat} (g : Builder.Garbage) {s : OutStream} {w pend : Bytes}
    (h : OutStream.Inv B s w pend) :
    ∃ s', s.flush B g = some s' ∧ s'.usingBytes = 0 ∧ Builder.Inv B s'.b (w ++ pend) ∧
      B - s'.b.used = outAvail B s := by
  have hlt := h.binv.lt
  have hle := h.le
  unfold OutStream.flush
  by_cases h0 : s.usingBytes ≠ 0
  · rw [if_pos h0]
    obtain ⟨m, hc, hl, hw⟩ := h.mem
    obtain ⟨s', h1, h2⟩ := Builder.markWritten_spec (B := B) g (s := s.b) (m := m) (n := s.usingBytes)
      h.binv.nbWF h.binv.nc hc hl hlt (by omega)
    rw [h1]
    rw [hw] at h2
    refine ⟨_, rfl, rfl, h2, ?_⟩
    simp only
    unfold Builder.markWritten at h1
    rw [if_pos (by omega)] at h1
    unfold outAvail
    split
    · rename_i he
      simp only [if_pos he] at h1
      unfold Builder.flushInit at h1
      split at h1
      · rename_i s1 hs1
        unfold Builder.initNext at h1
        unfold Builder.flush at hs1
        simp only at hs1
        rw [if_neg (by omega)] at hs1
        simp only [hc] at hs1
        split at hs1
        · cases hs1
          simp only at h1
          cases h1
          simp
        · cases hs1
      · cases h1
    · rename_i he
      simp only [if_neg he] at h1
      cases h1
      rfl
  · rw [if_neg h0]
    have h0 : s.usingBytes = 0 := by simpa using h0
    have hp : pend = [] := List.length_eq_zero_iff.1 (by rw [h.len, h0])
    subst hp
    refine ⟨s, rfl, h0, by simpa using h.binv, ?_⟩
    unfold outAvail
    rw [h0, Nat.add_zero, if_neg (by omega)]

theorem OutStream.chunk_spec {B : Nat} (g : Builder.Garbage) {s : OutStream} {w pend src : Bytes}
    (h : OutStream.Inv B s w pend) (hsrc : src.length ≤ outAvail B s) :
    ∃ s', outChunk B g s src = some s' ∧ OutStream.Inv B s' (w ++ pend) src := by
  obtain ⟨s1, h1, h2, h3, h4⟩ := OutStream.flush_spec g h
  have hlt := h3.lt
  obtain ⟨m', k1, k2, k3, k4⟩ := Builder.poke_spec h3 (src := src) (by omega)
  have e : s.nextFill B g src =
      some ({ b := { s1.b with cur := some m' }, usingBytes := B - s1.b.used }, B - s1.b.used) := by
    unfold OutStream.nextFill
    rw [h1]
    simp only
    rw [if_neg (by omega), if_pos (by omega), k1]
  unfold outChunk
  rw [e]
  simp only [OutStream.backUp]
  rw [if_pos (by omega)]
  refine ⟨_, rfl, ⟨h3.nbWF, h3.nc, h3.lt, m', rfl, k2, k4⟩, by simp only; omega, by simp only; omega, m', rfl, k2, ?_⟩
  simp only
  rw [← k3]; congr 2; omega

end Verif.Buffer
