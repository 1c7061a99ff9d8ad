import Verif.Buffer.StreamLemmas
/-!
# Properties C01–C04 (and the output stream, C30)
-/

namespace Verif.Buffer

/-- One step, used below. -/
theorem step_refines {nb nb' : NB} {o : Op} {out : List NB} (hw : nb.WF) (ho : o.WF)
    (h : step nb o = some (nb', out)) :
    nb'.WF ∧ (∀ x ∈ out, x.WF) ∧ specStep nb.content o = some (nb'.content, out.map NB.content) := by
  cases o with
  | appendBlock b =>
    simp only [step, Option.map_eq_some_iff] at h
    obtain ⟨x, h1, h2⟩ := h
    cases h2
    obtain ⟨w1, w2, _, _⟩ := NB.appendBlock_spec hw ho h1
    exact ⟨w1, by simp, by simp [specStep, w2]⟩
  | appendNB p =>
    simp only [step, Option.map_eq_some_iff] at h
    obtain ⟨x, h1, h2⟩ := h
    cases h2
    obtain ⟨w1, w2, _⟩ := NB.appendNB_spec hw ho h1
    exact ⟨w1, by simp, by simp [specStep, w2]⟩
  | appendRaw m =>
    simp only [step, Option.map_eq_some_iff] at h
    obtain ⟨x, h1, h2⟩ := h
    cases h2
    unfold NB.appendRaw at h1
    split at h1
    · cases h1
      obtain ⟨w1, w2⟩ := NB.appendWhole_spec (m := m) hw true
      exact ⟨w1, by simp, by simp [specStep, w2]⟩
    · cases h1
  | appendBufferPtr m =>
    simp only [step, Option.map_eq_some_iff] at h
    obtain ⟨x, h1, h2⟩ := h
    cases h2
    unfold NB.appendBufferPtr at h1
    split at h1
    · split at h1
      · cases h1
        rename_i hm
        have : m = [] := List.length_eq_zero_iff.1 hm
        subst this
        exact ⟨hw, by simp, by simp [specStep]⟩
      · cases h1
        obtain ⟨w1, w2⟩ := NB.appendWhole_spec (m := m) hw true
        exact ⟨w1, by simp, by simp [specStep, w2]⟩
    · cases h1
  | cut n =>
    simp only [step, Option.map_eq_some_iff] at h
    obtain ⟨⟨p, r⟩, h1, h2⟩ := h
    cases h2
    by_cases hn : n ≤ nb.content.length
    · obtain ⟨p', r', k1, k2, k3, k4, k5, _⟩ := (NB.cut_spec nb n hw).1 hn
      rw [k1] at h1; cases h1
      refine ⟨k3, by simpa using k2, ?_⟩
      simp only [specStep, if_pos hn, k5, List.map_cons, k4, List.map_nil]
    · rw [(NB.cut_spec nb n hw).2 (by omega)] at h1; cases h1
  | skip n =>
    simp only [step, Option.map_eq_some_iff] at h
    obtain ⟨x, h1, h2⟩ := h
    cases h2
    by_cases hn : n ≤ nb.content.length
    · obtain ⟨x', k1, k2, k3, _⟩ := (NB.skip_spec nb n hw).1 hn
      rw [k1] at h1; cases h1
      exact ⟨k2, by simp, by simp [specStep, hn, k3]⟩
    · rw [(NB.skip_spec nb n hw).2 (by omega)] at h1; cases h1
  | clear =>
    simp only [step] at h; cases h
    obtain ⟨w1, w2, _, _⟩ := NB.clear_spec hw
    exact ⟨w1, by simp, by simp [specStep, w2]⟩
  | copyAssign p =>
    simp only [step] at h; cases h
    obtain ⟨w1, w2, _, w4⟩ := NB.clear_spec hw
    have ho : p.WF := ho
    refine ⟨⟨?_, ?_⟩, by simp, ?_⟩
    · intro b hb
      rcases List.mem_append.1 hb with hb | hb
      · exact w1.inMem b hb
      · exact ho.inMem b hb
    · have := w1.size
      rw [w4] at this
      simp only [NB.copyAssign, List.map_append, List.sum_append]
      rw [← this, ho.size]; simp
    · have w2 : blocksContent nb.clear.blocks = [] := w2
      simp [specStep, NB.copyAssign, NB.content, w2]
  | moveAssign p =>
    simp only [step, Option.map_eq_some_iff] at h
    obtain ⟨⟨x, y⟩, h1, h2⟩ := h
    cases h2
    have ho : p.WF := ho
    simp only [NB.moveAssign] at h1
    split at h1
    · cases h1
      exact ⟨⟨ho.inMem, ho.size⟩, by simp, by simp [specStep, NB.content]⟩
    · cases h1

theorem step_total {nb : NB} {o : Op} {r : Bytes × List Bytes} (hw : nb.WF) (hz : nb.NoZero)
    (hc : nb.contiguous = false) (hp : o.Plain) (hs : specStep nb.content o = some r) :
    ∃ nb' out, step nb o = some (nb', out) ∧ nb'.NoZero ∧ nb'.contiguous = false := by
  cases o with
  | appendBlock b =>
    refine ⟨_, _, by simp [step, NB.appendBlock, hc]; exact ⟨rfl, rfl⟩, ?_, by simp⟩
    intro x hx
    rcases List.mem_append.1 hx with hx | hx
    · exact hz x hx
    · simp at hx; subst hx; exact hp
  | appendNB p =>
    refine ⟨_, _, by simp [step, NB.appendNB, hc]; exact ⟨rfl, rfl⟩, ?_, by simp⟩
    intro x hx
    rcases List.mem_append.1 hx with hx | hx
    · exact hz x hx
    · exact hp x hx
  | appendRaw m => exact absurd hp (by simp [Op.Plain])
  | appendBufferPtr m => exact absurd hp (by simp [Op.Plain])
  | cut n =>
    have hn : n ≤ nb.content.length := by
      by_cases h : n ≤ nb.content.length
      · exact h
      · simp [specStep, h] at hs
    obtain ⟨p, r, k1, k2, k3, k4, k5, k6, k7⟩ := (NB.cut_spec nb n hw).1 hn
    exact ⟨r, [p], by simp [step, k1], (k6 hz).2, (k7 hc).2⟩
  | skip n =>
    have hn : n ≤ nb.content.length := by
      by_cases h : n ≤ nb.content.length
      · exact h
      · simp [specStep, h] at hs
    obtain ⟨x, k1, k2, k3, k4, k5⟩ := (NB.skip_spec nb n hw).1 hn
    exact ⟨x, [], by simp [step, k1], k4 hz, by rw [k5, hc]⟩
  | clear =>
    refine ⟨_, _, rfl, ?_, (NB.clear_spec hw).2.2.1⟩
    unfold NB.clear
    split
    · intro x hx; simp at hx
    · exact hz
  | copyAssign p =>
    refine ⟨_, _, rfl, ?_, hp.2⟩
    intro x hx
    rcases List.mem_append.1 hx with hx | hx
    · revert hx
      unfold NB.clear
      split
      · intro hx; simp at hx
      · intro hx; exact hz x hx
    · exact hp.1 x hx
  | moveAssign p =>
    have : nb.clear.blocks = [] := by
      unfold NB.clear
      split
      · rfl
      · rename_i h
        exact (NB.NoZero.empty_iff hw hz).2 (by simpa using h)
    refine ⟨_, _, by simp only [step, NB.moveAssign, this, Option.map_some]; rfl, hp.1, hp.2⟩

/-- **C01.**  Whatever sequence of operations runs to completion on a buffer (started on any
well-formed block layout, with well-formed operands), the content is what the same operations do to a
flat byte string, every piece returned by `Cut` is the piece cut off the flat string, and
`ByteSize()` is the length of the content. -/
theorem C01_buffer_refines_byte_string (nb nb' : NB) (ops : List Op) (outs : List NB)
    (hw : nb.WF) (ho : ∀ o ∈ ops, o.WF) (h : run nb ops = some (nb', outs)) :
    specRun nb.content ops = some (nb'.content, outs.map NB.content) ∧
    nb'.byteSize = nb'.content.length ∧ (∀ x ∈ outs, x.byteSize = x.content.length) ∧ nb'.WF := by
  induction ops generalizing nb outs with
  | nil =>
    simp only [run] at h; cases h
    exact ⟨rfl, hw.content_length.symm, by simp, hw⟩
  | cons o os ih =>
    simp only [run] at h
    split at h
    · cases h
    · rename_i nb1 out h1
      split at h
      · cases h
      · rename_i nb2 outs2 h2
        cases h
        obtain ⟨w1, w2, w3⟩ := step_refines hw (ho o (by simp)) h1
        obtain ⟨i1, i2, i3, i4⟩ := ih nb1 outs2 w1 (fun x hx => ho x (by simp [hx])) h2
        refine ⟨?_, i2, ?_, i4⟩
        · simp only [specRun, w3, i1, List.map_append]
        · intro x hx
          rcases List.mem_append.1 hx with hx | hx
          · exact (w2 x hx).content_length.symm
          · exact i3 x hx

/-- **C01, legality.**  For buffers made of pooled blocks the operations succeed exactly when they make
sense for the byte string (cut and skip at most the size): no undefined behaviour, no failed check;
and the internal consistency check of `Empty()` holds in the end. -/
theorem C01_buffer_operations_defined_iff_in_range (nb : NB) (ops : List Op)
    (hw : nb.WF) (hz : nb.NoZero) (hc : nb.contiguous = false)
    (ho : ∀ o ∈ ops, o.WF ∧ o.Plain) :
    ((run nb ops).isSome ↔ (specRun nb.content ops).isSome) ∧
    ∀ nb' outs, run nb ops = some (nb', outs) → (nb'.blocks = [] ↔ nb'.byteSize = 0) := by
  have key : ∀ (ops : List Op) (nb : NB), nb.WF → nb.NoZero → nb.contiguous = false →
      (∀ o ∈ ops, o.WF ∧ o.Plain) →
      (specRun nb.content ops).isSome → ∃ nb' outs, run nb ops = some (nb', outs) ∧ nb'.NoZero := by
    intro ops
    induction ops with
    | nil => intro nb hw hz hc ho _; exact ⟨nb, [], rfl, hz⟩
    | cons o os ih =>
      intro nb hw hz hc ho hs
      cases h1 : specStep nb.content o with
      | none => simp [specRun, h1] at hs
      | some r =>
        obtain ⟨nb1, out, k1, k2, k3⟩ := step_total hw hz hc (ho o (by simp)).2 h1
        obtain ⟨w1, w2, w3⟩ := step_refines hw (ho o (by simp)).1 k1
        have hs' : (specRun nb1.content os).isSome := by
          rw [specRun, w3] at hs
          cases h2 : specRun nb1.content os with
          | none => simp [h2] at hs
          | some _ => rfl
        obtain ⟨nb2, outs2, j1, j2⟩ := ih nb1 w1 k2 k3 (fun x hx => ho x (by simp [hx])) hs'
        exact ⟨nb2, out ++ outs2, by simp only [run, k1, j1], j2⟩
  constructor
  · constructor
    · intro h
      cases hr : run nb ops with
      | none => simp [hr] at h
      | some r =>
        obtain ⟨nb', outs⟩ := r
        have := (C01_buffer_refines_byte_string nb nb' ops outs hw (fun o h => (ho o h).1) hr).1
        simp [this]
    · intro h
      obtain ⟨nb', outs, h1, _⟩ := key ops nb hw hz hc ho h
      simp [h1]
  · intro nb' outs h
    have h1 := C01_buffer_refines_byte_string nb nb' ops outs hw (fun o h => (ho o h).1) h
    obtain ⟨nb2, outs2, h2, h3⟩ := key ops nb hw hz hc ho (by simp [h1.1])
    rw [h] at h2; cases h2
    exact NB.NoZero.empty_iff h1.2.2.2 h3

/-- A three-block buffer with windows inside larger memory. -/
def exNB : NB :=
  { byteSize := 6, blocks := [⟨[9, 1, 2, 9], 1, 2⟩, ⟨[3], 0, 1⟩, ⟨[4, 5, 6], 0, 3⟩] }

theorem exNB_WF : exNB.WF := ⟨by decide, by decide⟩

theorem exNB_NoZero : exNB.NoZero := by unfold NB.NoZero; decide

example : exNB.WF ∧ exNB.NoZero ∧ exNB.contiguous = false ∧
    (∀ o ∈ [Op.cut 4, .skip 1, .appendNB exNB], o.WF ∧ o.Plain) := by
  refine ⟨exNB_WF, exNB_NoZero, rfl, ?_⟩
  intro o ho
  simp at ho
  rcases ho with rfl | rfl | rfl
  · exact ⟨trivial, trivial⟩
  · exact ⟨trivial, trivial⟩
  · exact ⟨exNB_WF, exNB_NoZero⟩

example : (run exNB [.cut 4, .skip 1, .appendNB exNB]).map (fun p => (p.1.content, p.2.map NB.content))
    = some ([6, 1, 2, 3, 4, 5, 6], [[1, 2, 3, 4]]) := by decide

/-- **C01, deviation.**  Handing an empty user buffer to `Append(char*, 0)` leaves a buffer that claims
to be empty but still owns a block: a following move assignment into it aborts the process (and
`Empty()`'s debug check fails). `Append(BufferPtr&&)` has the guard that is missing here. -/
theorem C01_empty_raw_append_then_move_aborts (o : NB) :
    ∃ nb, NB.empty.appendRaw [] = some nb ∧ nb.byteSize = 0 ∧ nb.blocks ≠ [] ∧ nb.moveAssign o = none := by
  exact ⟨_, rfl, rfl, by decide, rfl⟩

/-- **C02.**  For every block size, every content of fresh memory and every legal sequence of builder
calls: no call fails, `ByteSize()` is the number of bytes written and `DestructiveGet()` returns the
concatenation of everything written, in order. -/
theorem C02_builder_concatenates (B : Nat) (g : Builder.Garbage) (ops : List BOp) (hB : 0 < B) :
    ∃ s0, Builder.new B g = some s0 ∧
      (LegalRun B g s0 ops →
        ∃ s nb, brun B g s0 ops = some s ∧ s.byteSize = (ops.flatMap BOp.written).length ∧
          s.destructiveGet = some nb ∧ nb.WF ∧ nb.content = ops.flatMap BOp.written) := by
  obtain ⟨s0, h0, hi0, _⟩ := Builder.new_spec (B := B) g hB
  refine ⟨s0, h0, fun hl => ?_⟩
  have key : ∀ (ops : List BOp) (s : Builder) (w : Bytes), Builder.Inv B s w → LegalRun B g s ops →
      ∃ s', brun B g s ops = some s' ∧ Builder.Inv B s' (w ++ ops.flatMap BOp.written) := by
    intro ops
    induction ops with
    | nil => intro s w h _; exact ⟨s, rfl, by simpa using h⟩
    | cons o os ih =>
      intro s w h hl
      have hstep : ∃ s', bstep B g s o = some s' ∧ Builder.Inv B s' (w ++ o.written) := by
        have hlo := hl.1
        cases o with
        | append src => exact Builder.append_spec g src h
        | appendMany srcs => exact Builder.appendMany_spec g srcs h
        | appendChar c => exact Builder.appendChar_spec g c h
        | appendNB o => exact Builder.appendNB_spec g h hlo
        | reserveFill src => exact Builder.reserveFill_spec g h hlo
        | pokeMark src =>
          obtain ⟨s1, s2, h1, h2, h3⟩ := Builder.pokeMark_spec (B := B) g h hlo
          exact ⟨s2, by simp only [bstep, h1, h2], h3⟩
      obtain ⟨s1, h1, h2⟩ := hstep
      obtain ⟨s', h3, h4⟩ := ih s1 _ h2 (hl.2 s1 h1)
      exact ⟨s', by simp only [brun, h1, h3], by simpa using h4⟩
  obtain ⟨s, h1, h2⟩ := key ops s0 [] hi0 hl
  simp only [List.nil_append] at h2
  obtain ⟨nb, h3, h4, h5, _⟩ := Builder.destructiveGet_spec h2
  exact ⟨s, nb, h1, Builder.byteSize_spec h2, h3, h4, h5⟩

/-- legality is satisfiable: block size 4, writes crossing blocks, an exact fill and a reservation. -/
example : ∃ s0, Builder.new 4 (fun _ => 0) = some s0 ∧
    LegalRun 4 (fun _ => 0) s0 [.append [1, 2, 3], .append [4, 5, 6, 7, 8, 9], .reserveFill [1, 2, 3, 4],
      .appendChar 7, .appendMany [[1], [2, 3, 4]], .appendNB exNB] := by
  refine ⟨_, rfl, trivial, fun _ _ => ⟨trivial, fun _ _ => ⟨(by decide : 4 ≤ 4), fun _ _ =>
    ⟨trivial, fun _ _ => ⟨trivial, fun _ _ => ⟨exNB_WF, fun _ _ => trivial⟩⟩⟩⟩⟩⟩

/-- **C03.** `FlattenSlow(nb, n)` is the first `min(n, size)` bytes. -/
theorem C03_flattenSlow (nb : NB) (n : Nat) (hw : nb.WF) : flattenSlow nb n = nb.content.take n := by
  unfold flattenSlow
  rw [flattenLoop_spec _ _ hw.inMem]
  have := hw.content_length
  show nb.content.take _ = _
  rw [List.take_eq_take_iff]; omega

/-- **C03.** `FlattenSlowUntil` returns the content up to and including the first occurrence of the
delimiter (limited to `n`), or the first `n` bytes when there is none; never a failed check. -/
theorem C03_flattenSlowUntil (nb : NB) (d : Bytes) (n : Nat) (hw : nb.WF) :
    ∃ r, flattenSlowUntil nb d n = some r ∧
      (∀ i, FirstOcc d nb.content i → r = nb.content.take (min (i + d.length) n)) ∧
      ((∀ i, ¬ OccursAt d nb.content i) → r = nb.content.take n) :=
  flattenSlowUntil_spec nb d n hw

/-- **C03.** `FlattenToSlow` copies exactly the first `n` bytes if there are that many (and the buffer
is not empty), and aborts otherwise. -/
theorem C03_flattenToSlow (nb : NB) (n : Nat) (hw : nb.WF) (hne : nb.blocks ≠ []) :
    flattenToSlow nb n = if n ≤ nb.content.length then some (nb.content.take n) else none := by
  unfold flattenToSlow
  cases hb : nb.blocks with
  | nil => exact absurd hb hne
  | cons b bs =>
    have hwb : b.WF := hw.inMem b (by simp [hb])
    have hbl := Block.bytes_length hwb
    have hc : nb.content = b.bytes ++ blocksContent bs := by simp [NB.content, hb]
    have hlen := hw.content_length
    simp only
    by_cases h1 : n ≤ b.size
    · rw [if_pos h1, if_pos (by rw [hc, List.length_append]; omega), hc,
        List.take_append_of_le_length (by omega)]
    · rw [if_neg h1]
      by_cases h2 : n ≤ nb.byteSize
      · rw [if_pos h2, if_pos (by omega), flattenToLoop_spec _ _ _ (by rw [← hb]; exact hw.inMem) (by simp)]
        simp only [List.nil_append, NB.content, hb]
      · rw [if_neg h2, if_neg (by omega)]

/-- delimiter `[2,3]` straddles blocks of `exNB`. -/
example : FirstOcc [2, 3] exNB.content 1 ∧ flattenSlowUntil exNB [2, 3] 100 = some [1, 2, 3] := by
  refine ⟨⟨⟨by decide, by decide⟩, ?_⟩, by decide⟩
  intro j hj
  have : j = 0 := by omega
  subst this
  rintro ⟨_, h⟩
  exact absurd h (by decide)

/-- **C04.**  Any legal sequence of `Next`/`BackUp`/`Skip` behaves like a cursor over the buffer's
bytes; `ByteCount()` is the cursor position; flushing leaves exactly the bytes after the cursor. -/
theorem C04_input_stream (nb : NB) (hw : nb.WF) (hz : nb.NoZero) (ops : List InOp)
    (s : InStream) (outs : List InOut) (h : inRun { nb := nb } ops = some (s, outs)) :
    ∃ c, cursorRun nb.content {} ops outs c ∧ s.read = c.pos ∧
      ∃ s', s.performPendingSkips = some s' ∧ s'.nb.content = nb.content.drop c.pos := by
  have key : ∀ (ops : List InOp) (s0 : InStream) (c0 : Cursor) (outs : List InOut),
      InStream.Inv nb.content s0 c0 → inRun s0 ops = some (s, outs) →
      ∃ c, cursorRun nb.content c0 ops outs c ∧ InStream.Inv nb.content s c := by
    intro ops
    induction ops with
    | nil =>
      intro s0 c0 outs hi hr
      simp only [inRun] at hr; cases hr
      exact ⟨c0, rfl, hi⟩
    | cons o os ih =>
      intro s0 c0 outs hi hr
      have hl : inLegal c0 o := by
        cases o with
        | backUp n =>
          by_cases hn : n ≤ c0.last
          · exact hn
          · exfalso
            have : inStep s0 (.backUp n) = none := by
              simp only [inStep, InStream.backUp]
              rw [if_neg (by rw [hi.last]; exact hn)]; rfl
            simp [inRun, this] at hr
        | next => trivial
        | skip n => trivial
      obtain ⟨s1, out, c1, h1, h2, h3⟩ := inStep_spec hi o hl
      simp only [inRun, h1] at hr
      split at hr
      · cases hr
      · rename_i s2 outs2 h4
        cases hr
        obtain ⟨c, h5, h6⟩ := ih s1 c1 outs2 h3 h4
        exact ⟨c, ⟨c1, h2, h5⟩, h6⟩
  have hi0 : InStream.Inv nb.content { nb := nb } {} :=
    ⟨hw, hz, rfl, rfl, by simp, by simp, by simp, by simp, by simp⟩
  obtain ⟨c, h1, h2⟩ := key ops _ {} outs hi0 h
  obtain ⟨s', h3, h4⟩ := InStream.pending_spec h2
  exact ⟨c, h1, h2.pos, s', h3, by simpa using h4.rest⟩

/-- **C04, totality.** The only call that can fail is backing up more than the last chunk. -/
theorem C04_input_stream_total (nb : NB) (hw : nb.WF) (hz : nb.NoZero) (ops : List InOp) (s : InStream)
    (outs : List InOut) (h : inRun { nb := nb } ops = some (s, outs)) (o : InOp) :
    (inStep s o = none) ↔ ∃ n, o = .backUp n ∧ s.skipBeforeRead < n := by
  have key : ∀ (ops : List InOp) (s0 : InStream) (c0 : Cursor) (outs : List InOut),
      InStream.Inv nb.content s0 c0 → inRun s0 ops = some (s, outs) →
      ∃ c, InStream.Inv nb.content s c := by
    intro ops
    induction ops with
    | nil =>
      intro s0 c0 outs hi hr
      simp only [inRun] at hr; cases hr
      exact ⟨c0, hi⟩
    | cons o os ih =>
      intro s0 c0 outs hi hr
      simp only [inRun] at hr
      split at hr
      · cases hr
      · rename_i s1 out h1
        split at hr
        · cases hr
        · rename_i s2 outs2 h4
          cases hr
          have hl : inLegal c0 o := by
            cases o with
            | backUp n =>
              by_cases hn : n ≤ c0.last
              · exact hn
              · exfalso
                have : inStep s0 (.backUp n) = none := by
                  simp only [inStep, InStream.backUp]
                  rw [if_neg (by rw [hi.last]; exact hn)]; rfl
                rw [this] at h1; cases h1
            | next => trivial
            | skip n => trivial
          obtain ⟨s1', out', c1, k1, _, k3⟩ := inStep_spec hi o hl
          rw [h1] at k1; cases k1
          exact ih s1 c1 outs2 k3 h4
  have hi0 : InStream.Inv nb.content { nb := nb } {} :=
    ⟨hw, hz, rfl, rfl, by simp, by simp, by simp, by simp, by simp⟩
  obtain ⟨c, hi⟩ := key ops _ {} outs hi0 h
  constructor
  · intro hn
    cases o with
    | backUp n =>
      refine ⟨n, rfl, ?_⟩
      by_cases hle : n ≤ s.skipBeforeRead
      · simp [inStep, InStream.backUp, hle] at hn
      · omega
    | next =>
      obtain ⟨_, _, _, k, _⟩ := inStep_spec hi .next trivial
      rw [k] at hn; cases hn
    | skip n =>
      obtain ⟨_, _, _, k, _⟩ := inStep_spec hi (.skip n) trivial
      rw [k] at hn; cases hn
  · rintro ⟨n, rfl, hlt⟩
    simp only [inStep, InStream.backUp]
    rw [if_neg (by omega)]; rfl

example : exNB.WF ∧ exNB.NoZero ∧
    (inRun { nb := exNB } [.next, .backUp 1, .next, .skip 2, .next, .backUp 2, .skip 9]).isSome := by
  refine ⟨exNB_WF, exNB_NoZero, ?_⟩
  simp [inRun, inStep, InStream.next, InStream.performPendingSkips, exNB, InStream.backUp, InStream.skip,
    NB.skip, NB.skipLoop, Block.skip]

/-- **C04, deviation.** With a leading block of size zero (from `Append(char*, 0)`, then more data) the
stream returns an empty chunk forever: no number of `Next` calls reaches the data behind it. -/
theorem C04_zero_block_stalls (b : Block) (k : Nat) :
    let nb : NB := { byteSize := b.size + 1, blocks := [⟨[], 0, 0⟩, ⟨7 :: b.mem, 0, b.size + 1⟩] }
    ∃ s, inRun { nb := nb } (List.replicate k .next) = some (s, List.replicate k (.chunk [])) := by
  intro nb
  have h : inStep { nb := nb } .next = some ({ nb := nb }, .chunk []) := by
    simp [inStep, InStream.next, InStream.performPendingSkips, nb, Block.bytes]
  refine ⟨{ nb := nb }, ?_⟩
  induction k with
  | zero => rfl
  | succ k ih => simp only [List.replicate_succ, inRun, h, ih]

/-- **C30.**  Writing any sequence of chunks through the output stream (get memory, fill a prefix that
fits, give the rest back) and flushing appends exactly the concatenation of the chunks. -/
theorem C30_output_stream_partial (B : Nat) (g : Builder.Garbage) (b : Builder) (w : Bytes)
    (hb : Builder.Inv B b w) (chunks : List Bytes) (s : OutStream)
    (h : outChunks B g { b := b } chunks = some s) :
    ∃ s' nb, s.flush B g = some s' ∧ s'.b.destructiveGet = some nb ∧ nb.content = w ++ chunks.flatten ∧
      s'.byteCount = (w ++ chunks.flatten).length := by
  have key : ∀ (chunks : List Bytes) (s0 : OutStream) (w pend : Bytes), OutStream.Inv B s0 w pend →
      outChunks B g s0 chunks = some s →
      ∃ w' pend', OutStream.Inv B s w' pend' ∧ w' ++ pend' = w ++ pend ++ chunks.flatten := by
    intro chunks
    induction chunks with
    | nil => intro s0 w pend hi hr; simp only [outChunks] at hr; cases hr; exact ⟨w, pend, hi, by simp⟩
    | cons c cs ih =>
      intro s0 w pend hi hr
      have hav : c.length ≤ outAvail B s0 := by
        by_cases hle : c.length ≤ outAvail B s0
        · exact hle
        · exfalso
          obtain ⟨s1, h1, h2, h3, h4⟩ := OutStream.flush_spec g hi
          have : outChunk B g s0 c = none := by
            unfold outChunk OutStream.nextFill
            simp only [h1]
            have := h3.lt
            rw [if_neg (by omega), if_neg (by omega)]
          simp [outChunks, this] at hr
      obtain ⟨s1, h1, h2⟩ := OutStream.chunk_spec g hi hav
      simp only [outChunks, h1] at hr
      obtain ⟨w', p', i1, i2⟩ := ih s1 _ c h2 hr
      exact ⟨w', p', i1, by rw [i2]; simp⟩
  have hi0 : OutStream.Inv B { b := b } w [] := by
    obtain ⟨m, h1, h2, h3⟩ := hb.ex
    have := hb.lt
    exact ⟨hb, rfl, by simp only; omega, m, h1, h2, by simpa using h3⟩
  obtain ⟨w', p', h1, h2⟩ := key chunks _ w [] hi0 h
  obtain ⟨s', h3, h4, h5, _⟩ := OutStream.flush_spec g h1
  obtain ⟨nb, h6, h7, h8, _⟩ := Builder.destructiveGet_spec h5
  refine ⟨s', nb, h3, h6, ?_, ?_⟩
  · rw [h8, h2]; simp
  · show s'.b.byteSize = _
    rw [Builder.byteSize_spec h5, h2]; simp

example : ∃ b, Builder.new 4 (fun _ => 0) = some b ∧ Builder.Inv 4 b [] ∧
    (outChunks 4 (fun _ => 0) { b := b } [[1, 2], [3, 4], [5, 6, 7, 8], [9]]).isSome := by
  obtain ⟨b, h1, h2, _⟩ := Builder.new_spec (B := 4) (fun _ => 0) (by decide)
  refine ⟨b, h1, h2, ?_⟩
  have : b = { nb := {}, used := 0, cur := some (Builder.fresh 4 (fun _ => 0)) } := by
    have h3 : Builder.new 4 (fun _ => 0) = some { nb := {}, used := 0, cur := some (Builder.fresh 4 (fun _ => 0)) } := rfl
    rw [h3] at h1; exact (Option.some.inj h1).symm
  subst this
  decide

/-- **C30, deviation.**  `ByteCount()` ignores the bytes handed out by the last `Next` until the next
`Next`/`Flush`, contrary to the `ZeroCopyOutputStream` contract: after getting memory and filling it
completely, the count still is what it was before. -/
theorem C30_byteCount_excludes_pending (B : Nat) (g : Builder.Garbage) (b : Builder) (w src : Bytes)
    (hb : Builder.Inv B b w) (hs : src.length = B - b.used) :
    ∃ s n, OutStream.nextFill B g { b := b } src = some (s, n) ∧ 0 < n ∧ n = src.length ∧
      s.byteCount = w.length := by
  obtain ⟨m', k1, k2, k3, k4⟩ := Builder.poke_spec hb (src := src) (by omega)
  have hlt := hb.lt
  refine ⟨{ b := { b with cur := some m' }, usingBytes := B - b.used }, B - b.used, ?_, by omega, hs.symm, ?_⟩
  · simp only [OutStream.nextFill, OutStream.flush]
    simp only [ne_eq, not_true_eq_false, if_false]
    rw [if_neg (by omega), if_pos (by omega), k1]
  · have := Builder.byteSize_spec hb
    simpa [OutStream.byteCount, Builder.byteSize] using this

end Verif.Buffer
