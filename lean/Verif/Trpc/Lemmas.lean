import Verif.Trpc.Spec
import Verif.Buffer.Props

namespace Verif.Trpc

open Verif.Buffer

theorem field_append {s t : Bytes} {off len : Nat} (h : off + len ≤ s.length) :
    field (s ++ t) off len = field s off len := by
  unfold field
  rw [List.drop_append_of_le_length (by omega), List.take_append_of_le_length (by simp; omega)]

theorem field_take {s : Bytes} {off len n : Nat} (h : off + len ≤ n) :
    field (s.take n) off len = field s off len := by
  unfold field
  rw [List.drop_take, List.take_take, Nat.min_eq_left (by omega)]

theorem swap16_pair (a b : UInt8) :
    (swap16 (UInt16.ofNat (a.toNat + b.toNat * 256))).toNat = a.toNat * 256 + b.toNat := by
  have ha := a.toNat_lt; have hb := b.toNat_lt
  have h1 : (UInt16.ofNat (a.toNat + b.toNat * 256)).toNat = a.toNat + b.toNat * 256 := by
    rw [UInt16.toNat_ofNat', Nat.mod_eq_of_lt (by omega)]
  unfold swap16
  rw [h1, UInt16.toNat_ofNat', Nat.mod_eq_of_lt (by omega)]
  omega

theorem swap32_quad (a b c d : UInt8) :
    (swap32 (UInt32.ofNat (a.toNat + b.toNat * 256 + c.toNat * 65536 + d.toNat * 16777216))).toNat =
      ((a.toNat * 256 + b.toNat) * 256 + c.toNat) * 256 + d.toNat := by
  have ha := a.toNat_lt; have hb := b.toNat_lt; have hc := c.toNat_lt; have hd := d.toNat_lt
  generalize a.toNat = a at *
  generalize b.toNat = b at *
  generalize c.toNat = c at *
  generalize d.toNat = d at *
  have h1 : (UInt32.ofNat (a + b * 256 + c * 65536 + d * 16777216)).toNat =
      a + b * 256 + c * 65536 + d * 16777216 := by
    rw [UInt32.toNat_ofNat', Nat.mod_eq_of_lt (by omega)]
  unfold swap32
  rw [h1]
  have k1 : (a + b * 256 + c * 65536 + d * 16777216) % 256 = a := by omega
  have k2 : (a + b * 256 + c * 65536 + d * 16777216) / 256 % 256 = b := by omega
  have k3 : (a + b * 256 + c * 65536 + d * 16777216) / 65536 % 256 = c := by omega
  have k4 : (a + b * 256 + c * 65536 + d * 16777216) / 16777216 = d := by omega
  rw [k1, k2, k3, k4, UInt32.toNat_ofNat', Nat.mod_eq_of_lt (by omega)]
  omega

theorem load_spec {p : Bytes} (h : 16 ≤ p.length) : ∃ hd, FixedHeader.load p = some hd ∧ WireIs p hd := by
  match p, h with
  | b0 :: b1 :: b2 :: b3 :: b4 :: b5 :: b6 :: b7 :: b8 :: b9 :: b10 :: b11 :: b12 :: b13 :: b14 :: b15 :: t, _ =>
    refine ⟨_, rfl, ?_⟩
    constructor <;>
      simp only [field, List.drop_succ_cons, List.drop_zero, List.take_succ_cons, List.take_zero,
        List.foldl_cons, List.foldl_nil, swap16_pair, swap32_quad] <;> omega

theorem WireIs.unique {p : Bytes} {h h' : FixedHeader} (a : WireIs p h) (b : WireIs p h') : h = h' := by
  obtain ⟨a1, a2, a3, a4, a5, a6, a7, a8⟩ := a
  obtain ⟨b1, b2, b3, b4, b5, b6, b7, b8⟩ := b
  obtain ⟨m, d, s, ds, ps, sid, r0, r1⟩ := h
  obtain ⟨m', d', s', ds', ps', sid', r0', r1'⟩ := h'
  simp only at *
  rw [UInt16.toNat_inj.1 (a1.trans b1.symm), UInt8.toNat_inj.1 (a2.trans b2.symm),
    UInt8.toNat_inj.1 (a3.trans b3.symm), UInt32.toNat_inj.1 (a4.trans b4.symm),
    UInt16.toNat_inj.1 (a5.trans b5.symm), UInt32.toNat_inj.1 (a6.trans b6.symm),
    UInt8.toNat_inj.1 (a7.trans b7.symm), UInt8.toNat_inj.1 (a8.trans b8.symm)]

theorem WireIs.of_take {p : Bytes} {h : FixedHeader} (a : WireIs (p.take 16) h) : WireIs p h := by
  obtain ⟨a1, a2, a3, a4, a5, a6, a7, a8⟩ := a
  constructor
  · rw [a1, field_take (by omega)]
  · rw [a2, field_take (by omega)]
  · rw [a3, field_take (by omega)]
  · rw [a4, field_take (by omega)]
  · rw [a5, field_take (by omega)]
  · rw [a6, field_take (by omega)]
  · rw [a7, field_take (by omega)]
  · rw [a8, field_take (by omega)]

theorem WireIs.append {p t : Bytes} {h : FixedHeader} (hl : 16 ≤ p.length) :
    WireIs (p ++ t) h ↔ WireIs p h := by
  constructor
  · rintro ⟨a1, a2, a3, a4, a5, a6, a7, a8⟩
    rw [field_append (by omega)] at a1 a2 a3 a4 a5 a6 a7 a8
    exact ⟨a1, a2, a3, a4, a5, a6, a7, a8⟩
  · rintro ⟨a1, a2, a3, a4, a5, a6, a7, a8⟩
    constructor <;> rw [field_append (by omega)] <;> assumption

theorem encode_length (h : FixedHeader) : h.encode.length = 16 := by
  simp [FixedHeader.encode, store16, store32]

theorem store16_swap16 (x : UInt16) :
    store16 (swap16 x) = [UInt8.ofNat (x.toNat / 256), UInt8.ofNat (x.toNat % 256)] := by
  have h := x.toNat_lt
  have h1 : (swap16 x).toNat = x.toNat % 256 * 256 + x.toNat / 256 := by
    simp only [swap16, UInt16.toNat_ofNat']
    omega
  simp only [store16, h1]
  have h2 : (x.toNat % 256 * 256 + x.toNat / 256) % 256 = x.toNat / 256 := by omega
  have h3 : (x.toNat % 256 * 256 + x.toNat / 256) / 256 = x.toNat % 256 := by omega
  rw [h2, h3]

theorem store32_swap32 (x : UInt32) :
    store32 (swap32 x) = [UInt8.ofNat (x.toNat / 16777216), UInt8.ofNat (x.toNat / 65536 % 256),
      UInt8.ofNat (x.toNat / 256 % 256), UInt8.ofNat (x.toNat % 256)] := by
  have h := x.toNat_lt
  have e : swap32 x = UInt32.ofNat (x.toNat % 256 * 16777216 + x.toNat / 256 % 256 * 65536 +
    x.toNat / 65536 % 256 * 256 + x.toNat / 16777216) := rfl
  generalize hd : x.toNat % 256 = d at *
  generalize hc : x.toNat / 256 % 256 = c at *
  generalize hb : x.toNat / 65536 % 256 = b at *
  generalize ha : x.toNat / 16777216 = a at *
  have ha' : a < 256 := by omega
  have hb' : b < 256 := by omega
  have hc' : c < 256 := by omega
  have hd' : d < 256 := by omega
  have h1 : (swap32 x).toNat = d * 16777216 + c * 65536 + b * 256 + a := by
    rw [e, UInt32.toNat_ofNat', Nat.mod_eq_of_lt (by omega)]
  clear e ha hb hc hd
  simp only [store32, h1]
  have k1 : (d * 16777216 + c * 65536 + b * 256 + a) % 256 = a := by omega
  have k2 : (d * 16777216 + c * 65536 + b * 256 + a) / 256 % 256 = b := by omega
  have k3 : (d * 16777216 + c * 65536 + b * 256 + a) / 65536 % 256 = c := by omega
  have k4 : (d * 16777216 + c * 65536 + b * 256 + a) / 16777216 = d := by omega
  rw [k1, k2, k3, k4]

theorem encode_wire (h : FixedHeader) : WireIs h.encode h := by
  have h1 := h.magic.toNat_lt
  have h2 := h.dataFrameSize.toNat_lt
  have h3 := h.pbHeaderSize.toNat_lt
  have h4 := h.streamId.toNat_lt
  have e : h.encode = [UInt8.ofNat (h.magic.toNat / 256), UInt8.ofNat (h.magic.toNat % 256),
      h.dataFrameType, h.streamFrameType,
      UInt8.ofNat (h.dataFrameSize.toNat / 16777216), UInt8.ofNat (h.dataFrameSize.toNat / 65536 % 256),
      UInt8.ofNat (h.dataFrameSize.toNat / 256 % 256), UInt8.ofNat (h.dataFrameSize.toNat % 256),
      UInt8.ofNat (h.pbHeaderSize.toNat / 256), UInt8.ofNat (h.pbHeaderSize.toNat % 256),
      UInt8.ofNat (h.streamId.toNat / 16777216), UInt8.ofNat (h.streamId.toNat / 65536 % 256),
      UInt8.ofNat (h.streamId.toNat / 256 % 256), UInt8.ofNat (h.streamId.toNat % 256),
      h.reversed.1, h.reversed.2] := by
    simp only [FixedHeader.encode, store16_swap16, store32_swap32]
    rfl
  rw [e]
  constructor <;> simp [field] <;> omega

theorem source_spec {nb : NB} (hw : nb.WF) (hl : 16 ≤ nb.content.length) :
    ∃ p, FixedHeader.source nb = some p ∧ 16 ≤ p.length ∧ p.take 16 = nb.content.take 16 := by
  unfold FixedHeader.source NB.firstContiguous
  cases hb : nb.blocks with
  | nil => simp [NB.content, hb, blocksContent] at hl
  | cons b bs =>
    have hwb : b.WF := hw.inMem b (by simp [hb])
    have hbl := Block.bytes_length hwb
    simp only [List.head?_cons]
    by_cases h1 : prefixSpace ≤ b.size
    · rw [if_pos h1]
      refine ⟨b.bytes, rfl, by rw [hbl]; exact h1, ?_⟩
      have hc : nb.content = b.bytes ++ blocksContent bs := by simp [NB.content, hb, blocksContent]
      rw [hc, List.take_append_of_le_length (by rw [hbl]; exact h1)]
    · rw [if_neg h1, C03_flattenToSlow nb _ hw (by simp [hb]), if_pos (show prefixSpace ≤ _ from hl)]
      refine ⟨_, rfl, ?_, ?_⟩
      · simp [prefixSpace]; omega
      · rw [List.take_take, Nat.min_eq_left (by simp [prefixSpace])]

theorem decode_spec (nb : NB) (hw : nb.WF) (skip : Bool) :
    (nb.content.length < 16 → FixedHeader.decode nb skip = some (.fail, nb)) ∧
    (16 ≤ nb.content.length → ∃ h nb', FixedHeader.decode nb skip = some (.ok h, nb') ∧
      WireIs nb.content h ∧
      (skip = false → nb' = nb) ∧
      (skip = true → nb'.WF ∧ nb'.content = nb.content.drop 16)) := by
  have hlen := hw.content_length
  constructor
  · intro h
    unfold FixedHeader.decode
    rw [if_pos (by show _ < 16; omega)]
  · intro h
    obtain ⟨p, hp, hp2, hp3⟩ := source_spec hw h
    obtain ⟨hd, hl, hwire⟩ := load_spec hp2
    have hwire : WireIs nb.content hd := by
      apply WireIs.of_take
      rw [← hp3]
      have : p = p.take 16 ++ p.drop 16 := (List.take_append_drop 16 p).symm
      rw [this] at hwire
      exact (WireIs.append (by simp; omega)).1 hwire
    unfold FixedHeader.decode
    rw [if_neg (by show ¬ _ < 16; omega)]
    simp only [hp, hl]
    cases skip with
    | false => exact ⟨hd, nb, rfl, hwire, fun _ => rfl, by simp⟩
    | true =>
      obtain ⟨nb', k1, k2, k3, _⟩ := (NB.skip_spec nb 16 hw).1 h
      refine ⟨hd, nb', ?_, hwire, by simp, fun _ => ⟨k2, k3⟩⟩
      simp only [prefixSpace, k1, if_true]

/-! ## Framing -/

theorem BadHead.append {mx : Option Nat} {s : Bytes} (h : BadHead mx s) (t : Bytes) : BadHead mx (s ++ t) := by
  obtain ⟨h1, h2⟩ := h
  refine ⟨by simp; omega, ?_⟩
  rw [field_append (by omega), field_append (by omega), field_append (by omega)]
  exact h2

theorem GoodHead.append {mx : Option Nat} {s : Bytes} (h : GoodHead mx s) (t : Bytes) :
    GoodHead mx (s ++ t) := by
  obtain ⟨h1, h2⟩ := h
  refine ⟨by simp; omega, ?_⟩
  rw [field_append (by omega), field_append (by omega), field_append (by omega)]
  exact h2

theorem not_bad_and_good {mx : Option Nat} {s : Bytes} (hb : BadHead mx s) (hg : GoodHead mx s) : False := by
  obtain ⟨_, h⟩ := hb
  obtain ⟨_, g1, g2, g3⟩ := hg
  rcases h with h | h | ⟨m, h1, h2⟩
  · exact h g1
  · omega
  · have := g3 m h1; omega

theorem Framing.nil_iff {mx : Option Nat} {s rest : Bytes} {bad : Bool} :
    Framing mx s [] rest bad ↔ s = rest ∧ (if bad then BadHead mx rest else Incomplete mx rest) := by
  constructor
  · rintro ⟨h1, _, h3⟩
    exact ⟨by simpa using h1, h3⟩
  · rintro ⟨h1, h3⟩
    exact ⟨by simpa using h1, by simp, h3⟩

theorem Framing.start {mx : Option Nat} {s f rest : Bytes} {frames : List Bytes} {bad : Bool}
    (h : Framing mx s (f :: frames) rest bad) :
    GoodHead mx s ∧ field s 4 4 ≤ s.length ∧ f = s.take (field s 4 4) ∧
      Framing mx (s.drop (field s 4 4)) frames rest bad := by
  obtain ⟨h1, h2, h3⟩ := h
  obtain ⟨hg, hl⟩ := h2 f (by simp)
  have hs : s = f ++ (frames.flatten ++ rest) := by simpa using h1
  have hf : field s 4 4 = f.length := by
    rw [hs, field_append (by have := hg.1; omega), hl]
  refine ⟨hs ▸ hg.append _, by rw [hf, hs]; simp, ?_, ?_⟩
  · rw [hf, hs]; simp
  · refine ⟨?_, fun x hx => h2 x (by simp [hx]), h3⟩
    rw [hf, hs]; simp

theorem Framing.cons {mx : Option Nat} {s rest : Bytes} {frames : List Bytes} {bad : Bool}
    (hg : GoodHead mx s) (hl : field s 4 4 ≤ s.length)
    (h : Framing mx (s.drop (field s 4 4)) frames rest bad) :
    Framing mx s (s.take (field s 4 4) :: frames) rest bad := by
  obtain ⟨h1, h2, h3⟩ := h
  obtain ⟨g1, g2, g3, g4⟩ := hg
  refine ⟨?_, ?_, h3⟩
  · simp only [List.flatten_cons, List.append_assoc]
    rw [← h1, List.take_append_drop]
  · intro f hf
    rcases List.mem_cons.1 hf with rfl | hf
    · refine ⟨⟨by simp; omega, ?_, ?_, ?_⟩, ?_⟩
      · rw [field_take (by omega)]; exact g2
      · rw [field_take (by omega), field_take (by omega)]; exact g3
      · rw [field_take (by omega)]; exact g4
      · rw [field_take (by omega)]; simp; omega
    · exact h2 f hf

theorem Framing.unique {mx : Option Nat} : ∀ {frames frames' : List Bytes} {s rest rest' : Bytes}
    {bad bad' : Bool}, Framing mx s frames rest bad → Framing mx s frames' rest' bad' →
    frames = frames' ∧ rest = rest' ∧ bad = bad' := by
  have stop : ∀ {s rest f : Bytes} {frames : List Bytes} {rest' : Bytes} {bad bad' : Bool},
      Framing mx s [] rest bad → Framing mx s (f :: frames) rest' bad' → False := by
    intro s rest f frames rest' bad bad' h1 h2
    obtain ⟨rfl, h3⟩ := Framing.nil_iff.1 h1
    obtain ⟨g1, g2, _⟩ := h2.start
    cases bad with
    | true => exact not_bad_and_good h3 g1
    | false =>
      rcases h3 with h3 | ⟨_, h3⟩
      · have := g1.1; omega
      · omega
  intro frames
  induction frames with
  | nil =>
    intro frames' s rest rest' bad bad' h h'
    cases frames' with
    | nil =>
      obtain ⟨rfl, h1⟩ := Framing.nil_iff.1 h
      obtain ⟨rfl, h2⟩ := Framing.nil_iff.1 h'
      refine ⟨rfl, rfl, ?_⟩
      have : ∀ {s}, BadHead mx s → Incomplete mx s → False := by
        intro s hb hi
        rcases hi with hi | ⟨hi, _⟩
        · have := hb.1; omega
        · exact not_bad_and_good hb hi
      cases bad <;> cases bad' <;> simp at h1 h2 ⊢
      · exact this h2 h1
      · exact this h1 h2
    | cons f fs => exact (stop h h').elim
  | cons f fs ih =>
    intro frames' s rest rest' bad bad' h h'
    cases frames' with
    | nil => exact (stop h' h).elim
    | cons f' fs' =>
      obtain ⟨_, _, e1, k1⟩ := h.start
      obtain ⟨_, _, e2, k2⟩ := h'.start
      obtain ⟨i1, i2, i3⟩ := ih k1 k2
      exact ⟨by rw [e1, e2, i1], i2, i3⟩

theorem Framing.extend {mx : Option Nat} {s rest t rest' : Bytes} {frames frames' : List Bytes} {bad : Bool}
    (h : Framing mx s frames rest false) (h' : Framing mx (rest ++ t) frames' rest' bad) :
    Framing mx (s ++ t) (frames ++ frames') rest' bad := by
  obtain ⟨h1, h2, _⟩ := h
  obtain ⟨k1, k2, k3⟩ := h'
  refine ⟨?_, ?_, k3⟩
  · rw [h1]; simp only [List.flatten_append, List.append_assoc]; rw [← k1]
  · intro f hf
    rcases List.mem_append.1 hf with hf | hf
    · exact h2 f hf
    · exact k2 f hf

theorem Framing.bad_append {mx : Option Nat} {s rest t : Bytes} {frames : List Bytes}
    (h : Framing mx s frames rest true) : Framing mx (s ++ t) frames (rest ++ t) true := by
  obtain ⟨h1, h2, h3⟩ := h
  exact ⟨by rw [h1]; simp, h2, BadHead.append h3 t⟩

/-! ## The checker -/

theorem headerBad_iff {conn : Option UInt32} {h : FixedHeader} {s : Bytes} (hw : WireIs s h)
    (hl : 16 ≤ s.length) :
    (headerBad conn h = true → BadHead (conn.map UInt32.toNat) s) ∧
    (headerBad conn h = false → GoodHead (conn.map UInt32.toNat) s) := by
  have hp := h.pbHeaderSize.toNat_lt
  have hm : (h.magic != magicValue) = true ↔ field s 0 2 ≠ 0x930 := by
    rw [bne_iff_ne, ← hw.magic, ne_eq, ← UInt16.toNat_inj]
    rfl
  have hs : (h.dataFrameSize < UInt32.ofNat (prefixSpace + h.pbHeaderSize.toNat)) ↔
      field s 4 4 < 16 + field s 8 2 := by
    rw [UInt32.lt_iff_toNat_lt, hw.dataFrameSize, ← hw.pbHeaderSize, UInt32.toNat_ofNat',
      Nat.mod_eq_of_lt (by simp [prefixSpace]; omega)]
    rfl
  have hc : overLimit conn h.dataFrameSize = true ↔
      ∃ m, conn.map UInt32.toNat = some m ∧ m < field s 4 4 := by
    cases conn with
    | none => simp [overLimit]
    | some mx =>
      simp only [overLimit, decide_eq_true_eq, Option.map_some, Option.some.injEq, exists_eq_left']
      rw [UInt32.lt_iff_toNat_lt, hw.dataFrameSize]
  constructor
  · intro hb
    unfold headerBad at hb
    rw [Bool.or_eq_true, Bool.or_eq_true, hm, decide_eq_true_eq, hs, hc] at hb
    exact ⟨hl, or_assoc.1 hb⟩
  · intro hb
    unfold headerBad at hb
    rw [Bool.or_eq_false_iff, Bool.or_eq_false_iff, decide_eq_false_iff_not, hs, ← Bool.not_eq_true, hm,
      ← Bool.not_eq_true, hc] at hb
    obtain ⟨⟨b1, b2⟩, b3⟩ := hb
    exact ⟨hl, by simpa using b1, by omega, fun m hmm => by
      rcases Nat.lt_or_ge m (field s 4 4) with hlt | hge
      · exact absurd ⟨m, hmm, hlt⟩ b3
      · exact hge⟩

/-- What `finish`/`err` say. -/
def status (bad : Bool) (frames : List NB) : Packet := if bad then .err else if frames = [] then .less else .full

theorem check_spec (conn : Option UInt32) : ∀ (n : Nat) (nb : NB) (out : List NB), nb.byteSize = n →
    nb.WF → nb.byteSize < 2 ^ 32 →
    ∃ rest frames bad, check conn nb out = some (status bad (out ++ frames), rest, out ++ frames) ∧
      rest.WF ∧ (∀ f ∈ frames, f.WF) ∧
      Framing (conn.map UInt32.toNat) nb.content (frames.map NB.content) rest.content bad ∧
      (nb.contiguous = false → rest.contiguous = false) := by
  intro n
  induction n using Nat.strongRecOn with
  | _ n ih =>
    intro nb out hn hw hlt
    have hlen := hw.content_length
    have htot : (UInt32.ofNat nb.byteSize).toNat = nb.byteSize := by
      rw [UInt32.toNat_ofNat', Nat.mod_eq_of_lt hlt]
    have hfin : ∀ o : List NB, finish o = status false o := by
      intro o; unfold finish status; cases o <;> simp
    unfold check
    by_cases h16 : nb.content.length < 16
    · have : (UInt32.ofNat nb.byteSize) < UInt32.ofNat prefixSpace := by
        rw [UInt32.lt_iff_toNat_lt, htot]; simp [prefixSpace]; omega
      simp only [if_pos this]
      refine ⟨nb, [], false, by simp [hfin], hw, by simp, ?_, fun h => h⟩
      exact Framing.nil_iff.2 ⟨rfl, Or.inl h16⟩
    · have : ¬ (UInt32.ofNat nb.byteSize) < UInt32.ofNat prefixSpace := by
        rw [UInt32.lt_iff_toNat_lt, htot]; simp [prefixSpace]; omega
      simp only [if_neg this]
      obtain ⟨h, nb', hd, hwire, hsame, _⟩ := (decode_spec nb hw false).2 (by omega)
      have := hsame rfl
      subst this
      simp only [hd]
      obtain ⟨hb1, hb2⟩ := headerBad_iff (conn := conn) hwire (by omega)
      by_cases hbad : headerBad conn h = true
      · rw [if_pos hbad]
        exact ⟨nb', [], true, by simp [status], hw, by simp, Framing.nil_iff.2 ⟨rfl, hb1 hbad⟩, fun h => h⟩
      · rw [if_neg hbad]
        have hgood := hb2 (by simpa using hbad)
        by_cases hsz : UInt32.ofNat nb'.byteSize < h.dataFrameSize
        · rw [if_pos hsz]
          refine ⟨nb', [], false, by simp [hfin], hw, by simp, Framing.nil_iff.2 ⟨rfl, Or.inr ⟨hgood, ?_⟩⟩,
            fun h => h⟩
          rw [UInt32.lt_iff_toNat_lt, htot, hwire.dataFrameSize] at hsz
          omega
        · rw [if_neg hsz]
          rw [UInt32.lt_iff_toNat_lt, htot, hwire.dataFrameSize] at hsz
          obtain ⟨p, r, k1, k2, k3, k4, k5, _, k7⟩ := (NB.cut_spec nb' (field nb'.content 4 4) hw).1 (by omega)
          have hr := k3.content_length
          rw [k5, List.length_drop] at hr
          have h44 : 16 ≤ field nb'.content 4 4 := by have := hgood.2.2.1; omega
          rw [hwire.dataFrameSize]
          simp only [k1]
          rw [dif_pos (by omega)]
          obtain ⟨rest, frames, bad, e1, e2, e3, e4, e5⟩ := ih r.byteSize (by omega) r (out ++ [p]) rfl k3 (by omega)
          refine ⟨rest, p :: frames, bad, ?_, e2, ?_, ?_, fun hc => e5 (k7 hc).2⟩
          · rw [e1]; simp
          · intro f hf
            rcases List.mem_cons.1 hf with rfl | hf
            · exact k2
            · exact e3 f hf
          · rw [List.map_cons, k4]
            exact Framing.cons hgood (by omega) (by rw [← k5]; exact e4)

/-! ## Writers -/

theorem serializeTo_spec {B : Nat} (g : Builder.Garbage) {b b' : Builder} {w : Bytes} {chunks : List Bytes}
    (hb : Builder.Inv B b w) (h : serializeTo B g b chunks = some b') :
    Builder.Inv B b' (w ++ chunks.flatten) := by
  unfold serializeTo at h
  split at h
  · cases h
  · rename_i s hs
    have key : ∀ (chunks : List Bytes) (s0 : OutStream) (w pend : Bytes), OutStream.Inv B s0 w pend →
        outChunks B g s0 chunks = some s →
        ∃ w' pend', OutStream.Inv B s w' pend' ∧ w' ++ pend' = w ++ pend ++ chunks.flatten := by
      intro chunks
      induction chunks with
      | nil => intro s0 w pend hi hr; simp only [outChunks] at hr; cases hr; exact ⟨w, pend, hi, by simp⟩
      | cons c cs ih =>
        intro s0 w pend hi hr
        have hav : c.length ≤ outAvail B s0 := by
          by_cases hle : c.length ≤ outAvail B s0
          · exact hle
          · exfalso
            obtain ⟨s1, h1, h2, h3, h4⟩ := OutStream.flush_spec g hi
            have : outChunk B g s0 c = none := by
              unfold outChunk OutStream.nextFill
              simp only [h1]
              have := h3.lt
              rw [if_neg (by omega), if_neg (by omega)]
            simp [outChunks, this] at hr
        obtain ⟨s1, h1, h2⟩ := OutStream.chunk_spec g hi hav
        simp only [outChunks, h1] at hr
        obtain ⟨w', p', i1, i2⟩ := ih s1 _ c h2 hr
        exact ⟨w', p', i1, by rw [i2]; simp⟩
    have hi0 : OutStream.Inv B { b := b } w [] := by
      obtain ⟨m, h1, h2, h3⟩ := hb.ex
      have := hb.lt
      exact ⟨hb, rfl, by simp only; omega, m, h1, h2, by simpa using h3⟩
    obtain ⟨w', p', h1, h2⟩ := key chunks _ w [] hi0 hs
    obtain ⟨s', h3, h4, h5, _⟩ := OutStream.flush_spec g h1
    simp only [h3] at h
    cases h
    rw [h2] at h5
    simpa using h5

/-- Some chunking always works: one byte at a time. -/
theorem serializeTo_total {B : Nat} (g : Builder.Garbage) {b : Builder} {w : Bytes}
    (hb : Builder.Inv B b w) (src : Bytes) :
    ∃ b', serializeTo B g b (src.map (fun x => [x])) = some b' := by
  have key : ∀ (src : Bytes) (s0 : OutStream) (w pend : Bytes), OutStream.Inv B s0 w pend →
      ∃ s w' pend', outChunks B g s0 (src.map (fun x => [x])) = some s ∧ OutStream.Inv B s w' pend' := by
    intro src
    induction src with
    | nil => intro s0 w pend hi; exact ⟨s0, w, pend, rfl, hi⟩
    | cons c cs ih =>
      intro s0 w pend hi
      have hB : 0 < B := by have := hi.binv.lt; omega
      obtain ⟨s1, h1, h2⟩ := OutStream.chunk_spec g hi (src := [c]) (by
        unfold outAvail
        split
        · simp; omega
        · simp; omega)
      obtain ⟨s, w', p', e1, e2⟩ := ih s1 _ [c] h2
      exact ⟨s, w', p', by simp only [List.map_cons, outChunks, h1, e1], e2⟩
  have hi0 : OutStream.Inv B { b := b } w [] := by
    obtain ⟨m, h1, h2, h3⟩ := hb.ex
    have := hb.lt
    exact ⟨hb, rfl, by simp only; omega, m, h1, h2, by simpa using h3⟩
  obtain ⟨s, w', p', h1, h2⟩ := key src _ w [] hi0
  obtain ⟨s', h3, _⟩ := OutStream.flush_spec g h2
  exact ⟨s'.b, by simp only [serializeTo, h1, h3]⟩

theorem writeFrame_spec {B : Nat} (g : Builder.Garbage) {fixed : FixedHeader} {chunks : List Bytes}
    {body att nb : NB} (hB : 16 ≤ B) (hb : body.WF) (ha : att.WF)
    (h : writeFrame B g fixed chunks body att = some nb) :
    nb.WF ∧ nb.content = fixed.encode ++ chunks.flatten ++ body.content ++ att.content := by
  unfold writeFrame at h
  obtain ⟨s0, h0, hi0, _⟩ := Builder.new_spec (B := B) g (by omega)
  simp only [h0] at h
  obtain ⟨s1, h1, hi1⟩ := Builder.reserveFill_spec g hi0 (src := fixed.encode) (by rw [encode_length]; exact hB)
  simp only [h1] at h
  split at h
  · cases h
  · rename_i b2 h2
    have hi2 := serializeTo_spec g hi1 h2
    obtain ⟨s3, h3, hi3⟩ := Builder.appendNB_spec g hi2 hb
    simp only [h3] at h
    by_cases hz : att.byteSize = 0
    · rw [if_pos hz] at h
      obtain ⟨nb', k1, k2, k3, _⟩ := Builder.destructiveGet_spec hi3
      simp only [k1] at h
      cases h
      refine ⟨k2, ?_⟩
      rw [k3, NB.content_nil_of_size ha hz]; simp
    · rw [if_neg hz] at h
      obtain ⟨s4, h4, hi4⟩ := Builder.appendNB_spec g hi3 ha
      simp only [h4] at h
      obtain ⟨nb', k1, k2, k3, _⟩ := Builder.destructiveGet_spec hi4
      rw [k1] at h; cases h
      exact ⟨k2, by rw [k3]; simp⟩

theorem writeFrame_total {B : Nat} (g : Builder.Garbage) (fixed : FixedHeader) (src : Bytes)
    {body att : NB} (hB : 16 ≤ B) (hb : body.WF) (ha : att.WF) :
    ∃ nb, writeFrame B g fixed (src.map (fun x => [x])) body att = some nb := by
  unfold writeFrame
  obtain ⟨s0, h0, hi0, _⟩ := Builder.new_spec (B := B) g (by omega)
  obtain ⟨s1, h1, hi1⟩ := Builder.reserveFill_spec g hi0 (src := fixed.encode) (by rw [encode_length]; exact hB)
  obtain ⟨s2, h2⟩ := serializeTo_total g hi1 src
  have hi2 := serializeTo_spec g hi1 h2
  obtain ⟨s3, h3, hi3⟩ := Builder.appendNB_spec g hi2 hb
  simp only [h0, h1, h2, h3]
  by_cases hz : att.byteSize = 0
  · rw [if_pos hz]
    obtain ⟨nb', k1, _⟩ := Builder.destructiveGet_spec hi3
    exact ⟨nb', k1⟩
  · rw [if_neg hz]
    obtain ⟨s4, h4, hi4⟩ := Builder.appendNB_spec g hi3 ha
    simp only [h4]
    obtain ⟨nb', k1, _⟩ := Builder.destructiveGet_spec hi4
    exact ⟨nb', k1⟩

end Verif.Trpc
