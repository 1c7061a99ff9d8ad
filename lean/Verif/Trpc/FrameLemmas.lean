import Verif.Trpc.Lemmas

namespace Verif.Trpc

open Verif.Buffer

/-- What a unary decoder must do on a flat byte string: the specification of `splitPayload`. -/
theorem splitPayload_spec {α} (pb : PBHeader α) (fixed : FixedHeader) {hdr rest : NB} (hr : rest.WF) :
    (pb.parse hdr.content = none → splitPayload pb fixed hdr rest = some .fail) ∧
    (∀ h, pb.parse hdr.content = some h →
      (rest.content.length < (pb.att h).toNat → splitPayload pb fixed hdr rest = some .fail) ∧
      ((pb.att h).toNat ≤ rest.content.length → ∃ body att,
        splitPayload pb fixed hdr rest =
          some (.ok { fixed := fixed, header := h, body := body, attachment := att }) ∧
        body.WF ∧ att.WF ∧
        body.content = rest.content.take (rest.content.length - (pb.att h).toNat) ∧
        att.content = rest.content.drop (rest.content.length - (pb.att h).toNat))) := by
  have hl := hr.content_length
  unfold splitPayload PB.parseNB
  constructor
  · intro h; simp only [h]
  · intro h hh
    simp only [hh]
    constructor
    · intro hlt; rw [if_pos (by omega)]
    · intro hle
      rw [if_neg (by omega)]
      obtain ⟨p, r, k1, k2, k3, k4, k5, _⟩ := (NB.cut_spec rest (rest.byteSize - (pb.att h).toNat) hr).1 (by omega)
      refine ⟨p, r, by rw [k1], k2, k3, by rw [k4, hl], by rw [k5, hl]⟩

/-- The fixed header and the header cut off; shared by both unary decoders. -/
theorem decode_cut_spec {nb : NB} (hw : nb.WF) (h16 : 16 ≤ nb.content.length)
    (hp : 16 + field nb.content 8 2 ≤ nb.content.length) :
    ∃ fixed nb1 hdr rest, FixedHeader.decode nb true = some (.ok fixed, nb1) ∧ WireIs nb.content fixed ∧
      nb1.cut fixed.pbHeaderSize.toNat = some (hdr, rest) ∧ rest.WF ∧
      hdr.content = (nb.content.drop 16).take (field nb.content 8 2) ∧
      rest.content = nb.content.drop (16 + field nb.content 8 2) := by
  obtain ⟨fixed, nb1, h1, h2, _, h3⟩ := (decode_spec nb hw true).2 h16
  obtain ⟨h3, h4⟩ := h3 rfl
  have hpb := h2.pbHeaderSize
  obtain ⟨p, r, k1, k2, k3, k4, k5, _⟩ := (NB.cut_spec nb1 fixed.pbHeaderSize.toNat h3).1 (by
    rw [h4, List.length_drop]; omega)
  refine ⟨fixed, nb1, p, r, h1, h2, k1, k3, by rw [k4, h4, hpb], ?_⟩
  rw [k5, h4, hpb, List.drop_drop]

/-- The flat meaning of a unary frame: header bytes, then `mid`, then an attachment. -/
structure UnarySplit {α} (pb : PBHeader α) (s : Bytes) (m : Unary α) : Prop where
  fixed : WireIs s m.fixed
  len : 16 ≤ s.length
  header : pb.parse ((s.drop 16).take (field s 8 2)) = some m.header
  headerLen : 16 + field s 8 2 ≤ s.length
  payload : s = s.take 16 ++ (s.drop 16).take (field s 8 2) ++ m.body.content ++ m.attachment.content
  attLen : m.attachment.content.length = (pb.att m.header).toNat

theorem unary_none_iff {α} (pb : PBHeader α) {nb : NB} (hw : nb.WF) :
    (decodeRequest pb nb = none ↔ 16 ≤ nb.content.length ∧ nb.content.length < 16 + field nb.content 8 2) ∧
    (decodeResponse pb nb = none ↔ 16 ≤ nb.content.length ∧ nb.content.length < 16 + field nb.content 8 2) := by
  by_cases h16 : 16 ≤ nb.content.length
  · by_cases hp : 16 + field nb.content 8 2 ≤ nb.content.length
    · obtain ⟨fixed, nb1, hdr, rest, h1, h2, h3, h4, h5, h6⟩ := decode_cut_spec hw h16 hp
      obtain ⟨k1, k2⟩ := splitPayload_spec pb fixed (hdr := hdr) h4
      have hne : splitPayload pb fixed hdr rest ≠ none := by
        cases hh : pb.parse hdr.content with
        | none => rw [k1 hh]; simp
        | some h =>
          obtain ⟨k3, k4⟩ := k2 h hh
          rcases Nat.lt_or_ge rest.content.length (pb.att h).toNat with hlt | hge
          · rw [k3 hlt]; simp
          · obtain ⟨_, _, k5, _⟩ := k4 hge
            rw [k5]; simp
      unfold decodeRequest decodeResponse
      simp only [h1, h3]
      constructor
      · constructor
        · intro h
          split at h
          · cases h
          · exact absurd h hne
        · intro h; omega
      · constructor
        · intro h; exact absurd h hne
        · intro h; omega
    · obtain ⟨fixed, nb1, h1, h2, _, h3⟩ := (decode_spec nb hw true).2 h16
      obtain ⟨h3, h4⟩ := h3 rfl
      have hcut : nb1.cut fixed.pbHeaderSize.toNat = none := by
        apply (NB.cut_spec nb1 _ h3).2
        rw [h4, List.length_drop, h2.pbHeaderSize]; omega
      unfold decodeRequest decodeResponse
      simp only [h1, hcut]
      constructor <;> constructor <;> intro h
      · exact ⟨h16, by omega⟩
      · trivial
      · exact ⟨h16, by omega⟩
      · trivial
  · have := (decode_spec nb hw true).1 (by omega)
    unfold decodeRequest decodeResponse
    simp only [this]
    constructor <;> constructor <;> intro h
    · cases h
    · omega
    · cases h
    · omega

theorem unarySplit_of_parts {α} (pb : PBHeader α) {s : Bytes} {m : Unary α} (hfix : WireIs s m.fixed)
    (h16 : 16 ≤ s.length) (hp : 16 + field s 8 2 ≤ s.length)
    (hh : pb.parse ((s.drop 16).take (field s 8 2)) = some m.header)
    (hle : (pb.att m.header).toNat ≤ (s.drop (16 + field s 8 2)).length)
    (hb : m.body.content = (s.drop (16 + field s 8 2)).take ((s.drop (16 + field s 8 2)).length - (pb.att m.header).toNat))
    (ha : m.attachment.content = (s.drop (16 + field s 8 2)).drop ((s.drop (16 + field s 8 2)).length - (pb.att m.header).toNat)) :
    UnarySplit pb s m := by
  refine ⟨hfix, h16, hh, hp, ?_, ?_⟩
  · rw [hb, ha, List.append_assoc (s.take 16 ++ _), List.take_append_drop, ← List.drop_drop, List.append_assoc,
      List.take_append_drop, List.take_append_drop]
  · rw [ha, List.length_drop]; omega

theorem decodeResponse_ok {α} (pb : PBHeader α) {nb : NB} {m : Unary α} (hw : nb.WF)
    (h : decodeResponse pb nb = some (.ok m)) :
    UnarySplit pb nb.content m ∧ m.body.WF ∧ m.attachment.WF := by
  by_cases h16 : 16 ≤ nb.content.length
  · by_cases hp : 16 + field nb.content 8 2 ≤ nb.content.length
    · obtain ⟨fixed, nb1, hdr, rest, h1, h2, h3, h4, h5, h6⟩ := decode_cut_spec hw h16 hp
      obtain ⟨k1, k2⟩ := splitPayload_spec pb fixed (hdr := hdr) h4
      unfold decodeResponse at h
      simp only [h1, h3] at h
      cases hh : pb.parse hdr.content with
      | none => rw [k1 hh] at h; cases h
      | some hd =>
        obtain ⟨k3, k4⟩ := k2 hd hh
        rcases Nat.lt_or_ge rest.content.length (pb.att hd).toNat with hlt | hge
        · rw [k3 hlt] at h; cases h
        · obtain ⟨body, att, k5, k6, k7, k8, k9⟩ := k4 hge
          rw [k5] at h; cases h
          rw [h5] at hh
          rw [h6] at hge k8 k9
          exact ⟨unarySplit_of_parts pb h2 h16 hp hh hge k8 k9, k6, k7⟩
    · have := (unary_none_iff pb hw).2.2 ⟨h16, by omega⟩
      rw [this] at h; cases h
  · have := (decode_spec nb hw true).1 (by omega)
    unfold decodeResponse at h
    simp only [this] at h
    cases h

theorem decodeRequest_eq {α} (pb : PBHeader α) {nb : NB} (hw : nb.WF) (h16 : 16 ≤ nb.content.length)
    (hp : 16 + field nb.content 8 2 ≤ nb.content.length) :
    decodeRequest pb nb =
      if field nb.content 4 4 = nb.content.length then decodeResponse pb nb else some .fail := by
  obtain ⟨fixed, nb1, hdr, rest, h1, h2, h3, h4, h5, h6⟩ := decode_cut_spec hw h16 hp
  have hrl := h4.content_length
  rw [h6, List.length_drop] at hrl
  unfold decodeRequest decodeResponse
  simp only [h1, h3]
  have e0 : prefixSpace = 16 := rfl
  have e1 := h2.dataFrameSize
  have e2 := h2.pbHeaderSize
  by_cases hf : field nb.content 4 4 = nb.content.length
  · rw [if_pos hf, if_neg (by omega)]
  · rw [if_neg hf, if_pos (by omega)]

/-- Decoding a frame with a known content. -/
theorem decodeResponse_of_content {α} (pb : PBHeader α) {nb : NB} {fixed : FixedHeader} {hb bb ab : Bytes}
    {hd : α} (hw : nb.WF) (hc : nb.content = fixed.encode ++ hb ++ bb ++ ab)
    (hp : fixed.pbHeaderSize.toNat = hb.length) (hh : pb.parse hb = some hd)
    (ha : (pb.att hd).toNat = ab.length) :
    field nb.content 4 4 = fixed.dataFrameSize.toNat ∧ field nb.content 8 2 = hb.length ∧
    ∃ body att, decodeResponse pb nb =
        some (.ok { fixed := fixed, header := hd, body := body, attachment := att }) ∧
      body.content = bb ∧ att.content = ab := by
  have hel := encode_length fixed
  have hwire : WireIs nb.content fixed := by
    rw [hc, List.append_assoc, List.append_assoc]
    exact (WireIs.append (by omega)).2 (encode_wire fixed)
  have h82 : field nb.content 8 2 = hb.length := by rw [← hwire.pbHeaderSize, hp]
  have hlen : nb.content.length = 16 + hb.length + bb.length + ab.length := by
    rw [hc]; simp [hel]; omega
  refine ⟨hwire.dataFrameSize.symm, h82, ?_⟩
  obtain ⟨fixed', nb1, hdr, rest, h1, h2, h3, h4, h5, h6⟩ := decode_cut_spec hw (by omega) (by omega)
  have := h2.unique hwire
  subst this
  have hdr16 : nb.content.drop 16 = hb ++ bb ++ ab := by
    rw [hc, List.append_assoc, List.append_assoc, ← hel, List.drop_left, List.append_assoc]
  have e5 : hdr.content = hb := by
    rw [h5, hdr16, h82, List.append_assoc, List.take_left]
  have e6 : rest.content = bb ++ ab := by
    rw [h6, h82, ← List.drop_drop, hdr16, List.append_assoc, List.drop_left]
  obtain ⟨_, k2⟩ := splitPayload_spec pb fixed' (hdr := hdr) h4
  obtain ⟨_, k4⟩ := k2 hd (by rw [e5]; exact hh)
  obtain ⟨body, att, k5, _, _, k8, k9⟩ := k4 (by rw [e6, ha]; simp)
  refine ⟨body, att, ?_, ?_, ?_⟩
  · unfold decodeResponse; simp only [h1, h3, k5]
  · rw [k8, e6, ha]; simp
  · rw [k9, e6, ha]; simp

/-! ## Stream frames -/

theorem encodeData_spec {B : Nat} (g : Builder.Garbage) (fixed : FixedHeader) {body : NB} (hB : 16 ≤ B)
    (hb : body.WF) (hk : kindOk .data fixed = true) :
    ∃ nb, encodeData B g fixed body = some (.ok nb) ∧ nb.WF ∧
      nb.content = (streamFixed fixed body.content.length).encode ++ body.content := by
  unfold encodeData
  obtain ⟨s0, h0, hi0, _⟩ := Builder.new_spec (B := B) g (by omega)
  obtain ⟨s1, h1, hi1⟩ := Builder.reserveFill_spec g hi0 (src := (streamFixed fixed body.byteSize).encode)
    (by rw [encode_length]; exact hB)
  obtain ⟨s3, h3, hi3⟩ := Builder.appendNB_spec g hi1 hb
  obtain ⟨nb', k1, k2, k3, _⟩ := Builder.destructiveGet_spec hi3
  refine ⟨nb', by simp only [hk, if_true, h0, h1, h3, k1], k2, ?_⟩
  rw [k3, hb.content_length]; simp

theorem encodeControl_spec {α} {B : Nat} (g : Builder.Garbage) (k : Kind) (pb : PB α) (fixed : FixedHeader)
    (md : α) {chunks : List Bytes} {nb : NB} (hB : 16 ≤ B) (hc : chunks.flatten = pb.ser md)
    (h : encodeControl k pb B g chunks fixed md = some (.ok nb)) :
    kindOk k fixed = true ∧ nb.WF ∧
      nb.content = (streamFixed fixed (pb.ser md).length).encode ++ pb.ser md := by
  unfold encodeControl encodeStreamFrame at h
  obtain ⟨s0, h0, hi0, _⟩ := Builder.new_spec (B := B) g (by omega)
  obtain ⟨s1, h1, hi1⟩ := Builder.reserveFill_spec g hi0
    (src := (streamFixed fixed (pb.ser md).length).encode) (by rw [encode_length]; exact hB)
  split at h
  · rename_i hk
    simp only [h0, h1] at h
    split at h
    · cases h
    · rename_i b2 h2
      have hi2 := serializeTo_spec g hi1 h2
      obtain ⟨nb', k1, k2, k3, _⟩ := Builder.destructiveGet_spec hi2
      simp only [k1] at h
      cases h
      exact ⟨hk, k2, by rw [k3, hc]; simp⟩
  · cases h

theorem encodeControl_total {α} {B : Nat} (g : Builder.Garbage) (k : Kind) (pb : PB α) (fixed : FixedHeader)
    (md : α) (hB : 16 ≤ B) (hk : kindOk k fixed = true) :
    ∃ nb, encodeControl k pb B g ((pb.ser md).map (fun x => [x])) fixed md = some (.ok nb) := by
  unfold encodeControl encodeStreamFrame
  obtain ⟨s0, h0, hi0, _⟩ := Builder.new_spec (B := B) g (by omega)
  obtain ⟨s1, h1, hi1⟩ := Builder.reserveFill_spec g hi0
    (src := (streamFixed fixed (pb.ser md).length).encode) (by rw [encode_length]; exact hB)
  obtain ⟨s2, h2⟩ := serializeTo_total g hi1 (pb.ser md)
  have hi2 := serializeTo_spec g hi1 h2
  obtain ⟨nb', k1, _⟩ := Builder.destructiveGet_spec hi2
  exact ⟨nb', by simp only [hk, if_true, h0, h1, h2, k1]⟩

/-- The stream decoders on a frame whose announced size lies between 16 and its length. -/
theorem stream_decode_spec {α} (pb : PB α) {nb : NB} (hw : nb.WF) (h16 : 16 ≤ nb.content.length)
    (hlo : 16 ≤ field nb.content 4 4) (hhi : field nb.content 4 4 ≤ nb.content.length) :
    ∃ fixed, WireIs nb.content fixed ∧
      (∃ body, decodeData nb = some (.ok (fixed, body)) ∧ body.WF ∧
        body.content = (nb.content.drop 16).take (field nb.content 4 4 - 16)) ∧
      decodeStreamFrame pb nb =
        (match pb.parse ((nb.content.drop 16).take (field nb.content 4 4 - 16)) with
         | none => some .fail
         | some m => some (.ok (fixed, m))) := by
  obtain ⟨fixed, nb1, h1, h2, _, h3⟩ := (decode_spec nb hw true).2 h16
  obtain ⟨h3, h4⟩ := h3 rfl
  have hd := h2.dataFrameSize
  have hsz : sizeSub fixed.dataFrameSize.toNat prefixSpace = field nb.content 4 4 - 16 := by
    rw [hd]
    unfold sizeSub
    exact if_pos hlo
  have hl1 := h3.content_length
  have hlen : nb1.content.length = nb.content.length - 16 := by rw [h4, List.length_drop]
  obtain ⟨p, r, k1, k2, k3, k4, k5, _⟩ := (NB.cut_spec nb1 (field nb.content 4 4 - 16) h3).1 (by omega)
  refine ⟨fixed, h2, ⟨p, ?_, k2, by rw [k4, h4]⟩, ?_⟩
  · unfold decodeData; simp only [h1, hsz, k1]
  · unfold decodeStreamFrame PB.parseNB
    simp only [h1, hsz, k1]
    rw [if_neg (by omega), k4, h4]
    cases pb.parse (List.take (field nb.content 4 4 - 16) (List.drop 16 nb.content)) <;> rfl

end Verif.Trpc
