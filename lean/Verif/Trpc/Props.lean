import Verif.Trpc.FrameLemmas
/-!
# Properties C05–C10 and C31: the tRPC wire protocol
-/

namespace Verif.Trpc

open Verif.Buffer

/-! ## C05: fixed header -/

/-- **C05, wire layout.**  The encoder produces 16 bytes in which every field is where the protocol
says and in network byte order. -/
theorem C05_header_wire_layout (h : FixedHeader) : h.encode.length = 16 ∧ WireIs h.encode h :=
  ⟨encode_length h, encode_wire h⟩

/-- **C05, round trip.**  However the bytes are spread over blocks, and whatever follows the header. -/
theorem C05_header_roundtrip (h : FixedHeader) (nb : NB) (rest : Bytes) (hw : nb.WF)
    (hc : nb.content = h.encode ++ rest) :
    (∃ nb', FixedHeader.decode nb true = some (.ok h, nb') ∧ nb'.WF ∧ nb'.content = rest) ∧
    FixedHeader.decode nb false = some (.ok h, nb) := by
  have hl := encode_length h
  have hwire : WireIs nb.content h := by rw [hc]; exact (WireIs.append (by omega)).2 (encode_wire h)
  have h16 : 16 ≤ nb.content.length := by rw [hc, List.length_append]; omega
  constructor
  · obtain ⟨h', nb', h1, h2, _, h3⟩ := (decode_spec nb hw true).2 h16
    obtain ⟨h3, h4⟩ := h3 rfl
    have := h2.unique hwire
    subst this
    refine ⟨nb', h1, h3, ?_⟩
    rw [h4, hc, ← hl, List.drop_left]
  · obtain ⟨h', nb', h1, h2, h3, _⟩ := (decode_spec nb hw false).2 h16
    have := h2.unique hwire
    subst this
    rw [h1, h3 rfl]

/-- **C05, any input.**  Fewer than 16 bytes: refused, buffer untouched.  Otherwise the fields are the
numbers at their places on the wire.  Never undefined behaviour. -/
theorem C05_header_decode_any (nb : NB) (hw : nb.WF) (skip : Bool) :
    (nb.content.length < 16 → FixedHeader.decode nb skip = some (.fail, nb)) ∧
    (16 ≤ nb.content.length → ∃ h nb', FixedHeader.decode nb skip = some (.ok h, nb') ∧
      WireIs nb.content h ∧ nb'.content = nb.content.drop (if skip then 16 else 0)) := by
  refine ⟨(decode_spec nb hw skip).1, fun h => ?_⟩
  obtain ⟨hd, nb', h1, h2, h3, h4⟩ := (decode_spec nb hw skip).2 h
  refine ⟨hd, nb', h1, h2, ?_⟩
  cases skip with
  | false => rw [h3 rfl]; simp
  | true => rw [(h4 rfl).2]; simp

def exHeader : FixedHeader :=
  { magic := 2352, dataFrameType := 1, streamFrameType := 2, dataFrameSize := 0x01020314,
    pbHeaderSize := 0x0506, streamId := 0xfffefdfc, reversed := (7, 8) }

/-- header split over three blocks, two more bytes behind. -/
def exHeaderNB : NB :=
  { byteSize := 18,
    blocks := [⟨exHeader.encode, 0, 5⟩, ⟨exHeader.encode, 5, 3⟩, ⟨exHeader.encode ++ [1, 2], 8, 10⟩] }

example : exHeaderNB.WF ∧ exHeaderNB.content = exHeader.encode ++ [1, 2] := by
  refine ⟨⟨by decide, by decide⟩, by decide⟩

/-! ## C06, C07: unary frames -/

/-- **C06.**  Encode then decode a request: same fixed fields, same header message, same body, same
attachment; for every body and attachment layout, every way protobuf chunks its output. -/
theorem C06_request_roundtrip {α} (pb : PBHeader α) (hpb : ∀ x, pb.parse (pb.ser x) = some x)
    (hatt : ∀ x n, pb.att (pb.setAtt x n) = n) (B : Nat) (hB : 16 ≤ B) (g : Builder.Garbage) (m : Unary α)
    (hbw : m.body.WF) (haw : m.attachment.WF)
    (hh : (pb.ser (sentHeader pb m)).length < 2 ^ 16)
    (ht : 16 + (pb.ser (sentHeader pb m)).length + m.body.content.length + m.attachment.content.length < 2 ^ 32)
    (chunks : List Bytes) (hc : chunks.flatten = pb.ser (sentHeader pb m)) (nb : NB)
    (he : encodeRequest pb B g chunks m = some nb) :
    nb.content.length = 16 + (pb.ser (sentHeader pb m)).length + m.body.content.length +
        m.attachment.content.length ∧
    field nb.content 4 4 = nb.content.length ∧
    ∃ m', decodeRequest pb nb = some (.ok m') ∧
      m'.header = pb.setAtt m.header (UInt32.ofNat m.attachment.content.length) ∧
      m'.body.content = m.body.content ∧ m'.attachment.content = m.attachment.content ∧
      m'.fixed.magic = m.fixed.magic ∧ m'.fixed.dataFrameType = m.fixed.dataFrameType ∧
      m'.fixed.streamFrameType = m.fixed.streamFrameType ∧ m'.fixed.streamId = m.fixed.streamId ∧
      m'.fixed.reversed = m.fixed.reversed := by
  obtain ⟨hw, hcon⟩ := writeFrame_spec g hB hbw haw he
  rw [hc] at hcon
  have hbl := hbw.content_length
  have hal := haw.content_length
  have hel := encode_length (requestFixed pb m)
  have hlen : nb.content.length = 16 + (pb.ser (sentHeader pb m)).length + m.body.content.length +
      m.attachment.content.length := by
    rw [hcon]; simp [hel]; omega
  obtain ⟨k1, k2, body, att, k3, k4, k5⟩ := decodeResponse_of_content pb hw hcon (hd := sentHeader pb m)
    (by simp only [requestFixed, UInt16.toNat_ofNat']; rw [Nat.mod_eq_of_lt hh])
    (hpb _)
    (by
      unfold sentHeader
      rw [hatt, UInt32.toNat_ofNat', Nat.mod_eq_of_lt (by omega), hal])
  have hsz : field nb.content 4 4 = nb.content.length := by
    rw [k1, hlen]
    simp only [requestFixed, UInt32.toNat_ofNat', prefixSpace]
    rw [← hbl, ← hal, Nat.mod_eq_of_lt ht]
  refine ⟨hlen, hsz, ⟨requestFixed pb m, sentHeader pb m, body, att⟩, ?_, ?_, k4, k5, rfl, rfl, rfl, rfl, rfl⟩
  · rw [decodeRequest_eq pb hw (by omega) (by omega), if_pos hsz, k3]
  · simp only [sentHeader, hal]

/-- **C06, the encoder always finishes** (for some behaviour of protobuf: writing byte by byte). -/
theorem C06_request_encode_total {α} (pb : PBHeader α) (B : Nat) (hB : 16 ≤ B) (g : Builder.Garbage)
    (m : Unary α) (hbw : m.body.WF) (haw : m.attachment.WF) :
    ∃ chunks nb, chunks.flatten = pb.ser (sentHeader pb m) ∧ encodeRequest pb B g chunks m = some nb := by
  obtain ⟨nb, h⟩ := writeFrame_total g (requestFixed pb m) (pb.ser (sentHeader pb m)) hB hbw haw
  refine ⟨_, nb, ?_, h⟩
  generalize pb.ser (sentHeader pb m) = l
  induction l with
  | nil => rfl
  | cons x xs ih => simpa using ih

/-- **C06, accepted requests.**  Whatever bytes a request decoder accepts, they are fixed header,
header message, body and attachment, contiguous, nothing lost, nothing shared, and the announced frame
size is the size of the input. -/
theorem C06_request_accepts_only_exact_split {α} (pb : PBHeader α) (nb : NB) (m : Unary α) (hw : nb.WF)
    (h : decodeRequest pb nb = some (.ok m)) :
    WireIs nb.content m.fixed ∧
    (∃ hb, pb.parse hb = some m.header ∧ hb.length = m.fixed.pbHeaderSize.toNat ∧
      nb.content = nb.content.take 16 ++ hb ++ m.body.content ++ m.attachment.content) ∧
    m.attachment.content.length = (pb.att m.header).toNat ∧
    m.fixed.dataFrameSize.toNat = nb.content.length := by
  by_cases h16 : 16 ≤ nb.content.length
  · by_cases hp : 16 + field nb.content 8 2 ≤ nb.content.length
    · rw [decodeRequest_eq pb hw h16 hp] at h
      split at h
      · rename_i hsz
        obtain ⟨hs, _, _⟩ := decodeResponse_ok pb hw h
        refine ⟨hs.fixed, ⟨_, hs.header, ?_, hs.payload⟩, hs.attLen, by rw [hs.fixed.dataFrameSize, hsz]⟩
        rw [hs.fixed.pbHeaderSize, List.length_take, List.length_drop]; omega
      · cases h
    · rw [(unary_none_iff pb hw).1.2 ⟨h16, by omega⟩] at h; cases h
  · unfold decodeRequest at h
    rw [(decode_spec nb hw true).1 (by omega)] at h
    cases h

/-- **C07.**  Encode then decode a response. -/
theorem C07_response_roundtrip {α} (pb : PBHeader α) (hpb : ∀ x, pb.parse (pb.ser x) = some x)
    (hatt : ∀ x n, pb.att (pb.setAtt x n) = n) (B : Nat) (hB : 16 ≤ B) (g : Builder.Garbage) (m : Unary α)
    (hbw : m.body.WF) (haw : m.attachment.WF)
    (hh : (pb.ser (sentHeader pb m)).length < 2 ^ 16)
    (ht : 16 + (pb.ser (sentHeader pb m)).length + m.body.content.length + m.attachment.content.length < 2 ^ 32)
    (chunks : List Bytes) (hc : chunks.flatten = pb.ser (sentHeader pb m)) (nb : NB)
    (he : encodeResponse pb B g chunks m = some nb) :
    nb.content.length = 16 + (pb.ser (sentHeader pb m)).length + m.body.content.length +
        m.attachment.content.length ∧
    field nb.content 4 4 = nb.content.length ∧
    ∃ m', decodeResponse pb nb = some (.ok m') ∧
      m'.header = pb.setAtt m.header (UInt32.ofNat m.attachment.content.length) ∧
      m'.body.content = m.body.content ∧ m'.attachment.content = m.attachment.content ∧
      m'.fixed.magic = m.fixed.magic ∧ m'.fixed.dataFrameType = m.fixed.dataFrameType ∧
      m'.fixed.streamFrameType = m.fixed.streamFrameType ∧ m'.fixed.streamId = m.fixed.streamId ∧
      m'.fixed.reversed = m.fixed.reversed := by
  obtain ⟨hw, hcon⟩ := writeFrame_spec g hB hbw haw he
  rw [hc] at hcon
  have hbl := hbw.content_length
  have hal := haw.content_length
  have hel := encode_length (responseFixed pb m)
  have hn : (UInt32.ofNat (pb.ser (sentHeader pb m)).length).toNat = (pb.ser (sentHeader pb m)).length := by
    rw [UInt32.toNat_ofNat', Nat.mod_eq_of_lt (by omega)]
  have hlen : nb.content.length = 16 + (pb.ser (sentHeader pb m)).length + m.body.content.length +
      m.attachment.content.length := by
    rw [hcon]; simp [hel]; omega
  obtain ⟨k1, k2, body, att, k3, k4, k5⟩ := decodeResponse_of_content pb hw hcon (hd := sentHeader pb m)
    (by simp only [responseFixed, UInt16.toNat_ofNat', hn]; rw [Nat.mod_eq_of_lt hh])
    (hpb _)
    (by
      unfold sentHeader
      rw [hatt, UInt32.toNat_ofNat', Nat.mod_eq_of_lt (by omega), hal])
  have hsz : field nb.content 4 4 = nb.content.length := by
    rw [k1, hlen]
    simp only [responseFixed, UInt32.toNat_ofNat', prefixSpace, hn]
    rw [← hbl, ← hal, Nat.mod_eq_of_lt ht]
  refine ⟨hlen, hsz, _, k3, ?_, k4, k5, rfl, rfl, rfl, rfl, rfl⟩
  simp only [sentHeader, hal]

/-- **C07, the encoder always finishes.** -/
theorem C07_response_encode_total {α} (pb : PBHeader α) (B : Nat) (hB : 16 ≤ B) (g : Builder.Garbage)
    (m : Unary α) (hbw : m.body.WF) (haw : m.attachment.WF) :
    ∃ chunks nb, chunks.flatten = pb.ser (sentHeader pb m) ∧ encodeResponse pb B g chunks m = some nb := by
  obtain ⟨nb, h⟩ := writeFrame_total g (responseFixed pb m) (pb.ser (sentHeader pb m)) hB hbw haw
  refine ⟨_, nb, ?_, h⟩
  generalize pb.ser (sentHeader pb m) = l
  induction l with
  | nil => rfl
  | cons x xs ih => simpa using ih

/-- **C07, accepted responses** split their input without loss. -/
theorem C07_response_accepts_only_exact_split {α} (pb : PBHeader α) (nb : NB) (m : Unary α) (hw : nb.WF)
    (h : decodeResponse pb nb = some (.ok m)) :
    WireIs nb.content m.fixed ∧
    (∃ hb, pb.parse hb = some m.header ∧ hb.length = m.fixed.pbHeaderSize.toNat ∧
      nb.content = nb.content.take 16 ++ hb ++ m.body.content ++ m.attachment.content) ∧
    m.attachment.content.length = (pb.att m.header).toNat := by
  obtain ⟨hs, _, _⟩ := decodeResponse_ok pb hw h
  refine ⟨hs.fixed, ⟨_, hs.header, ?_, hs.payload⟩, hs.attLen⟩
  have := hs.headerLen
  rw [hs.fixed.pbHeaderSize, List.length_take, List.length_drop]; omega

/-- A small message type in the style of proto3: an `attachment_size` and a payload; the message with
default values is the empty byte string. -/
def exPB : PBHeader (UInt32 × Bytes) where
  ser := fun x => if x = (0, []) then [] else store32 x.1 ++ x.2
  parse := fun s => match s with
    | [] => some (0, [])
    | a :: b :: c :: d :: t => (load32 [a, b, c, d] 0).map (·, t)
    | _ => none
  att := fun x => x.1
  setAtt := fun x n => (n, x.2)

theorem load32_store32 (x : UInt32) : load32 (store32 x) 0 = some x := by
  have h := x.toNat_lt
  have e : load32 (store32 x) 0 = some (UInt32.ofNat ((UInt8.ofNat (x.toNat % 256)).toNat +
    (UInt8.ofNat (x.toNat / 256 % 256)).toNat * 256 + (UInt8.ofNat (x.toNat / 65536 % 256)).toNat * 65536 +
    (UInt8.ofNat (x.toNat / 16777216)).toNat * 16777216)) := rfl
  rw [e]
  congr 1
  apply UInt32.toNat_inj.1
  simp only [UInt8.toNat_ofNat']
  rw [UInt32.toNat_ofNat', Nat.mod_eq_of_lt (by omega)]
  omega

theorem exPB_roundtrip (x : UInt32 × Bytes) : exPB.parse (exPB.ser x) = some x := by
  obtain ⟨n, p⟩ := x
  by_cases h : (n, p) = ((0, []) : UInt32 × Bytes)
  · rw [h]; rfl
  · simp only [exPB, if_neg h]
    have := load32_store32 n
    simp only [store32] at this ⊢
    simp only [List.cons_append, List.nil_append, this, Option.map_some]

/-- the hypotheses of C06/C07 are met by a body in two blocks and an attachment, block size 24 (the
frame is spread over several blocks). -/
example : (∀ x, exPB.parse (exPB.ser x) = some x) ∧ (∀ x n, exPB.att (exPB.setAtt x n) = n) ∧
    (let m : Unary (UInt32 × Bytes) :=
      { fixed := exHeader, header := (0, [1, 2, 3]), body := exNB, attachment := exNB }
     m.body.WF ∧ m.attachment.WF ∧ (exPB.ser (sentHeader exPB m)).length < 2 ^ 16 ∧
     (encodeRequest exPB 24 (fun _ => 0) ((exPB.ser (sentHeader exPB m)).map ([·])) m).isSome) := by
  refine ⟨exPB_roundtrip, fun _ _ => rfl, exNB_WF, exNB_WF, by decide, ?_⟩
  obtain ⟨nb, h⟩ := writeFrame_total (B := 24) (fun _ => 0)
    (requestFixed exPB { fixed := exHeader, header := (0, [1, 2, 3]), body := exNB, attachment := exNB })
    (exPB.ser (sentHeader exPB { fixed := exHeader, header := (0, [1, 2, 3]), body := exNB, attachment := exNB }))
    (body := exNB) (att := exNB) (by decide) exNB_WF exNB_WF
  show (writeFrame _ _ _ _ _ _).isSome
  rw [h]; rfl

/-- **C31, deviation.**  A request whose header message serialises to exactly 65536 bytes is encoded
without an error into a frame that the decoder accepts — as the default header with the whole header
message prepended to the body and the attachment appended to it.  (`hdef`: as in proto3, zero bytes
parse to the default message, whose `attachment_size` is 0.) -/
theorem C31_oversized_header_misdecodes {α} (pb : PBHeader α) (dflt : α) (hdef : pb.parse [] = some dflt)
    (hda : pb.att dflt = 0) (B : Nat) (hB : 16 ≤ B) (g : Builder.Garbage) (m : Unary α)
    (hbw : m.body.WF) (haw : m.attachment.WF) (hh : (pb.ser (sentHeader pb m)).length = 2 ^ 16)
    (ht : 16 + 2 ^ 16 + m.body.content.length + m.attachment.content.length < 2 ^ 32)
    (chunks : List Bytes) (hc : chunks.flatten = pb.ser (sentHeader pb m)) (nb : NB)
    (he : encodeRequest pb B g chunks m = some nb) :
    ∃ m', decodeRequest pb nb = some (.ok m') ∧ m'.header = dflt ∧
      m'.body.content = pb.ser (sentHeader pb m) ++ m.body.content ++ m.attachment.content ∧
      m'.attachment.content = [] := by
  obtain ⟨hw, hcon⟩ := writeFrame_spec g hB hbw haw he
  rw [hc] at hcon
  have hbl := hbw.content_length
  have hal := haw.content_length
  have hel := encode_length (requestFixed pb m)
  have hlen : nb.content.length = 16 + (pb.ser (sentHeader pb m)).length + m.body.content.length +
      m.attachment.content.length := by
    rw [hcon]; simp [hel]; omega
  obtain ⟨k1, k2, body, att, k3, k4, k5⟩ := decodeResponse_of_content pb (hd := dflt)
    (fixed := requestFixed pb m) (hb := []) (ab := [])
    (bb := pb.ser (sentHeader pb m) ++ m.body.content ++ m.attachment.content) hw
    (by rw [hcon]; simp)
    (by simp only [requestFixed, UInt16.toNat_ofNat', hh]; rfl) hdef (by rw [hda]; rfl)
  have hsz : field nb.content 4 4 = nb.content.length := by
    rw [k1, hlen]
    simp only [requestFixed, UInt32.toNat_ofNat', prefixSpace, hh]
    rw [← hbl, ← hal, Nat.mod_eq_of_lt ht]
  refine ⟨⟨requestFixed pb m, dflt, body, att⟩, ?_, rfl, k4, k5⟩
  rw [decodeRequest_eq pb hw (by omega) (by rw [k2]; simp; omega), if_pos hsz, k3]

/-- the deviation is reachable: such a header exists, and the encoder succeeds on it. -/
example : exPB.parse [] = some (0, []) ∧ exPB.att (0, []) = 0 ∧
    (exPB.ser (sentHeader exPB ⟨exHeader, (0, List.replicate 65532 0), {}, exNB⟩)).length = 2 ^ 16 ∧
    ∃ chunks nb, chunks.flatten = exPB.ser (sentHeader exPB ⟨exHeader, (0, List.replicate 65532 0), {}, exNB⟩) ∧
      encodeRequest exPB 4096 (fun _ => 0) chunks ⟨exHeader, (0, List.replicate 65532 0), {}, exNB⟩ = some nb := by
  refine ⟨rfl, rfl, ?_, C06_request_encode_total exPB 4096 (by decide) _ _ NB.WF_empty exNB_WF⟩
  have : ¬ ((UInt32.ofNat exNB.byteSize, List.replicate 65532 (0 : UInt8)) = ((0, []) : UInt32 × Bytes)) := by
    intro h
    have := congrArg Prod.fst h
    revert this; decide
  simp only [sentHeader, exPB]
  rw [if_neg this, List.length_append, List.length_replicate]
  rfl

/-! ## C08: stream frames -/

/-- **C08, DATA.** -/
theorem C08_data_roundtrip (B : Nat) (hB : 16 ≤ B) (g : Builder.Garbage) (fixed : FixedHeader) (body : NB)
    (hb : body.WF) (hk : fixed.dataFrameType = 1 ∧ fixed.streamFrameType = 2)
    (hl : 16 + body.content.length < 2 ^ 32) :
    ∃ nb, encodeData B g fixed body = some (.ok nb) ∧ nb.content.length = 16 + body.content.length ∧
      ∃ f b, decodeData nb = some (.ok (f, b)) ∧ b.content = body.content ∧ f.streamId = fixed.streamId ∧
        f.dataFrameType = 1 ∧ f.streamFrameType = 2 ∧ f.dataFrameSize.toNat = nb.content.length := by
  have hk' : kindOk .data fixed = true := by simp [kindOk, Kind.code, hk.1, hk.2]
  obtain ⟨nb, h1, h2, h3⟩ := encodeData_spec g fixed hB hb hk'
  have hel := encode_length (streamFixed fixed body.content.length)
  have hlen : nb.content.length = 16 + body.content.length := by rw [h3]; simp [hel]
  have hwire : WireIs nb.content (streamFixed fixed body.content.length) := by
    rw [h3]; exact (WireIs.append (by omega)).2 (encode_wire _)
  have hds : (streamFixed fixed body.content.length).dataFrameSize.toNat = nb.content.length := by
    simp only [streamFixed, UInt32.toNat_ofNat', prefixSpace]
    rw [Nat.mod_eq_of_lt hl, hlen]
  have h44 := hwire.dataFrameSize
  obtain ⟨f, w, ⟨b, d1, d2, d3⟩, _⟩ := stream_decode_spec (⟨fun _ : Unit => [], fun _ => none⟩ : PB Unit) h2
    (by omega) (by omega) (by omega)
  have := w.unique hwire
  subst this
  refine ⟨nb, h1, hlen, _, b, d1, ?_, rfl, hk.1, hk.2, hds⟩
  rw [d3, ← h44, hds, hlen, h3, ← hel, List.drop_left]
  simp

/-- **C08, control frames** (INIT, FEEDBACK, CLOSE).  Round trip, for every behaviour of protobuf. -/
theorem C08_control_roundtrip {α} (k : Kind) (pb : PB α) (hpb : ∀ x, pb.parse (pb.ser x) = some x) (B : Nat)
    (hB : 16 ≤ B) (g : Builder.Garbage) (fixed : FixedHeader) (md : α)
    (hl : 16 + (pb.ser md).length < 2 ^ 32) (chunks : List Bytes) (hc : chunks.flatten = pb.ser md) (nb : NB)
    (he : encodeControl k pb B g chunks fixed md = some (.ok nb)) :
    nb.content.length = 16 + (pb.ser md).length ∧
    ∃ f, decodeControl k pb nb = some (.ok (f, md)) ∧ f.streamId = fixed.streamId ∧
      f.dataFrameType = 1 ∧ f.streamFrameType = k.code ∧ f.dataFrameSize.toNat = nb.content.length := by
  obtain ⟨hk, h2, h3⟩ := encodeControl_spec g k pb fixed md hB hc he
  have hel := encode_length (streamFixed fixed (pb.ser md).length)
  have hlen : nb.content.length = 16 + (pb.ser md).length := by rw [h3]; simp [hel]
  have hwire : WireIs nb.content (streamFixed fixed (pb.ser md).length) := by
    rw [h3]; exact (WireIs.append (by omega)).2 (encode_wire _)
  have hds : (streamFixed fixed (pb.ser md).length).dataFrameSize.toNat = nb.content.length := by
    simp only [streamFixed, UInt32.toNat_ofNat', prefixSpace]
    rw [Nat.mod_eq_of_lt hl, hlen]
  have h44 := hwire.dataFrameSize
  obtain ⟨f, w, _, d⟩ := stream_decode_spec pb h2 (by omega) (by omega) (by omega)
  have := w.unique hwire
  subst this
  have hk2 := hk
  simp only [kindOk, Bool.and_eq_true, beq_iff_eq] at hk2
  refine ⟨hlen, streamFixed fixed (pb.ser md).length, ?_, rfl, hk2.1, hk2.2, hds⟩
  have hp : (nb.content.drop 16).take (field nb.content 4 4 - 16) = pb.ser md := by
    rw [← h44, hds, hlen, h3, ← hel, List.drop_left]; simp
  rw [hp, hpb] at d
  have hk3 : kindOk k (streamFixed fixed (pb.ser md).length) = true := by
    simp [kindOk, streamFixed, hk2.1, hk2.2]
  simp only [decodeControl, d, hk3, if_true]

/-- **C08, control frames can be encoded** exactly when the kind fields are right. -/
theorem C08_control_encode_total {α} (k : Kind) (pb : PB α) (B : Nat) (hB : 16 ≤ B) (g : Builder.Garbage)
    (fixed : FixedHeader) (md : α) :
    (fixed.dataFrameType = 1 ∧ fixed.streamFrameType = k.code →
      ∃ chunks nb, chunks.flatten = pb.ser md ∧ encodeControl k pb B g chunks fixed md = some (.ok nb)) ∧
    (¬ (fixed.dataFrameType = 1 ∧ fixed.streamFrameType = k.code) →
      ∀ chunks, encodeControl k pb B g chunks fixed md = some .fail) := by
  constructor
  · intro h
    obtain ⟨nb, hn⟩ := encodeControl_total g k pb fixed md hB (by simp [kindOk, h.1, h.2])
    refine ⟨_, nb, ?_, hn⟩
    generalize pb.ser md = l
    induction l with
    | nil => rfl
    | cons x xs ih => simpa using ih
  · intro h chunks
    unfold encodeControl
    rw [if_neg]
    simpa [kindOk] using h

/-- **C08, no confusion.**  Whatever the bytes, a control-frame decoder accepts only frames whose
header says "stream frame" and its own kind — in particular never a frame of another kind. -/
theorem C08_control_kinds_not_confused {α} (k : Kind) (pb : PB α) (nb : NB) (hw : nb.WF) (f : FixedHeader)
    (md : α) (h : decodeControl k pb nb = some (.ok (f, md))) :
    field nb.content 2 1 = 1 ∧ field nb.content 3 1 = k.code.toNat ∧
    ∀ k', decodeControl k' pb nb = some (.ok (f, md)) → k' = k := by
  have key : ∀ k, decodeControl k pb nb = some (.ok (f, md)) → kindOk k f = true := by
    intro k h
    unfold decodeControl at h
    split at h
    · cases h
    · cases h
    · rename_i r hr
      split at h
      · rename_i hk; cases h; exact hk
      · cases h
  have hk := key k h
  simp only [kindOk, Bool.and_eq_true, beq_iff_eq] at hk
  have hwire : WireIs nb.content f := by
    unfold decodeControl at h
    split at h
    · cases h
    · cases h
    · rename_i r hr
      split at h
      · cases h
        unfold decodeStreamFrame at hr
        by_cases h16 : 16 ≤ nb.content.length
        · obtain ⟨fixed, nb1, h1, h2, _, h3⟩ := (decode_spec nb hw true).2 h16
          simp only [h1] at hr
          split at hr
          · cases hr
          · split at hr
            · cases hr
            · split at hr
              · cases hr
              · cases hr; exact h2
        · simp only [(decode_spec nb hw true).1 (by omega)] at hr
          cases hr
      · cases h
  refine ⟨by rw [← hwire.dataFrameType, hk.1]; rfl, by rw [← hwire.streamFrameType, hk.2], ?_⟩
  intro k' h'
  have hk' := key k' h'
  simp only [kindOk, Bool.and_eq_true, beq_iff_eq] at hk'
  have : k'.code = k.code := hk'.2.symm.trans hk.2
  revert this
  cases k <;> cases k' <;> decide

example : (∀ x, (⟨fun s => s, some⟩ : PB Bytes).parse ((⟨fun s => s, some⟩ : PB Bytes).ser x) = some x) ∧
    ∃ chunks nb, chunks.flatten = [1, 2, 3] ∧
      encodeControl .feedback (⟨fun s => s, some⟩ : PB Bytes) 20 (fun _ => 0) chunks
        { exHeader with streamFrameType := 3 } [1, 2, 3] = some (.ok nb) :=
  ⟨fun _ => rfl, (C08_control_encode_total .feedback (⟨fun s => s, some⟩ : PB Bytes) 20 (by decide) (fun _ => 0)
    { exHeader with streamFrameType := 3 } [1, 2, 3]).1 ⟨rfl, rfl⟩⟩

/-! ## C09, C10: the protocol checker -/

/-- **C10.**  For every input below 4 GiB and every maximum packet size the checker terminates without
undefined behaviour; its output frames followed by the buffer it leaves are the input; each frame is
complete, within the limit and as long as its header announces; an error is reported exactly when the
next header must be refused; `PACKET_FULL` exactly when there is a frame. -/
theorem C10_checker_frames_any_input (conn : Option UInt32) (nb : NB) (hw : nb.WF)
    (hl : nb.content.length < 2 ^ 32) :
    ∃ st rest frames bad, check conn nb [] = some (st, rest, frames) ∧
      Framing (conn.map UInt32.toNat) nb.content (frames.map NB.content) rest.content bad ∧
      (st = .err ↔ bad = true) ∧ (st = .less ↔ bad = false ∧ frames = []) ∧
      (st = .full ↔ bad = false ∧ frames ≠ []) := by
  obtain ⟨rest, frames, bad, h1, h2, h3, h4, h5⟩ := check_spec conn _ nb [] rfl hw
    (by rw [← hw.content_length]; exact hl)
  refine ⟨_, rest, frames, bad, h1, h4, ?_⟩
  simp only [List.nil_append, status]
  cases bad with
  | true => simp
  | false =>
    by_cases hf : frames = []
    · simp [hf]
    · simp [hf]

/-- **C10, uniqueness of the specification**: a byte string has at most one framing. -/
theorem C10_framing_unique (mx : Option Nat) (s : Bytes) (f f' : List Bytes) (r r' : Bytes) (b b' : Bool)
    (h : Framing mx s f r b) (h' : Framing mx s f' r' b') : f = f' ∧ r = r' ∧ b = b' :=
  h.unique h'

/-- **C10, what the checker lets through is safe to decode**: no decoder runs into undefined behaviour
on a frame that passed the checker. -/
theorem C10_checked_frames_decode_safely {α β} (pb : PBHeader α) (pbs : PB β) (k : Kind) (mx : Option Nat)
    (f : NB) (hw : f.WF) (hf : IsFrame mx f.content) :
    decodeRequest pb f ≠ none ∧ decodeResponse pb f ≠ none ∧ decodeData f ≠ none ∧
    decodeControl k pbs f ≠ none ∧ pick f ≠ none := by
  obtain ⟨⟨g1, g2, g3, g4⟩, hlen⟩ := hf
  obtain ⟨u1, u2⟩ := unary_none_iff pb hw
  obtain ⟨fixed, w, ⟨body, d1, _⟩, d2⟩ := stream_decode_spec pbs hw g1 (by omega) (by omega)
  refine ⟨fun h => ?_, fun h => ?_, by rw [d1]; simp, ?_, ?_⟩
  · have := u1.1 h; omega
  · have := u2.1 h; omega
  · unfold decodeControl
    rw [d2]
    split
    · rename_i h
      split at h <;> cases h
    · simp
    · split <;> simp
  · obtain ⟨h, nb', h1, _⟩ := (decode_spec f hw false).2 g1
    unfold pick
    rw [h1]; simp

/-- **C10, deviation at 4 GiB.**  The buffer size is truncated to 32 bits: with a multiple of 4 GiB
buffered the checker reports "not enough data" whatever the content. -/
theorem C10_four_gib_buffer_reports_less (conn : Option UInt32) (nb : NB) (h : nb.byteSize % 2 ^ 32 < 16) :
    check conn nb [] = some (.less, nb, []) := by
  unfold check
  have : UInt32.ofNat nb.byteSize < UInt32.ofNat prefixSpace := by
    rw [UInt32.lt_iff_toNat_lt, UInt32.toNat_ofNat', UInt32.toNat_ofNat']
    exact h
  simp only [if_pos this]
  rfl

/-- two complete frames and the beginning of a third one. -/
def exFrame1 : Bytes := { exHeader with dataFrameSize := 18, pbHeaderSize := 1 : FixedHeader }.encode ++ [1, 2]
def exFrame2 : Bytes := { exHeader with dataFrameSize := 16, pbHeaderSize := 0 : FixedHeader }.encode

example : Framing (some 1000) (exFrame1 ++ exFrame2 ++ [9, 48, 0]) [exFrame1, exFrame2] [9, 48, 0] false := by
  refine ⟨by simp, ?_, by simp [Incomplete]⟩
  intro f hf
  simp at hf
  rcases hf with rfl | rfl <;> refine ⟨⟨by decide, by decide, by decide, ?_⟩, by decide⟩ <;>
    (intro m hm; cases hm; decide)

/-- One read, given what was framed before. -/
theorem onRead_spec (mx : UInt32) {s : Bytes} {frames : List Bytes} {kept chunk : NB} (hk : kept.WF)
    (hkc : kept.contiguous = false) (hc : chunk.WF)
    (hf : Framing (some mx.toNat) s frames kept.content false)
    (hl : chunk.content.length + max 16 mx.toNat ≤ 2 ^ 32) :
    ∃ rest out bad, onRead (some mx) kept chunk = some (status bad out, rest, out) ∧ rest.WF ∧
      rest.contiguous = false ∧
      Framing (some mx.toNat) (s ++ chunk.content) (frames ++ out.map NB.content) rest.content bad := by
  have hkl : kept.content.length < max 16 mx.toNat := by
    have := hf.rest
    simp only [Bool.false_eq_true, if_false] at this
    rcases this with h | ⟨⟨_, _, _, h⟩, h2⟩
    · omega
    · have := h _ rfl; omega
  have happ : kept.appendNB chunk = some { kept with byteSize := kept.byteSize + chunk.byteSize, blocks := kept.blocks ++ chunk.blocks } := by
    simp [NB.appendNB, hkc]
  obtain ⟨w1, w2, w3⟩ := NB.appendNB_spec hk hc happ
  obtain ⟨rest, out, bad, h1, h2, _, h4, h5⟩ := check_spec (some mx) _ _ [] rfl w1 (by
    rw [← w1.content_length, w2, List.length_append]; omega)
  refine ⟨rest, out, bad, ?_, h2, h5 (by rw [w3]; exact hkc), hf.extend (by rw [← w2]; exact h4)⟩
  unfold onRead
  simp only [happ]
  simpa using h1

/-- **C09.**  Feed a connection the stream in arbitrary reads (each leaving the buffer below 4 GiB: that
is guaranteed if a read together with one maximal packet is).  The messages put in the queue are
exactly the frames of the whole stream, in order; the bytes kept (and not yet read) are exactly its
tail; an error is reported iff the whole stream has a refused header. -/
theorem C09_segmentation (mx : UInt32) (chunks : List NB) (hc : ∀ c ∈ chunks, c.WF)
    (hl : ∀ c ∈ chunks, c.content.length + max 16 mx.toNat ≤ 2 ^ 32) :
    ∃ outs rest bad unread, feed (some mx) NB.empty chunks = some (outs, rest, bad, unread) ∧
      Framing (some mx.toNat) (contents chunks) (outs.map NB.content) (rest.content ++ contents unread) bad ∧
      (bad = false → unread = []) := by
  have key : ∀ (chunks : List NB) (kept : NB) (s : Bytes) (frames : List Bytes), (∀ c ∈ chunks, c.WF) →
      (∀ c ∈ chunks, c.content.length + max 16 mx.toNat ≤ 2 ^ 32) → kept.WF → kept.contiguous = false →
      Framing (some mx.toNat) s frames kept.content false →
      ∃ outs rest bad unread, feed (some mx) kept chunks = some (outs, rest, bad, unread) ∧
        Framing (some mx.toNat) (s ++ contents chunks) (frames ++ outs.map NB.content)
          (rest.content ++ contents unread) bad ∧ (bad = false → unread = []) := by
    intro chunks
    induction chunks with
    | nil =>
      intro kept s frames _ _ _ _ hf
      exact ⟨[], kept, false, [], rfl, by simpa [contents] using hf, fun _ => rfl⟩
    | cons c cs ih =>
      intro kept s frames hc hl hk hkc hf
      obtain ⟨rest, out, bad, h1, h2, h3, h4⟩ := onRead_spec mx hk hkc (hc c (by simp)) hf (hl c (by simp))
      cases bad with
      | true =>
        refine ⟨out, rest, true, cs, ?_, ?_, by simp⟩
        · simp only [feed, h1, status, if_true]
        · have := h4.bad_append (t := contents cs)
          simpa [contents] using this
      | false =>
        obtain ⟨outs, rest', bad', unread, k1, k2, k3⟩ := ih rest _ _ (fun x hx => hc x (by simp [hx]))
          (fun x hx => hl x (by simp [hx])) h2 h3 h4
        refine ⟨out ++ outs, rest', bad', unread, ?_, ?_, k3⟩
        · by_cases ho : out = []
          · simp [feed, h1, status, ho, k1]
          · simp [feed, h1, status, ho, k1]
        · simpa [contents] using k2
  have := key chunks NB.empty [] [] hc hl NB.WF_empty rfl
    (Framing.nil_iff.2 ⟨rfl, Or.inl (by decide)⟩)
  simpa using this

/-- **C09, independence.**  Two ways of cutting the same stream give the same messages and the same
verdict. -/
theorem C09_segmentation_independent (mx : UInt32) (cs cs' : List NB)
    (hc : ∀ c ∈ cs ++ cs', c.WF ∧ c.content.length + max 16 mx.toNat ≤ 2 ^ 32)
    (hsame : contents cs = contents cs') :
    ∃ outs rest bad unread outs' rest' unread',
      feed (some mx) NB.empty cs = some (outs, rest, bad, unread) ∧
      feed (some mx) NB.empty cs' = some (outs', rest', bad, unread') ∧
      outs.map NB.content = outs'.map NB.content ∧
      (bad = false → rest.content = rest'.content) := by
  obtain ⟨o, r, b, u, h1, h2, h3⟩ := C09_segmentation mx cs (fun c h => (hc c (by simp [h])).1)
    (fun c h => (hc c (by simp [h])).2)
  obtain ⟨o', r', b', u', k1, k2, k3⟩ := C09_segmentation mx cs' (fun c h => (hc c (by simp [h])).1)
    (fun c h => (hc c (by simp [h])).2)
  rw [← hsame] at k2
  obtain ⟨e1, e2, e3⟩ := h2.unique k2
  subst e3
  refine ⟨o, r, b, u, o', r', u', h1, k1, e1, fun hb => ?_⟩
  rw [h3 hb, k3 hb] at e2
  simpa [contents] using e2

/-- **C09, well-formed streams.**  A stream of complete frames (within the limit) followed by an
incomplete tail yields exactly these frames, without an error. -/
theorem C09_concatenated_frames (mx : UInt32) (frames : List Bytes) (tail : Bytes) (chunks : List NB)
    (hf : ∀ f ∈ frames, IsFrame (some mx.toNat) f) (ht : Incomplete (some mx.toNat) tail)
    (hcs : contents chunks = frames.flatten ++ tail) (hc : ∀ c ∈ chunks, c.WF)
    (hl : ∀ c ∈ chunks, c.content.length + max 16 mx.toNat ≤ 2 ^ 32) :
    ∃ outs rest, feed (some mx) NB.empty chunks = some (outs, rest, false, []) ∧
      outs.map NB.content = frames ∧ rest.content = tail := by
  obtain ⟨o, r, b, u, h1, h2, h3⟩ := C09_segmentation mx chunks hc hl
  have h4 : Framing (some mx.toNat) (contents chunks) frames tail false := ⟨hcs, hf, ht⟩
  obtain ⟨e1, e2, e3⟩ := h2.unique h4
  subst e3
  have := h3 rfl
  subst this
  exact ⟨o, r, h1, e1, by simpa [contents] using e2⟩

/-- **C09, deviation.**  At the level of what the message handler gets, segmentation does matter for a
stream that ends in garbage: the good frame before it is handled when it arrives in a read of its own,
and dropped when the garbage arrives in the same read. -/
theorem C09_good_frame_dropped_with_garbage : ∃ (f : NB) (garbage : NB) (both : NB),
    f.WF ∧ garbage.WF ∧ both.WF ∧ both.content = f.content ++ garbage.content ∧
    IsFrame (some 1000) f.content ∧
    (∃ f', handled (some 1000) NB.empty [f, garbage] = some [f'] ∧ f'.content = f.content) ∧
    handled (some 1000) NB.empty [both] = some [] := by
  have hf : IsFrame (some 1000) exFrame1 := by
    refine ⟨⟨by decide, by decide, by decide, ?_⟩, by decide⟩
    intro m hm; cases hm; decide
  have hbad : BadHead (some 1000) (List.replicate 16 0) := ⟨by decide, Or.inl (by decide)⟩
  let f : NB := ⟨18, [⟨exFrame1, 0, 18⟩], false⟩
  let gb : NB := ⟨16, [⟨List.replicate 16 0, 0, 16⟩], false⟩
  let both : NB := ⟨34, [⟨exFrame1 ++ List.replicate 16 0, 0, 34⟩], false⟩
  have wf : f.WF := ⟨by decide, by decide⟩
  have wg : gb.WF := ⟨by decide, by decide⟩
  have wb : both.WF := ⟨by decide, by decide⟩
  have cf : f.content = exFrame1 := by decide
  have cg : gb.content = List.replicate 16 0 := by decide
  have cb : both.content = exFrame1 ++ List.replicate 16 0 := by decide
  have e0 : Framing (some 1000) [] [] NB.empty.content false := Framing.nil_iff.2 ⟨rfl, Or.inl (by decide)⟩
  refine ⟨f, gb, both, wf, wg, wb, by rw [cf, cg, cb], cf ▸ hf, ?_, ?_⟩
  · obtain ⟨r1, o1, b1, h1, h2, h3, h4⟩ := onRead_spec 1000 (kept := NB.empty) NB.WF_empty rfl wf e0
      (by rw [cf]; decide)
    have t1 : Framing (some 1000) exFrame1 [exFrame1] [] false :=
      ⟨by simp, by intro x hx; simp at hx; subst hx; exact hf, Or.inl (by decide)⟩
    simp only [List.nil_append, cf] at h4
    obtain ⟨e1, e2, e3⟩ := h4.unique t1
    subst e3
    obtain ⟨r2, o2, b2, k1, k2, k3, k4⟩ := onRead_spec 1000 h2 h3 wg h4 (by rw [cg]; decide)
    have t2 : Framing (some 1000) (exFrame1 ++ List.replicate 16 0) [exFrame1] (List.replicate 16 0) true :=
      ⟨by simp, by intro x hx; simp at hx; subst hx; exact hf, hbad⟩
    rw [cg] at k4
    obtain ⟨e4, e5, e6⟩ := k4.unique t2
    subst e6
    obtain ⟨f', hf'⟩ : ∃ f', o1 = [f'] := by
      clear h1 h4 k4
      cases o1 with
      | nil => simp at e1
      | cons x xs =>
        cases xs with
        | nil => exact ⟨x, rfl⟩
        | cons y ys => simp at e1
    subst hf'
    refine ⟨f', ?_, ?_⟩
    · simp [handled, h1, k1, status]
    · rw [cf]; simpa using e1
  · obtain ⟨r1, o1, b1, h1, h2, h3, h4⟩ := onRead_spec 1000 (kept := NB.empty) NB.WF_empty rfl wb e0
      (by rw [cb]; decide)
    have t2 : Framing (some 1000) (exFrame1 ++ List.replicate 16 0) [exFrame1] (List.replicate 16 0) true :=
      ⟨by simp, by intro x hx; simp at hx; subst hx; exact hf, hbad⟩
    simp only [List.nil_append, cb] at h4
    obtain ⟨e4, e5, e6⟩ := h4.unique t2
    subst e6
    simp [handled, h1, status]

end Verif.Trpc
