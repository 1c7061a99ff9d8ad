import Verif.Redis.Checker
import Verif.Redis.RequestProofs
import Verif.Redis.Decide
/-!
# C64 to C67: redis
-/

namespace Verif.Redis

open Buffer (NB Block)

/-! ## C64: the reader -/

/-- The result does not depend on how the bytes are cut into blocks. -/
theorem C64_blocks {a b : List Bytes} (h : a.flatten = b.flatten) (count : Int) : getReply a count = getReply b count := by
  rw [(getReply_eq a count).1, (getReply_eq b count).1, h]

/-- Whatever the bytes are: the reader ends, without access outside of the blocks and without a failed assertion. -/
theorem C64_safe (blocks : List Bytes) (count : Int) : getReply blocks count ≠ .ub ∧ getReply blocks count ≠ .loop := by
  obtain ⟨h1, h2, h3⟩ := getReply_eq blocks count
  rw [h1]
  cases h : readReply count blocks.flatten with
  | ok x => exact ⟨nofun, nofun⟩
  | less => exact ⟨nofun, nofun⟩
  | bad => exact ⟨nofun, nofun⟩
  | overflow => exact ⟨nofun, nofun⟩
  | ub => exact absurd h h2
  | loop => exact absurd h h3

/-- A reply is at most as long as the data. -/
theorem C64_consumed {blocks : List Bytes} {count : Int} {v : Val} {n : Nat} (h : getReply blocks count = .ok (v, n)) :
    n ≤ blocks.flatten.length := by
  obtain ⟨h1, h2, h3⟩ := getReply_eq blocks count
  rw [h1] at h
  cases hr : readReply count blocks.flatten with
  | ok x => rw [hr] at h; simp only [outcome, R.ok.injEq, Prod.mk.injEq] at h; omega
  | less => rw [hr] at h; cases h
  | bad => rw [hr] at h; cases h
  | overflow => rw [hr] at h; cases h
  | ub => rw [hr] at h; cases h
  | loop => rw [hr] at h; cases h

/-- A reply, or an error, stays what it is when more data follow. -/
theorem C64_more {blocks : List Bytes} {count : Int} (more : List Bytes) (h : getReply blocks count ≠ .less) :
    getReply (blocks ++ more) count = getReply blocks count := by
  have hm := readReply_mono count blocks.flatten more.flatten
  obtain ⟨h1, h2, h3⟩ := getReply_eq blocks count
  rw [h1] at h
  rw [h1, (getReply_eq (blocks ++ more) count).1, List.flatten_append]
  cases hr : readReply count blocks.flatten with
  | ok x =>
    obtain ⟨v, r⟩ := x
    rw [hm.1 v r hr]
    have := (readReply_suffix count _ _ _ hr).length_le
    simp only [outcome, List.length_append, R.ok.injEq, Prod.mk.injEq, true_and]
    omega
  | less => rw [hr] at h; exact absurd rfl h
  | bad => rw [hm.2.1 hr]; rfl
  | overflow => rw [hm.2.2 hr]; rfl
  | ub => exact absurd hr h2
  | loop => exact absurd hr h3

/-- `"*2\r\n$3\r\na\r\n\r\n:-7\r\n"` with a line end inside the string. -/
def sample : Bytes := [42, 50, 13, 10, 36, 51, 13, 10, 97, 13, 10, 13, 10, 58, 45, 55, 13, 10]

example : getReply [sample] 1 = .ok (.array [.str [97, 13, 10], .int (-7)], 18) := by decide +kernel
example : getReply (sample.map fun x => [x]) 1 = .ok (.array [.str [97, 13, 10], .int (-7)], 18) := by decide +kernel
example : getReply [sample.take 17] 1 = .less := by decide +kernel
example : getReply [[63, 13, 10]] 1 = .bad := by decide +kernel

/-! ## C65: replies -/

/-- Every reply is read as it was sent, and nothing of what follows it is touched. -/
theorem C65_read {v : Val} (h : v.TopOk 8) {blocks : List Bytes} {rest : Bytes} (hb : blocks.flatten = v.enc ++ rest) {count : Int} (hc : count ≤ 1) :
    getReply blocks count = .ok (v, v.enc.length) := by
  rw [(getReply_eq blocks count).1, hb, readReply, if_neg (by omega), numbered_enc h]
  simp [outcome]

/-- Every part of a reply is known to be incomplete. -/
theorem C65_less {v : Val} (h : v.TopOk 8) {blocks : List Bytes} {u : Bytes} (hu : u ≠ []) (hb : blocks.flatten ++ u = v.enc) {count : Int}
    (hc : count ≤ 1) : getReply blocks count = .less := by
  have := readReply_prefix h hb hu
  have hr : readReply count blocks.flatten = .less := by
    rw [readReply, if_neg (by omega)] at this ⊢
    exact this
  rw [(getReply_eq blocks count).1, hr]
  rfl

/-- The replies to merged requests are read as one array, in order. -/
theorem C65_merged {vs : List Val} (h : ∀ v ∈ vs, v.TopOk 7) (hn : 1 < vs.length) {blocks : List Bytes} {rest : Bytes}
    (hb : blocks.flatten = encAll vs ++ rest) : getReply blocks vs.length = .ok (.array vs, (encAll vs).length) := by
  rw [(getReply_eq blocks _).1, hb, readReply, if_pos (by omega), Int.toNat_natCast, elems_numbered_enc h]
  simp [outcome, R.bind]

/-- They are delivered when all of them have arrived, not earlier. -/
theorem C65_merged_less {vs : List Val} (h : ∀ v ∈ vs, v.TopOk 7) (hn : 1 < vs.length) {blocks : List Bytes} {u : Bytes} (hu : u ≠ [])
    (hb : blocks.flatten ++ u = encAll vs) : getReply blocks vs.length = .less := by
  have hr : readReply vs.length blocks.flatten = .less := by
    refine (readReply_mono _).prefix (readReply_good _) (u := u) (a := .array vs) ?_ hu
    have h1 := elems_numbered_enc h []
    rw [List.append_nil] at h1
    rw [hb, readReply, if_pos (by omega), Int.toNat_natCast, h1]
    rfl
  rw [(getReply_eq blocks _).1, hr]
  rfl

/-- What has come over a connection that supports pipelines, the replies delivered, the buffer afterwards. Data may come in
any pieces and lie in any blocks. -/
inductive Received (count : Int) : Bytes → List Val → NB → Prop
  | start {nb : NB} : nb.WF → nb.content = [] → Received count [] [] nb
  | more {s : Bytes} {vs : List Val} {nb : NB} (seg : Bytes) {nb1 nb2 : NB} {out : List Val} : Received count s vs nb → nb1.WF →
      nb1.content = nb.content ++ seg → check true count nb1 = .ok (nb2, out) → Received count (s ++ seg) (vs ++ out) nb2

/-- After any part of a stream of replies, exactly the complete ones have been delivered, in order; what is left in the
buffer is the beginning of the next one. -/
theorem C65_stream {count : Int} {s x : Bytes} {vs ws : List Val} {nb : NB} (h : Received count s vs nb) (hw : ∀ w ∈ ws, w.TopOk 8)
    (hs : s ++ x = encAll ws) : nb.WF ∧ s = encAll vs ++ nb.content ∧ ∃ ws', ws = vs ++ ws' ∧ Begins nb.content ws' := by
  induction h generalizing x with
  | start h1 h2 =>
    refine ⟨h1, by rw [h2]; rfl, ws, rfl, ?_⟩
    rw [h2]
    cases ws with
    | nil => rfl
    | cons w ws => exact ⟨w.enc, enc_ne_nil w, rfl⟩
  | @more s vs nb seg nb1 nb2 out h1 h2 h3 h4 ih =>
    obtain ⟨g1, g2, ws', g3, g4⟩ := ih (x := seg ++ x) (by rw [← hs]; simp)
    subst g3
    have hw' := (AllTopOk.append (d := 8)).1 hw
    rw [encAll_append, g2] at hs
    simp only [List.append_assoc, List.append_cancel_left_eq] at hs
    rw [← List.append_assoc, ← h3] at hs
    obtain ⟨out', ws'', tail, e1, e2, e3⟩ := split_stream ws' _ _ hs
    subst e1
    have hw'' := (AllTopOk.append (d := 8)).1 hw'.2
    obtain ⟨nb', c1, c2, c3⟩ := check_replies hw''.1 hw''.2 e3 h2 e2 count
    rw [c1] at h4
    simp only [R.ok.injEq, Prod.mk.injEq] at h4
    obtain ⟨rfl, rfl⟩ := h4
    refine ⟨c2, ?_, ws'', by simp, by rw [c3]; exact e3⟩
    rw [g2, encAll_append, c3, List.append_assoc, List.append_assoc, ← e2, h3]

/-- The checker never reports an error for such a stream. -/
theorem C65_stream_goes_on {count : Int} {s seg x : Bytes} {vs ws : List Val} {nb nb1 : NB} (h : Received count s vs nb)
    (hw : ∀ w ∈ ws, w.TopOk 8) (hs : s ++ seg ++ x = encAll ws) (h1 : nb1.WF) (hc : nb1.content = nb.content ++ seg) :
    ∃ nb2 out, check true count nb1 = .ok (nb2, out) := by
  obtain ⟨g1, g2, ws', g3, g4⟩ := C65_stream h hw (x := seg ++ x) (by rw [← hs]; simp)
  subst g3
  have hw' := (AllTopOk.append (d := 8)).1 hw
  rw [encAll_append, g2] at hs
  simp only [List.append_assoc, List.append_cancel_left_eq] at hs
  rw [← List.append_assoc, ← hc] at hs
  obtain ⟨out', ws'', tail, e1, e2, e3⟩ := split_stream ws' _ _ hs
  subst e1
  have hw'' := (AllTopOk.append (d := 8)).1 hw'.2
  obtain ⟨nb', c1, c2, c3⟩ := check_replies hw''.1 hw''.2 e3 h1 e2 count
  exact ⟨nb', _, c1⟩

/-- Without pipelines: one reply. -/
theorem C65_check {v : Val} (h : v.TopOk 8) {nb : NB} (hw : nb.WF) {rest : Bytes} (hb : nb.content = v.enc ++ rest) {count : Int} (hc : count ≤ 1) :
    ∃ nb', check false count nb = .ok (nb', [v]) ∧ nb'.WF ∧ nb'.content = rest := by
  have hr : readReply count nb.content = .ok (v, rest) := by
    rw [readReply, if_neg (by omega), hb]
    exact numbered_enc h rest
  have hpos := List.length_pos_iff.2 (enc_ne_nil v)
  have hlen := hw.content_length
  rw [hb, List.length_append] at hlen
  have hne : ¬(nb.blocks = [] ∨ nb.byteSize < 1) := by
    rintro (h0 | h0)
    · have : nb.content = [] := by simp [NB.content, Buffer.blocksContent, h0]
      rw [hb] at this
      exact enc_ne_nil v (List.append_eq_nil_iff.1 this).1
    · omega
  rw [check, if_neg hne]
  rcases getFrom_spec hw count with ⟨w, r, nb', h1, h2, h3, h4⟩ | ⟨h1, -⟩ | ⟨h1, -⟩ | ⟨h1, -⟩
  · rw [hr] at h1
    simp only [R.ok.injEq, Prod.mk.injEq] at h1
    obtain ⟨rfl, rfl⟩ := h1
    exact ⟨nb', by simp [h2], h3, h4⟩
  · rw [hr] at h1; cases h1
  · rw [hr] at h1; cases h1
  · rw [hr] at h1; cases h1

def sampleV : Val := .numbered 9 (.array [.str [97, 13, 10], .nil, .array [.int (-7), .status [79, 75]]])

example : sampleV.TopOk 8 := by
  simp only [sampleV, Val.TopOk, Val.Ok, AllOk]
  refine ⟨by omega, by omega, by simp, by simp, trivial, ⟨by simp, ⟨by omega, by omega⟩, ?_, trivial⟩, trivial⟩
  intro a b h
  match a with
  | [] => simp at h
  | [_] => simp at h
  | _ :: _ :: a => simp at h
example : getReply [sampleV.enc] 1 = .ok (sampleV, sampleV.enc.length) := by decide +kernel
example : ∃ nb, Received 1 [58, 49, 13, 10, 58] [.int 1] nb := by
  have h0 : Received 1 [] [] ⟨0, [], false⟩ := .start ⟨by simp, rfl⟩ rfl
  have hw : (⟨5, [⟨[58, 49, 13, 10, 58], 0, 5⟩], false⟩ : NB).WF := ⟨by simp [Block.WF], rfl⟩
  obtain ⟨nb', h1, -, -⟩ := check_replies (vs := [.int 1]) (tail := [58]) (ws' := [.int 2]) (nb := ⟨5, [⟨[58, 49, 13, 10, 58], 0, 5⟩], false⟩)
    (by intro v hv; simp only [List.mem_singleton] at hv; subst hv; exact ⟨by omega, by omega⟩)
    (by intro v hv; simp only [List.mem_singleton] at hv; subst hv; exact ⟨by omega, by omega⟩)
    ⟨[50, 13, 10], nofun, by decide +kernel⟩ hw (by decide +kernel) 1
  exact ⟨nb', h0.more [58, 49, 13, 10, 58] hw rfl h1⟩

/-! ## C66: requests -/

/-- Requests cannot be confused: whatever bytes the parameters contain and whatever follows, the parameters are determined by
what is sent. -/
theorem C66_exact {ps qs : List Bytes} {x y : Bytes} (hp : ps.length < 2 ^ 31) (hq : qs.length < 2 ^ 31) (hps : ∀ p ∈ ps, p.length < 2 ^ 32)
    (hqs : ∀ q ∈ qs, q.length < 2 ^ 32) (h : encodeRequest true ps = some x) (h' : encodeRequest true qs = some y) {u w : Bytes}
    (he : x ++ u = y ++ w) : ps = qs ∧ u = w := by
  simp only [encodeRequest, if_true, Option.some.injEq] at h h'
  subst h h'
  have h1 := parse_params hp hps u
  have h2 := parse_params hq hqs w
  rw [he, h2] at h1
  simp only [R.ok.injEq, Prod.mk.injEq, Val.array.injEq] at h1
  have h3 : ∀ as bs : List Bytes, as.map Val.str = bs.map Val.str → as = bs := by
    intro as
    induction as with
    | nil => intro bs h; cases bs with
      | nil => rfl
      | cons b bs => simp at h
    | cons a as ih => intro bs h; cases bs with
      | nil => simp at h
      | cons b bs =>
        simp only [List.map_cons, List.cons.injEq, Val.str.injEq] at h
        rw [h.1, ih bs h.2]
  exact ⟨(h3 _ _ h1.1).symm, h1.2.symm⟩

/-- It is an array of strings as servers expect it. -/
theorem C66_resp {ps : List Bytes} (h : ps.length < 2 ^ 32) (hp : ∀ p ∈ ps, p.length < 2 ^ 32) :
    encodeRequest true ps = some (Val.array (ps.map .str)).enc := by
  rw [encodeRequest, if_pos rfl, encodeParams_eq h hp]

/-- Commands from formats: the words of the format, with the arguments put in their places as they are, whatever spaces, line
ends or percent signs they contain. -/
theorem C66_format {pf : Printf} (hpf : Prints pf) {f : Format} (hf : f.Ok) : format pf f.fmt f.args = .ok f.params :=
  format_params hpf hf

/-- A `vsnprintf` for the examples. -/
def pf0 : Printf
  | [37, 100], .int i :: _ => some (decInt i)
  | [37, 108, 100], .int64 i :: _ => some (decInt i)
  | _, _ => none

theorem pf0_prints : Prints pf0 := fun _ _ => ⟨rfl, rfl⟩

/-- `"SET k%d %b"`. -/
def sampleF : Format := ⟨0, [((.lit 83, [.lit 69, .lit 84]), 0), ((.lit 107, [.int 12]), 0)], (.bin [32, 37, 115, 13, 10, 0] 6, []), 0⟩

example : sampleF.Ok := by
  simp [sampleF, Format.Ok, Word.pieces, Piece.Ok]
example : sampleF.fmt = [83, 69, 84, 32, 107, 37, 100, 32, 37, 98] := by decide +kernel
example : format pf0 sampleF.fmt sampleF.args = .ok [[83, 69, 84], [107, 49, 50], [32, 37, 115, 13, 10, 0]] := by decide +kernel

/-! ## C67: what is not refused -/

/-- Bytes that cannot begin a reply are refused at once. -/
theorem C67_type {b : UInt8} {s : Bytes} {blocks : List Bytes} (hb : blocks.flatten = b :: s) (ht : b ∉ [45, 43, 58, 36, 42, 64]) {count : Int}
    (hc : count ≤ 1) : getReply blocks count = .bad := by
  simp only [List.mem_cons, List.not_mem_nil, or_false, not_or] at ht
  have hi : ∀ deep, item deep (b :: s) = .bad := by
    intro deep
    rw [item_body, if_neg (by simp only [isType]; grind)]
  have hr : readReply count blocks.flatten = .bad := by
    rw [readReply, if_neg (by omega), hb, numbered, serial, if_neg ht.2.2.2.2.2]
    simp only [R.bind, parse, hi]
  rw [(getReply_eq blocks count).1, hr]
  rfl

/-- The promise: if the reader delivers an integer, then a number was sent. -/
def IsNumber (l : Bytes) : Prop := ∃ i : Int, l = decInt i

/-- Something that is not a number is delivered as the number −1. -/
theorem C67_number_partial : ¬∀ (l rest : Bytes) (i : Int), NoCrlf l → getReply [58 :: l ++ crlf ++ rest] 1 = .ok (.int i, l.length + 3) → IsNumber l := by
  intro h
  have hn : NoCrlf [49, 120] := by
    intro a b h
    match a with
    | [] => simp at h
    | [_] => simp at h
    | _ :: _ :: a => simp at h
  obtain ⟨i, hi⟩ := h [49, 120] [] (-1) hn (by decide +kernel)
  rw [decInt] at hi
  have hd := dec_digits i.natAbs
  split at hi
  · simp at hi
  · have := hd 120 (by rw [← hi]; simp)
    simp at this

/-- A string whose length is not a number is delivered as nil; an empty line is the number 0. -/
theorem C67_nil_partial : getReply [[36, 120, 13, 10]] 1 = .ok (.nil, 4) ∧ getReply [[58, 13, 10]] 1 = .ok (.int 0, 3) := by
  decide +kernel

/-- The line end after a string is skipped whatever it is. -/
theorem C67_end_partial : getReply [[36, 49, 13, 10, 97, 88, 89]] 1 = .ok (.str [97], 7) := by decide +kernel

/-- The number of elements is taken modulo 2³²: `"*4294967296\r\n"` is an empty array, `"*4294967295\r\n"` is nil. -/
theorem C67_count_partial :
    getReply [[42, 52, 50, 57, 52, 57, 54, 55, 50, 57, 54, 13, 10]] 1 = .ok (.array [], 13) ∧
    getReply [[42, 52, 50, 57, 52, 57, 54, 55, 50, 57, 53, 13, 10]] 1 = .ok (.nil, 13) := by decide +kernel

/-- Signed overflow: the smallest integer that redis can send. -/
theorem C67_min_partial : getReply [58 :: decInt (-2 ^ 63) ++ crlf] 1 = .overflow := by decide +kernel

/-- The promise for formats: no undefined behaviour if the arguments are those that the format asks for; here one that asks
for none. The conversion is cut off by the end of the format, `va_arg` is called nevertheless. -/
theorem C67_format_end_partial (pf : Printf) : format pf [71, 32, 37, 53] [] = .ub := by rfl

/-- With an argument: the terminating NUL is taken for the end of the conversion and reading goes on behind it. -/
theorem C67_format_past_partial (pf : Printf) (i : Int) : format pf [71, 32, 37, 53] [.int i] = .ub := by
  show (match pf [37, 53, 0] [.int i] with | none => F.ub | some _ => F.ub) = .ub
  cases pf [37, 53, 0] [.int i] <;> rfl

/-- A conversion of 14 characters, `"%000000000012d"`, takes its argument but is not carried out: the parameter is what is
written in the format, without the percent sign and a character. -/
theorem C67_format_long_partial (pf : Printf) (i : Int) :
    format pf [37, 48, 48, 48, 48, 48, 48, 48, 48, 48, 48, 49, 50, 100] [.int i] =
      .ok [[48, 48, 48, 48, 48, 48, 48, 48, 48, 49, 50, 100]] := by rfl

/-- Good replies are lost if something wrong follows them: a pipeline with a good reply and a byte that is none. -/
theorem C67_lost_partial : getReply [[58, 49, 13, 10]] 1 = .ok (.int 1, 4) ∧
    (match check true 1 ⟨5, [⟨[58, 49, 13, 10, 63], 0, 5⟩], false⟩ with | .bad => true | _ => false) = true := by decide +kernel

end Verif.Redis
