import Verif.Http.Client
import Verif.Http.CheckerProofs
/-! # The checker of responses: proofs -/

namespace Verif.Http.Client

/-! ## What is assumed of the parser -/

/-- An error stays an error when there are more data. -/
def ErrExt (phr : Bytes → PhrRes) : Prop := ∀ b t, phr b = .error → phr (b ++ t) = .error

/-- What is parsed is not longer than what was given, and not empty. -/
def PhrLen (phr : Bytes → PhrRes) : Prop := ∀ b n h, phr b = .ok n h → 0 < n ∧ n ≤ b.length

/-- In the data `S` heads end with CR LF CR LF. -/
def Strict (phr : Bytes → PhrRes) (S : Bytes) : Prop := ∀ w n h, w <:+: S → phr w = .ok n h → ∃ u, w.take n = u ++ mark

section
variable {D : Type} {phr : Bytes → PhrRes} {dec : D → Bytes → DecRes D} {d0 : D} {max : Nat}

theorem cut_ok {s : Bytes} (t : Bytes) {n : Nat} {h : Head} (hS : Strict phr s) (hphr : phr (cut max s) = .ok n h) : cut max (s ++ t) = cut max s := by
  obtain ⟨u, hu⟩ := hS _ n h (cut_infix max s).isInfix hphr
  have hm : hasMark s = true := by
    obtain ⟨r, hr⟩ := cut_infix max s
    have h1 : cut max s = u ++ mark ++ (cut max s).drop n := by rw [← hu, List.take_append_drop]
    rw [← hr, h1, List.append_assoc (u ++ mark)]
    exact hasMark_end _ _
  rw [cut, cut, untilMark_ext s t hm]

theorem header_error (hE : ErrExt phr) {s : Bytes} (t : Bytes) (h : parseHeader phr d0 max s = .error) (hS : Strict phr s) :
    parseHeader phr d0 max (s ++ t) = .error := by
  rw [parseHeader] at h ⊢
  have hmono := cut_mono max s t
  split at h
  · cases h
  · rename_i hlen
    rw [if_neg (by rw [List.length_append]; omega)]
    dsimp only at h ⊢
    split at h
    · rename_i hbig
      rw [if_pos (Nat.lt_of_lt_of_le hbig hmono.length_le)]
    · rename_i hbig
      split
      · rfl
      · split at h
        · rename_i hphr
          obtain ⟨r, hr⟩ := hmono
          rw [← hr, hE _ r hphr]
        · cases h
        · rename_i n hd hphr
          rw [cut_ok t hS hphr, hphr]
          exact h

theorem header_ok {s : Bytes} (t : Bytes) {r : Nat × Inflight D} (h : parseHeader phr d0 max s = .ok r) (hS : Strict phr s) :
    parseHeader phr d0 max (s ++ t) = .ok r := by
  rw [parseHeader] at h ⊢
  split at h
  · cases h
  · rename_i hlen
    rw [if_neg (by rw [List.length_append]; omega)]
    dsimp only at h ⊢
    split at h
    · cases h
    · rename_i hbig
      split at h
      · cases h
      · cases h
      · rename_i n hd hphr
        rw [cut_ok t hS hphr, if_neg hbig, hphr]
        exact h

theorem header_state (hL : PhrLen phr) {s : Bytes} {n : Nat} {st : Inflight D} (h : parseHeader phr d0 max s = .ok (n, st)) :
    st.newRsp = true ∧ 0 < n ∧ n ≤ s.length ∧ st.rsp.body = [] ∧ st.headBytes = n ∧ n ≤ max := by
  rw [parseHeader] at h
  split at h
  · cases h
  · dsimp only at h
    split at h
    · cases h
    · rename_i hbig
      split at h
      · cases h
      · cases h
      · rename_i n' hd hphr
        have hn := hL _ _ _ hphr
        have hc := (cut_infix max s).length_le
        split at h
        · cases h
        · cases h
          exact ⟨rfl, hn.1, by omega, rfl, rfl, by omega⟩
        · cases h
          exact ⟨rfl, hn.1, by omega, rfl, rfl, by omega⟩

/-- The state between two checks. -/
def Inflight.WF (st : Inflight D) : Prop := st.newRsp = false → st.chunked = false → 0 < st.expect

theorem append_inv {st st' : Inflight D} {b : Bytes} {full : Bool} {o : Option Response} (h : appendBuffer max st b full = some (st', o)) :
    st' = { st with rsp := { st.rsp with body := st.rsp.body ++ b }, newRsp := full } ∧ o = (if full then some { st.rsp with body := st.rsp.body ++ b } else none) ∧
      st.headBytes + st.rsp.body.length + b.length ≤ max := by
  rw [appendBuffer] at h
  split at h
  · rename_i hle
    simp only [Option.some.injEq, Prod.mk.injEq] at h
    exact ⟨h.1.symm, h.2.symm, hle⟩
  · cases h

/-- A body that is complete: nothing behind it matters. -/
theorem content_full (hD : Incremental dec) {st st' : Inflight D} {s rest : Bytes} {o : Option Response} (t : Bytes)
    (h : parseContent dec max st s = some (st', rest, o)) (hf : st'.newRsp = true) :
    (∃ r, o = some r) ∧ parseContent dec max st (s ++ t) = some (st', rest ++ t, o) := by
  rw [parseContent] at h ⊢
  split at h
  · rename_i hch
    rw [if_pos hch]
    split at h
    · cases h
    · obtain ⟨r, hr, he⟩ := Option.map_eq_some_iff.1 h
      have := append_inv (show appendBuffer _ _ _ _ = some (r.1, r.2) from hr)
      simp only [Prod.mk.injEq] at he
      rw [← he.1, this.1] at hf
      cases hf
    · rename_i d'' out left hdec
      have hleft := hD.left _ _ _ _ _ hdec
      rw [hD.done _ _ t _ _ _ hdec]
      dsimp only
      obtain ⟨r, hr, he⟩ := Option.map_eq_some_iff.1 h
      simp only [Prod.mk.injEq] at he
      obtain ⟨h1, h2, h3⟩ := he
      have ha := append_inv (show appendBuffer _ _ _ _ = some (r.1, r.2) from hr)
      refine ⟨⟨_, by rw [← h3, ha.2.1]; rfl⟩, ?_⟩
      rw [hr]
      simp only [Option.map_some, h1, h3, Option.some.injEq, Prod.mk.injEq, true_and, and_true]
      rw [← h2, List.length_append, show s.length + t.length - (left + t.length) = s.length - left by omega]
      rw [List.drop_append_of_le_length (by omega)]
  · rename_i hch
    rw [if_neg hch]
    obtain ⟨r, hr, he⟩ := Option.map_eq_some_iff.1 h
    simp only [Prod.mk.injEq] at he
    obtain ⟨h1, h2, h3⟩ := he
    have ha := append_inv (show appendBuffer _ _ _ _ = some (r.1, r.2) from hr)
    rw [h1] at ha
    have hz : st.expect - min st.expect s.length = 0 := by
      have := congrArg Inflight.newRsp ha.1
      rw [hf] at this
      simpa using this.symm
    have hk : st.expect ≤ s.length := by omega
    have hmin : min st.expect (s ++ t).length = min st.expect s.length := by
      rw [List.length_append]; omega
    refine ⟨⟨_, by rw [← h3, ha.2.1, if_pos (by simpa using hz)]⟩, ?_⟩
    dsimp only
    rw [hmin, List.take_append_of_le_length (by omega), hr]
    simp only [Option.map_some, h1, h3, Option.some.injEq, Prod.mk.injEq, true_and, and_true]
    rw [← h2, List.drop_append_of_le_length (by omega)]

/-- A body that is not complete: everything was read, and it goes on with the next data. -/
theorem content_partial (hD : Incremental dec) {st st' : Inflight D} {s rest : Bytes} {o : Option Response} (t : Bytes)
    (h : parseContent dec max st s = some (st', rest, o)) (hf : st'.newRsp = false) :
    rest = [] ∧ o = none ∧ st'.WF ∧ parseContent dec max st (s ++ t) = parseContent dec max st' t := by
  rw [parseContent] at h
  split at h
  · rename_i hch
    split at h
    · cases h
    · rename_i d out hdec
      obtain ⟨r, hr, he⟩ := Option.map_eq_some_iff.1 h
      simp only [Prod.mk.injEq] at he
      obtain ⟨h1, h2, h3⟩ := he
      have ha := append_inv (show appendBuffer _ _ _ _ = some (r.1, r.2) from hr)
      rw [h1] at ha
      obtain ⟨hst, hrs, hle⟩ := ha
      dsimp only at hst hle
      refine ⟨h2.symm, by rw [← h3, hrs]; rfl, fun _ hc => ?_, ?_⟩
      · rw [hst] at hc
        rw [hch] at hc
        cases hc
      · have hch' : st'.chunked = true := by rw [hst]; exact hch
        have hd' : st'.dec = d := by rw [hst]
        rw [parseContent, parseContent, if_pos hch, if_pos hch', hD.more _ _ t _ _ hdec, hd']
        rcases hb : dec d t with _ | ⟨d'', out'⟩ | ⟨d'', out', left⟩
        · rfl
        · dsimp only
          rw [hst]
          simp only [appendBuffer, List.length_append, List.append_assoc, Nat.add_assoc]
        · dsimp only
          have hl := hD.left _ _ _ _ _ hb
          rw [hst]
          simp only [appendBuffer, List.length_append, List.append_assoc, Nat.add_assoc]
          rw [show s.length + t.length - left = s.length + (t.length - left) by omega, ← List.drop_drop, List.drop_left]
    · obtain ⟨r, hr, he⟩ := Option.map_eq_some_iff.1 h
      have := append_inv (show appendBuffer _ _ _ _ = some (r.1, r.2) from hr)
      simp only [Prod.mk.injEq] at he
      rw [← he.1, this.1] at hf
      cases hf
  · rename_i hch
    obtain ⟨r, hr, he⟩ := Option.map_eq_some_iff.1 h
    simp only [Prod.mk.injEq] at he
    obtain ⟨h1, h2, h3⟩ := he
    have ha := append_inv (show appendBuffer _ _ _ _ = some (r.1, r.2) from hr)
    rw [h1] at ha
    obtain ⟨hst, hrs, hle⟩ := ha
    dsimp only at hst hle
    have hz : ¬ st.expect - min st.expect s.length = 0 := by
      have := congrArg Inflight.newRsp hst
      rw [hf] at this
      simpa using this.symm
    have hk : s.length < st.expect := by omega
    have hmin : min st.expect s.length = s.length := by omega
    rw [hmin] at hst h2 hrs hle
    have hdec : decide (st.expect - s.length = 0) = false := by rw [decide_eq_false]; omega
    rw [hdec] at hst hrs
    rw [List.take_length] at hst hrs hle
    refine ⟨by rw [← h2, List.drop_length], by rw [← h3, hrs]; rfl, fun _ _ => ?_, ?_⟩
    · rw [hst]; dsimp only; omega
    · have hch' : ¬ st'.chunked = true := by rw [hst]; exact hch
      rw [parseContent, parseContent, if_neg hch, if_neg hch', hst]
      dsimp only
      have hm2 : min st.expect (s ++ t).length = s.length + min (st.expect - s.length) t.length := by
        rw [List.length_append]; omega
      rw [hm2, List.take_length_add_append, List.drop_length_add_append]
      simp only [appendBuffer, List.length_append, List.append_assoc, Nat.sub_sub, Nat.add_assoc]

theorem content_error (hD : Incremental dec) {st : Inflight D} {s : Bytes} (t : Bytes) (h : parseContent dec max st s = none) :
    parseContent dec max st (s ++ t) = none := by
  rw [parseContent] at h ⊢
  split at h
  · rename_i hch
    rw [if_pos hch]
    split at h
    · rename_i hdec
      rw [hD.error _ _ t hdec]
    · rename_i d out hdec
      rw [hD.more _ _ t _ _ hdec]
      rw [Option.map_eq_none_iff, appendBuffer] at h
      split at h
      · cases h
      · rename_i hle
        dsimp only at hle
        rcases dec d t with _ | ⟨d'', out'⟩ | ⟨d'', out', left⟩
        · rfl
        · dsimp only
          rw [appendBuffer, if_neg (by dsimp only; rw [List.length_append]; omega)]
          rfl
        · dsimp only
          rw [appendBuffer, if_neg (by dsimp only; rw [List.length_append]; omega)]
          rfl
    · rename_i d'' out left hdec
      rw [hD.done _ _ t _ _ _ hdec]
      rw [Option.map_eq_none_iff] at h
      dsimp only
      rw [h]
      rfl
  · rename_i hch
    rw [if_neg hch]
    rw [Option.map_eq_none_iff, appendBuffer] at h
    split at h
    · cases h
    · rename_i hle
      dsimp only at hle ⊢
      rw [appendBuffer, if_neg]
      · rfl
      · dsimp only
        simp only [List.length_take, List.length_append] at hle ⊢
        omega

/-- Without a body a response is complete. -/
theorem noBody_full {st st' : Inflight D} {s rest : Bytes} {o : Option Response} (h : parseContent dec max (st.noBody true) s = some (st', rest, o)) :
    st'.newRsp = true := by
  rw [parseContent, if_neg (by simp [Inflight.noBody])] at h
  obtain ⟨r, hr, he⟩ := Option.map_eq_some_iff.1 h
  simp only [Prod.mk.injEq] at he
  have ha := append_inv (show appendBuffer _ _ _ _ = some (r.1, r.2) from hr)
  rw [← he.1, ha.1]
  simp [Inflight.noBody]

/-- The first half of a check. -/
def headPart (phr : Bytes → PhrRes) (d0 : D) (max : Nat) (st : Inflight D) (s : Bytes) : HeadRes (Nat × Inflight D) :=
  if st.newRsp then parseHeader phr d0 max s else .ok (0, st)

theorem check_nil (isHead : Bool) (st : Inflight D) : check phr dec d0 max isHead st [] = .ok st [] none := by rw [check, if_pos rfl]

theorem check_cons (isHead : Bool) (st : Inflight D) {s : Bytes} (hs : s ≠ []) : check phr dec d0 max isHead st s =
    match headPart phr d0 max st s with
    | .error => .error
    | .more => .ok st s none
    | .ok (n, st1) =>
      match parseContent dec max (st1.noBody isHead) (s.drop n) with
      | none => .error
      | some (st2, rest, out) => .ok (st2.settle d0) rest out := by
  rw [check, if_neg hs]
  rfl

theorem settle_open {st : Inflight D} (h : st.newRsp = false) : st.settle d0 = st := by rw [Inflight.settle, if_neg (by rw [h]; decide)]
theorem settle_idle {st : Inflight D} (h : st.newRsp = true) : st.settle d0 = Inflight.idle d0 := by rw [Inflight.settle, if_pos h]; rfl

theorem Strict.mono {S T : Bytes} (h : Strict phr S) (hT : T <:+: S) : Strict phr T :=
  fun w n hd hw e => h w n hd (hw.trans hT) e

theorem headPart_le (hL : PhrLen phr) {st st1 : Inflight D} {s : Bytes} {n : Nat} (h : headPart phr d0 max st s = .ok (n, st1)) : n ≤ s.length := by
  rw [headPart] at h
  split at h
  · exact (header_state hL h).2.2.1
  · cases h; omega

/-- One check of data that come in two pieces. -/
theorem check_split (hE : ErrExt phr) (hL : PhrLen phr) (hD : Incremental dec) (isHead : Bool) (st : Inflight D) (s t : Bytes) (hw : st.WF) (hS : Strict phr (s ++ t)) :
    match check phr dec d0 max isHead st s with
    | .error => check phr dec d0 max isHead st (s ++ t) = .error
    | .ok st' rest none => check phr dec d0 max isHead st (s ++ t) = check phr dec d0 max isHead st' (rest ++ t) ∧ st'.WF ∧ rest <:+ s
    | .ok st' rest (some r) => check phr dec d0 max isHead st (s ++ t) = .ok st' (rest ++ t) (some r) ∧ st' = Inflight.idle d0 ∧ rest <:+ s := by
  by_cases hs : s = []
  · subst hs
    rw [check_nil]
    exact ⟨rfl, hw, List.suffix_rfl⟩
  · have hst : s ++ t ≠ [] := by simp [hs]
    have hSs : Strict phr s := hS.mono (List.prefix_append s t).isInfix
    rw [check_cons isHead st hs, check_cons isHead st hst]
    cases hh : headPart phr d0 max st s with
    | error =>
      rw [headPart] at hh
      split at hh
      · rename_i hn
        rw [headPart, if_pos hn, header_error hE t hh hSs]
      · cases hh
    | more =>
      refine ⟨?_, hw, List.suffix_rfl⟩
      rw [check_cons isHead st hst]
    | ok p =>
      obtain ⟨n, st1⟩ := p
      have hn := headPart_le hL hh
      have hh' : headPart phr d0 max st (s ++ t) = .ok (n, st1) := by
        rw [headPart] at hh ⊢
        split at hh
        · rename_i hn
          rw [if_pos hn, header_ok t hh hSs]
        · rename_i hn
          rw [if_neg hn]
          exact hh
      rw [hh']
      dsimp only
      rw [List.drop_append_of_le_length hn]
      cases hc : parseContent dec max (st1.noBody isHead) (s.drop n) with
      | none =>
        dsimp only
        rw [content_error hD t hc]
      | some q =>
        obtain ⟨st2, rest, o⟩ := q
        dsimp only
        cases hf : st2.newRsp with
        | true =>
          obtain ⟨⟨r, rfl⟩, hfull⟩ := content_full hD t hc hf
          rw [hfull]
          dsimp only
          refine ⟨rfl, settle_idle hf, ?_⟩
          have hsuf : rest <:+ s.drop n := by
            rw [parseContent] at hc
            split at hc
            · split at hc
              · cases hc
              · obtain ⟨r, hr, he⟩ := Option.map_eq_some_iff.1 hc
                simp only [Prod.mk.injEq] at he
                rw [← he.2.1]
                exact List.nil_suffix
              · obtain ⟨r, hr, he⟩ := Option.map_eq_some_iff.1 hc
                simp only [Prod.mk.injEq] at he
                rw [← he.2.1]
                exact List.drop_suffix _ _
            · obtain ⟨r, hr, he⟩ := Option.map_eq_some_iff.1 hc
              simp only [Prod.mk.injEq] at he
              rw [← he.2.1]
              exact List.drop_suffix _ _
          exact hsuf.trans (List.drop_suffix _ _)
        | false =>
          obtain ⟨rfl, rfl, hw2, hp⟩ := content_partial hD t hc hf
          have hhead : isHead = false := by
            cases isHead with
            | false => rfl
            | true => rw [noBody_full hc] at hf; cases hf
          subst hhead
          dsimp only
          rw [settle_open hf, hp, List.nil_append]
          refine ⟨?_, hw2, List.nil_suffix⟩
          by_cases ht : t = []
          · subst ht
            rw [check_nil]
            have h2 := content_partial hD [] hc hf
            rw [List.append_nil] at h2
            rw [← h2.2.2.2, hc]
            dsimp only
            rw [settle_open hf]
          · rw [check_cons false st2 ht, headPart, if_neg (by rw [hf]; decide)]
            rfl

/-- The data of a call, as far as its response: pieces that are left over come later. -/
inductive First (D : Type) where
  | error
  | wait (st : Inflight D) (buf : Bytes)
  | got (r : Response) (st : Inflight D) (buf : Bytes) (later : List Bytes)

def first (phr : Bytes → PhrRes) (dec : D → Bytes → DecRes D) (d0 : D) (max : Nat) (isHead : Bool) (st : Inflight D) (buf : Bytes) : List Bytes → First D
  | [] => .wait st buf
  | x :: xs => match check phr dec d0 max isHead st (buf ++ x) with
    | .error => .error
    | .ok st' rest none => first phr dec d0 max isHead st' rest xs
    | .ok st' rest (some r) => .got r st' rest xs

/-- `first` is the beginning of `exchange`. -/
theorem exchange_first (isHead : Bool) : ∀ (xs : List Bytes) (st : Inflight D) (buf : Bytes), exchange phr dec d0 max isHead st buf xs =
    match first phr dec d0 max isHead st buf xs with
    | .error => none
    | .wait st' buf' => some (st', buf', [])
    | .got r st' buf' later => (exchange phr dec d0 max isHead st' buf' later).map fun q => (q.1, q.2.1, r :: q.2.2) := by
  intro xs
  induction xs with
  | nil => intro st buf; rfl
  | cons x xs ih =>
    intro st buf
    rw [exchange, first]
    rcases hc : check phr dec d0 max isHead st (buf ++ x) with _ | ⟨st', rest, _ | r⟩
    · rfl
    · dsimp only
      rw [ih]
      rcases first phr dec d0 max isHead st' rest xs with _ | _ | _ <;> simp [Function.comp_def]
    · rfl

/-- Whether and which response a call gets does not depend on how the data were cut into pieces: it is what one check of all data gives; and it is given as soon as one check
of what has come would give it. -/
theorem C132_pieces (hE : ErrExt phr) (hL : PhrLen phr) (hD : Incremental dec) (isHead : Bool) : ∀ (xs : List Bytes) (st : Inflight D) (buf : Bytes), st.WF → Strict phr (buf ++ xs.flatten) →
    check phr dec d0 max isHead st buf = .ok st buf none →
    match first phr dec d0 max isHead st buf xs with
    | .error => check phr dec d0 max isHead st (buf ++ xs.flatten) = .error
    | .wait st' buf' => check phr dec d0 max isHead st (buf ++ xs.flatten) = .ok st' buf' none
    | .got r st' buf' later => check phr dec d0 max isHead st (buf ++ xs.flatten) = .ok st' (buf' ++ later.flatten) (some r) ∧ st' = Inflight.idle d0 := by
  intro xs
  induction xs with
  | nil =>
    intro st buf _ _ hq
    rw [first]
    simpa using hq
  | cons x xs ih =>
    intro st buf hw hS hq
    have e : buf ++ (x :: xs).flatten = (buf ++ x) ++ xs.flatten := by simp
    rw [e] at hS ⊢
    have h1 := check_split (d0 := d0) (max := max) hE hL hD isHead st (buf ++ x) xs.flatten hw hS
    have hSx := hS.mono (List.prefix_append (buf ++ x) xs.flatten).isInfix
    have h0 := check_split (d0 := d0) (max := max) hE hL hD isHead st (buf ++ x) [] hw (by rwa [List.append_nil])
    rw [first]
    rcases hc : check phr dec d0 max isHead st (buf ++ x) with _ | ⟨st', rest, _ | r⟩
    · rw [hc] at h1
      exact h1
    · rw [hc] at h1 h0
      dsimp only at h1 h0 ⊢
      rw [List.append_nil, List.append_nil, hc] at h0
      rw [h1.1]
      refine ih st' rest h1.2.1 ?_ h0.1.symm
      obtain ⟨u, hu⟩ := h1.2.2
      refine hS.mono ⟨u, [], ?_⟩
      rw [← hu]
      simp
    · rw [hc] at h1
      exact ⟨h1.1, h1.2.1⟩

/-! ## Responses -/

/-- A response on the wire: its head, as the parser reads it, and its body. -/
structure Wire where
  isHead : Bool
  headBytes : Bytes
  head : Head
  reusable : Bool
  bodyBytes : Bytes
  body : Bytes

def Wire.bytes (w : Wire) : Bytes := w.headBytes ++ w.bodyBytes
def Wire.response (w : Wire) : Response := ⟨w.head, w.reusable, w.body⟩

/-- A head with one mark, at its end, that is not too large. -/
structure HeadOK (phr : Bytes → PhrRes) (max : Nat) (b : Bytes) (h : Head) : Prop where
  min : 17 ≤ b.length
  marked : hasMark b = true
  once : untilMark b = b
  parsed : phr b = .ok b.length h
  fits : b.length ≤ max

/-- It is well-formed and not too large: the body is as long as the head says, or is in chunks; the response to a HEAD has none. -/
structure Wire.OK (phr : Bytes → PhrRes) (dec : D → Bytes → DecRes D) (d0 : D) (max : Nat) (w : Wire) : Prop where
  head : HeadOK phr max w.headBytes w.head
  fits : w.headBytes.length + w.body.length ≤ max
  framed : (w.isHead = false ∧ frame w.head = some (.length w.body.length, w.reusable) ∧ w.bodyBytes = w.body) ∨
    (w.isHead = false ∧ frame w.head = some (.chunked, w.reusable) ∧ ∃ d, dec d0 w.bodyBytes = .done d w.body 0) ∨
    (w.isHead = true ∧ (∃ f, frame w.head = some (f, w.reusable)) ∧ w.bodyBytes = [] ∧ w.body = [])

/-- The state after a head. -/
def after (d0 : D) (h : Head) (n : Nat) : Framing × Bool → Inflight D
  | (.chunked, ru) => ⟨true, ⟨h, ru, []⟩, 0, n, true, d0⟩
  | (.length k, ru) => ⟨true, ⟨h, ru, []⟩, k, n, false, d0⟩

theorem header_wire {b : Bytes} {h : Head} (hb : HeadOK phr max b h) {f : Framing × Bool} (hf : frame h = some f) (t : Bytes) :
    b ++ t ≠ [] ∧ headPart phr d0 max (Inflight.idle d0) (b ++ t) = .ok (b.length, after d0 h b.length f) := by
  have hmin := hb.min
  have hfits := hb.fits
  have hne : b ++ t ≠ [] := by
    intro e
    have := congrArg List.length e
    simp only [List.length_append, List.length_nil] at this
    omega
  have hcut : cut max (b ++ t) = b := by
    rw [cut, untilMark_ext _ _ hb.marked, hb.once, List.take_of_length_le (by omega)]
  refine ⟨hne, ?_⟩
  rw [headPart, if_pos (show (Inflight.idle d0).newRsp = true from rfl), parseHeader, if_neg (by simp only [List.length_append]; omega)]
  dsimp only
  rw [hcut, if_neg (by omega), hb.parsed]
  dsimp only
  rw [hf]
  obtain ⟨_ | _, ru⟩ := f <;> rfl

theorem check_head {b : Bytes} {h : Head} (hb : HeadOK phr max b h) {f : Framing × Bool} (hf : frame h = some f) (isHead : Bool) (t : Bytes) :
    check phr dec d0 max isHead (Inflight.idle d0) (b ++ t) =
      match parseContent dec max ((after d0 h b.length f).noBody isHead) t with
      | none => .error
      | some (st2, rest, out) => .ok (st2.settle d0) rest out := by
  obtain ⟨hne, hp⟩ := header_wire (d0 := d0) hb hf t
  rw [check_cons isHead _ hne, hp]
  dsimp only
  rw [List.drop_left]

/-- Without a body. -/
theorem check_noBody {b : Bytes} {h : Head} (hb : HeadOK phr max b h) {f : Framing} {ru : Bool} (hf : frame h = some (f, ru)) (t : Bytes) :
    check phr dec d0 max true (Inflight.idle d0) (b ++ t) = .ok (Inflight.idle d0) t (some ⟨h, ru, []⟩) := by
  have hfits := hb.fits
  rw [check_head hb hf]
  have : (after d0 h b.length (f, ru)).noBody true = ⟨true, ⟨h, ru, []⟩, 0, b.length, false, d0⟩ := by
    cases f <;> rfl
  rw [this, parseContent, if_neg (by simp)]
  simp only [Nat.zero_min, List.take_zero, List.drop_zero, Nat.sub_self, decide_true]
  rw [appendBuffer, if_pos (by simpa using hfits)]
  simp [settle_idle]

/-- With a length. -/
theorem check_length {b : Bytes} {h : Head} (hb : HeadOK phr max b h) {x : Bytes} {ru : Bool} (hf : frame h = some (.length x.length, ru)) (hfit : b.length + x.length ≤ max) (t : Bytes) :
    check phr dec d0 max false (Inflight.idle d0) (b ++ (x ++ t)) = .ok (Inflight.idle d0) t (some ⟨h, ru, x⟩) := by
  rw [check_head hb hf]
  simp only [Inflight.noBody, after]
  rw [if_neg (by decide), parseContent, if_neg (by simp)]
  have hm : min x.length (x ++ t).length = x.length := by rw [List.length_append]; omega
  dsimp only
  rw [hm, List.take_left, List.drop_left, appendBuffer, if_pos (by simpa using hfit)]
  simp [settle_idle]

/-- With a length, and less than it. -/
theorem check_short {b : Bytes} {h : Head} (hb : HeadOK phr max b h) {k : Nat} {ru : Bool} (hk : 0 < k) (hf : frame h = some (.length k, ru)) :
    check phr dec d0 max false (Inflight.idle d0) b = .ok ⟨false, ⟨h, ru, []⟩, k, b.length, false, d0⟩ [] none := by
  have h0 := check_head (dec := dec) (d0 := d0) hb hf false []
  have hfits := hb.fits
  rw [List.append_nil] at h0
  rw [h0]
  simp only [Inflight.noBody, after]
  rw [if_neg (by decide), parseContent, if_neg (by simp)]
  dsimp only
  simp only [List.length_nil, Nat.min_zero, Nat.sub_zero, List.take_nil, List.drop_nil]
  rw [decide_eq_false (by omega), appendBuffer, if_pos (by simpa using hfits)]
  simp [settle_open]

theorem check_wire (hD : Incremental dec) (w : Wire) (hw : w.OK phr dec d0 max) (t : Bytes) :
    check phr dec d0 max w.isHead (Inflight.idle d0) (w.bytes ++ t) = .ok (Inflight.idle d0) t (some w.response) := by
  rw [Wire.bytes, List.append_assoc]
  rcases hw.framed with ⟨hh, hf, hb⟩ | ⟨hh, hf, d, hd⟩ | ⟨hh, ⟨f, hf⟩, hb, hb'⟩
  · rw [hh, hb]
    exact check_length hw.head hf hw.fits t
  · rw [hh, check_head hw.head hf]
    have hl := hD.left _ _ _ _ _ hd
    have hfit := hw.fits
    simp only [Inflight.noBody, after]
    rw [if_neg (by decide), parseContent, if_pos rfl]
    dsimp only
    rw [hD.done _ _ t _ _ _ hd]
    dsimp only
    rw [appendBuffer, if_pos (by simpa using hfit)]
    have hd2 : (w.bodyBytes ++ t).drop ((w.bodyBytes ++ t).length - (0 + t.length)) = t := by
      rw [List.length_append, Nat.zero_add, Nat.add_sub_cancel, List.drop_left]
    rw [hd2]
    simp [settle_idle, Wire.response]
  · rw [hh, hb, List.nil_append, check_noBody hw.head hf, Wire.response, hb']

theorem exchange_nothing (isHead : Bool) : ∀ (xs : List Bytes), xs.flatten = [] → ∀ st : Inflight D, exchange phr dec d0 max isHead st [] xs = some (st, [], []) := by
  intro xs
  induction xs with
  | nil => intro _ st; rfl
  | cons x xs ih =>
    intro h st
    rw [List.flatten_cons, List.append_eq_nil_iff] at h
    rw [exchange, h.1, List.append_nil, check_nil]
    dsimp only
    rw [ih h.2]
    rfl

theorem idle_WF : (Inflight.idle d0).WF := fun h => Bool.noConfusion h

theorem exchange_wire (hE : ErrExt phr) (hL : PhrLen phr) (hD : Incremental dec) (w : Wire) (hw : w.OK phr dec d0 max) (hS : Strict phr w.bytes) (xs : List Bytes) (hx : xs.flatten = w.bytes) :
    exchange phr dec d0 max w.isHead (Inflight.idle d0) [] xs = some (Inflight.idle d0, [], [w.response]) := by
  have h1 := C132_pieces (d0 := d0) (max := max) hE hL hD w.isHead xs (Inflight.idle d0) [] idle_WF (by rw [List.nil_append, hx]; exact hS) (check_nil _ _)
  have h2 := check_wire hD w hw []
  rw [List.append_nil] at h2
  rw [List.nil_append, hx, h2] at h1
  rw [exchange_first]
  cases hf : first phr dec d0 max w.isHead (Inflight.idle d0) [] xs with
  | error => rw [hf] at h1; cases h1
  | wait st' buf' => rw [hf] at h1; cases h1
  | got r st' buf' later =>
    rw [hf] at h1
    dsimp only at h1 ⊢
    obtain ⟨e, _⟩ := h1
    simp only [CheckRes.ok.injEq, Option.some.injEq] at e
    obtain ⟨rfl, e2, rfl⟩ := e
    obtain ⟨rfl, e3⟩ := List.append_eq_nil_iff.1 e2.symm
    rw [exchange_nothing _ _ e3]
    rfl

/-- Calls one after the other on a connection: every one gets its response, and only that, however the bytes of the responses were cut into pieces. -/
theorem C132_received (hE : ErrExt phr) (hL : PhrLen phr) (hD : Incremental dec) : ∀ (cs : List (Wire × List Bytes)),
    (∀ c ∈ cs, c.1.OK phr dec d0 max ∧ Strict phr c.1.bytes ∧ c.2.flatten = c.1.bytes) →
    session phr dec d0 max (Inflight.idle d0) [] (cs.map fun c => (c.1.isHead, c.2)) = some (Inflight.idle d0, [], cs.map fun c => [c.1.response]) := by
  intro cs
  induction cs with
  | nil => intro _; rfl
  | cons c cs ih =>
    intro h
    obtain ⟨h1, h2, h3⟩ := h c List.mem_cons_self
    rw [List.map_cons, session, exchange_wire hE hL hD c.1 h1 h2 c.2 h3]
    dsimp only
    rw [ih fun c' hc' => h c' (List.mem_cons_of_mem _ hc')]
    rfl

/-! ## The limit -/

/-- What is kept of a response. -/
def Bounded (max : Nat) (st : Inflight D) : Prop := st.newRsp = false → st.headBytes + st.rsp.body.length ≤ max

theorem check_bounded (hL : PhrLen phr) (isHead : Bool) {st st' : Inflight D} {s rest : Bytes} {o : Option Response} (hb : Bounded max st) (h : check phr dec d0 max isHead st s = .ok st' rest o) :
    Bounded max st' ∧ ∀ r ∈ o, r.body.length ≤ max := by
  by_cases hs : s = []
  · subst hs
    rw [check_nil] at h
    cases h
    exact ⟨hb, by simp⟩
  · rw [check_cons isHead st hs] at h
    split at h
    · cases h
    · cases h
      exact ⟨hb, by simp⟩
    · rename_i n st1 hh
      split at h
      · cases h
      · rename_i st2 rest2 o2 hc
        cases h
        have key : ∀ {st3 st4 : Inflight D} {b : Bytes} {full : Bool} {o : Option Response}, appendBuffer max st3 b full = some (st4, o) → Bounded max (st4.settle d0) ∧ ∀ r ∈ o, r.body.length ≤ max := by
          intro st3 st4 b full o ha
          obtain ⟨h1, h2, h3⟩ := append_inv ha
          constructor
          · cases full with
            | true =>
              rw [settle_idle (by rw [h1])]
              exact fun h => Bool.noConfusion h
            | false =>
              rw [settle_open (by rw [h1])]
              intro _
              rw [h1]
              simp only [List.length_append]
              omega
          · intro r hr
            rw [h2] at hr
            cases full with
            | true =>
              simp only [if_true, Option.mem_def, Option.some.injEq] at hr
              subst hr
              simp only [List.length_append]
              omega
            | false => simp at hr
        rw [parseContent] at hc
        split at hc
        · split at hc
          · cases hc
          · obtain ⟨r, hr, he⟩ := Option.map_eq_some_iff.1 hc
            cases he
            exact key hr
          · obtain ⟨r, hr, he⟩ := Option.map_eq_some_iff.1 hc
            cases he
            exact key hr
        · obtain ⟨r, hr, he⟩ := Option.map_eq_some_iff.1 hc
          cases he
          exact key hr

/-- Whatever the server sends: no response is larger than the limit, and neither is what is kept of one that is not complete. -/
theorem C132_limit (hL : PhrLen phr) (isHead : Bool) : ∀ (xs : List Bytes) (st st' : Inflight D) (buf buf' : Bytes) (out : List Response), Bounded max st →
    exchange phr dec d0 max isHead st buf xs = some (st', buf', out) → Bounded max st' ∧ ∀ r ∈ out, r.body.length ≤ max := by
  intro xs
  induction xs with
  | nil =>
    intro st st' buf buf' out hb h
    cases h
    exact ⟨hb, by simp⟩
  | cons x xs ih =>
    intro st st' buf buf' out hb h
    rw [exchange] at h
    split at h
    · cases h
    · rename_i st1 rest o hc
      obtain ⟨h1, h2⟩ := check_bounded hL isHead hb hc
      obtain ⟨q, hq, he⟩ := Option.map_eq_some_iff.1 h
      cases he
      obtain ⟨h3, h4⟩ := ih _ _ _ _ _ h1 hq
      refine ⟨h3, fun r hr => ?_⟩
      rcases List.mem_append.1 hr with hr | hr
      · exact h2 r (by simpa using hr)
      · exact h4 r hr

theorem C132_limit_idle : Bounded max (Inflight.idle d0) := fun h => Bool.noConfusion h

end

/-! ## The head -/

theorem conn_te (k : Bytes) (h : ciEqual k connName = true) : ciEqual k teName = false ∧ ciEqual k clName = false := by
  simp only [ciEqual, Bool.and_eq_true, decide_eq_true_eq] at h
  have e1 : teName.length = 17 := by decide
  have e2 : clName.length = 14 := by decide
  have e3 : connName.length = 10 := by decide
  constructor
  · rw [ciEqual, decide_eq_false (by omega), Bool.false_and]
  · rw [ciEqual, decide_eq_false (by omega), Bool.false_and]

/-- What the last header `Connection` says. -/
def lastConn (hs : List (Bytes × Bytes)) : Option Bytes := ((hs.filter fun p => ciEqual p.1 connName).map (·.2)).getLast?

theorem seen_spec : ∀ (hs : List (Bytes × Bytes)) (s s' : Seen), seenLoop hs s = some s' →
    (s'.chunked = (s.chunked || hs.any fun p => ciEqual p.1 teName)) ∧
    (s'.length.isSome = (s.length.isSome || hs.any fun p => ciEqual p.1 clName)) ∧
    s'.reusable = (match lastConn hs with | none => s.reusable | some v => !ciEqual v closeVal) := by
  intro hs
  induction hs with
  | nil =>
    intro s s' h
    cases h
    simp [lastConn]
  | cons p hs ih =>
    intro s s' h
    obtain ⟨k, v⟩ := p
    have hlast : ∀ b : Bool, ciEqual k connName = b → lastConn ((k, v) :: hs) = if b then some ((lastConn hs).getD v) else lastConn hs := by
      intro b hb
      cases b with
      | true =>
        simp only [lastConn, List.filter_cons, hb, if_true, List.map_cons, List.getLast?_cons]
      | false => simp [lastConn, List.filter_cons, hb]
    rw [seenLoop] at h
    split at h
    · rename_i hc
      simp only [Bool.and_eq_true, Bool.not_eq_true'] at hc
      have hnc : ciEqual k connName = false := by
        cases hk : ciEqual k connName with
        | false => rfl
        | true => rw [(conn_te k hk).1] at hc; exact absurd hc.2 (by decide)
      have hnl : ciEqual k clName = false := by
        cases hk : ciEqual k clName with
        | false => rfl
        | true => exact (ciEqual_both k hc.2 hk).elim
      obtain ⟨i1, i2, i3⟩ := ih _ _ h
      rw [i1, i2, i3, hlast _ hnc]
      simp [hc.2, hnl]
    · rename_i hc
      split at h
      · rename_i hc2
        simp only [Bool.and_eq_true] at hc2
        have hnt : ciEqual k teName = false := by
          cases hk : ciEqual k teName with
          | false => rfl
          | true => exact (ciEqual_both k hk hc2.2).elim
        have hnc : ciEqual k connName = false := by
          cases hk : ciEqual k connName with
          | false => rfl
          | true => rw [(conn_te k hk).2] at hc2; exact absurd hc2.2 (by decide)
        split at h
        · cases h
        · obtain ⟨i1, i2, i3⟩ := ih _ _ h
          rw [i1, i2, i3, hlast _ hnc]
          simp [hc2.2, hnt]
      · rename_i hc2
        have hch : (s.chunked || ciEqual k teName) = s.chunked := by
          cases h1 : s.chunked <;> cases h2 : ciEqual k teName <;> simp_all
        have hcl : (s.length.isSome || ciEqual k clName) = s.length.isSome := by
          cases h1 : s.length <;> cases h2 : ciEqual k clName <;> simp_all
        split at h
        · rename_i hk
          obtain ⟨i1, i2, i3⟩ := ih _ _ h
          rw [i1, i2, i3, hlast _ hk]
          refine ⟨?_, ?_, ?_⟩
          · rw [List.any_cons, ← Bool.or_assoc, hch]
          · rw [List.any_cons, ← Bool.or_assoc, hcl]
          · cases lastConn hs <;> rfl
        · rename_i hk
          have hk' : ciEqual k connName = false := by simpa using hk
          obtain ⟨i1, i2, i3⟩ := ih _ _ h
          rw [i1, i2, i3, hlast _ hk']
          refine ⟨?_, ?_, rfl⟩
          · rw [List.any_cons, ← Bool.or_assoc, hch]
          · rw [List.any_cons, ← Bool.or_assoc, hcl]

/-- A response with both a `Transfer-Encoding` and a `Content-Length`, in any order and any case, is refused. -/
theorem C132_ambiguous (h : Head) (p q : Bytes × Bytes) (hp : p ∈ h.headers) (hq : q ∈ h.headers) (h1 : ciEqual p.1 teName = true) (h2 : ciEqual q.1 clName = true) : frame h = none := by
  unfold frame
  cases hs : seenLoop h.headers { reusable := h.minor > 0 } with
  | none => rfl
  | some s =>
    obtain ⟨e1, e2, _⟩ := seen_spec _ _ _ hs
    dsimp only
    rw [if_pos]
    rw [e1, e2]
    simp only [Bool.and_eq_true, Bool.or_eq_true, List.any_eq_true]
    exact ⟨.inr ⟨q, hq, h2⟩, .inr ⟨p, hp, h1⟩⟩

/-- The connection can be used again unless the last header `Connection` is `close`; without this header, unless the version is 1.0. -/
theorem C132_reusable (h : Head) (f : Framing) (ru : Bool) (hf : frame h = some (f, ru)) :
    ru = (match lastConn h.headers with | none => decide (h.minor > 0) | some v => !ciEqual v closeVal) := by
  unfold frame at hf
  cases hs : seenLoop h.headers { reusable := h.minor > 0 } with
  | none => rw [hs] at hf; cases hf
  | some s =>
    rw [hs] at hf
    dsimp only at hf
    split at hf
    · cases hf
    · simp only [Option.some.injEq, Prod.mk.injEq] at hf
      rw [← hf.2, (seen_spec _ _ _ hs).2.2]

/-! ## What is wrong -/

section
variable {D : Type} {phr : Bytes → PhrRes} {dec : D → Bytes → DecRes D} {d0 : D} {max : Nat}

/-- An interim response is taken for the response, and from then on every call gets the response to the call before. -/
theorem C133_interim_partial (hD : Incremental dec) (w0 w1 w2 : Wire) (h0 : w0.OK phr dec d0 max) (h1 : w1.OK phr dec d0 max) (_ : w0.head.status = 100)
    (hh0 : w0.isHead = w1.isHead) (hh : w1.isHead = w2.isHead) :
    session phr dec d0 max (Inflight.idle d0) [] [(w1.isHead, [w0.bytes ++ w1.bytes]), (w2.isHead, [w2.bytes])] =
      some (Inflight.idle d0, w2.bytes, [[w0.response], [w1.response]]) := by
  have e0 : check phr dec d0 max w1.isHead (Inflight.idle d0) (w0.bytes ++ w1.bytes) = .ok (Inflight.idle d0) w1.bytes (some w0.response) := by
    rw [← hh0]; exact check_wire hD w0 h0 w1.bytes
  have e1 : check phr dec d0 max w2.isHead (Inflight.idle d0) (w1.bytes ++ w2.bytes) = .ok (Inflight.idle d0) w2.bytes (some w1.response) := by
    rw [← hh]; exact check_wire hD w1 h1 w2.bytes
  simp only [session, exchange, List.nil_append]
  rw [e0]
  simp only [Option.map_some]
  rw [e1]
  rfl

/-- A response without a length, whose body ends with the connection, is given to the caller without its body; the body stays in the buffer, for the next response. -/
theorem C133_close_partial (b body : Bytes) (h : Head) (hb : HeadOK phr max b h) (hn : h.headers = []) :
    exchange phr dec d0 max false (Inflight.idle d0) [] [b ++ body] = some (Inflight.idle d0, body, [⟨h, decide (h.minor > 0), []⟩]) := by
  have hf : frame h = some (.length ([] : Bytes).length, decide (h.minor > 0)) := by
    rw [frame, hn]; rfl
  have e := check_length (dec := dec) (d0 := d0) hb hf (by simpa using hb.fits) body
  simp only [exchange, List.nil_append] at e ⊢
  rw [e]
  rfl

/-- A response that has a length but, by its status (304), no body: the caller waits, and the bytes of the next response are taken for the body. The same happens to the response
to a HEAD if the connection does not know of it yet. -/
theorem C133_waits_partial (b next : Bytes) (h : Head) (ru : Bool) (hb : HeadOK phr max b h) (hk : next ≠ []) (hf : frame h = some (.length next.length, ru)) (hfit : b.length + next.length ≤ max) :
    ∃ st, exchange phr dec d0 max false (Inflight.idle d0) [] [b] = some (st, [], []) ∧
      exchange phr dec d0 max false st [] [next] = some (Inflight.idle d0, [], [⟨h, ru, next⟩]) := by
  refine ⟨⟨false, ⟨h, ru, []⟩, next.length, b.length, false, d0⟩, ?_, ?_⟩
  · simp only [exchange, List.nil_append]
    rw [check_short hb (List.length_pos_iff.2 hk) hf]
    rfl
  · simp only [exchange, List.nil_append]
    rw [check_cons false _ hk, headPart, if_neg (by simp)]
    dsimp only
    simp only [Inflight.noBody]
    rw [if_neg (by decide), List.drop_zero, parseContent, if_neg (by simp)]
    dsimp only
    rw [Nat.min_self, List.take_length, List.drop_length, Nat.sub_self, appendBuffer, if_pos (by simpa using hfit)]
    simp [settle_idle]

/-- The connection is told the method of a request after it has been written: if the response is there before, and the request before was a HEAD, the caller gets no body, and
the body stays in the buffer for the next response. -/
theorem C133_stale_partial (w : Wire) (hw : w.OK phr dec d0 max) :
    exchange phr dec d0 max true (Inflight.idle d0) [] [w.bytes] = some (Inflight.idle d0, w.bodyBytes, [⟨w.head, w.reusable, []⟩]) := by
  obtain ⟨f, hf⟩ : ∃ f, frame w.head = some (f, w.reusable) := by
    rcases hw.framed with ⟨_, h, _⟩ | ⟨_, h, _⟩ | ⟨_, h, _⟩
    · exact ⟨_, h⟩
    · exact ⟨_, h⟩
    · exact h
  simp only [exchange, List.nil_append, Wire.bytes]
  rw [check_noBody hw.head hf]
  rfl

end

/-- Of two lengths that differ the first counts. -/
theorem C133_lengths_partial (m : Nat) (st : Int) (rs : Bytes) (n : Nat) (v w : Bytes) (h : parseContentLength (v ++ [13]) v.length = some n) :
    frame ⟨m, st, rs, [(clName, v), (clName, w)]⟩ = some (.length n, decide (m > 0)) := by
  have h1 : ciEqual clName teName = false := by decide +kernel
  have h2 : ciEqual clName clName = true := by decide +kernel
  have h3 : ciEqual clName connName = false := by decide +kernel
  simp [frame, seenLoop, h1, h2, h3, h]

/-- The value of Transfer-Encoding is not looked at. -/
theorem C133_encoding_partial (m : Nat) (st : Int) (rs v : Bytes) : frame ⟨m, st, rs, [(teName, v)]⟩ = some (.chunked, decide (m > 0)) := by
  have h1 : ciEqual teName teName = true := by decide +kernel
  simp [frame, seenLoop, h1]

/-- `Connection: close` together with other options is not recognised. -/
theorem C133_options_partial (m : Nat) (st : Int) (rs v : Bytes) (hv : v ≠ []) :
    frame ⟨m, st, rs, [(connName, closeVal ++ v)]⟩ = some (.length 0, true) := by
  have h1 : ciEqual connName teName = false := by decide +kernel
  have h2 : ciEqual connName clName = false := by decide +kernel
  have h3 : ciEqual connName connName = true := by decide +kernel
  have h4 : ciEqual (closeVal ++ v) closeVal = false := by
    have := List.length_pos_iff.2 hv
    rw [ciEqual, decide_eq_false (by rw [List.length_append]; omega), Bool.false_and]
  simp [frame, seenLoop, h1, h2, h3, h4]

/-! ## The hypotheses can be met -/

/-- A parser that takes everything up to the mark for a head: in chunks when it begins with `c`, otherwise with a body of two bytes. -/
def phrEx (b : Bytes) : PhrRes :=
  if hasMark b then
    .ok (untilMark b).length ⟨1, 200, [], if b.head? = some 99 then [(teName, [99])] else [(clName, [50])]⟩
  else .more

theorem phrEx_ok {b : Bytes} {n : Nat} {h : Head} (e : phrEx b = .ok n h) : hasMark b = true ∧ n = (untilMark b).length := by
  rw [phrEx] at e
  split at e
  · rename_i hm
    simp only [PhrRes.ok.injEq] at e
    exact ⟨hm, e.1.symm⟩
  · cases e

theorem phrEx_err : ErrExt phrEx := by
  intro b t h
  rw [phrEx] at h
  split at h <;> cases h

theorem phrEx_len : PhrLen phrEx := by
  intro b n h e
  obtain ⟨hm, rfl⟩ := phrEx_ok e
  obtain ⟨u, hu⟩ := untilMark_end b hm
  refine ⟨?_, (untilMark_prefix b).length_le⟩
  rw [hu, List.length_append]
  exact Nat.lt_of_lt_of_le (by decide) (Nat.le_add_left mark.length u.length)

theorem phrEx_strict (S : Bytes) : Strict phrEx S := by
  intro w n h _ e
  obtain ⟨hm, rfl⟩ := phrEx_ok e
  obtain ⟨u, hu⟩ := untilMark_end w hm
  exact ⟨u, by rw [← List.prefix_iff_eq_take.1 (untilMark_prefix w), hu]⟩

def wireEx1 : Wire := ⟨false, headEx1, ⟨1, 200, [], [(clName, [50])]⟩, true, [7, 8], [7, 8]⟩
def wireEx2 : Wire := ⟨false, headEx2, ⟨1, 200, [], [(teName, [99])]⟩, true, [5, 6, 7, 0], [5, 6, 7]⟩
def wireEx3 : Wire := ⟨true, headEx1, ⟨1, 200, [], [(clName, [50])]⟩, true, [], []⟩

theorem headEx1_ok : HeadOK phrEx 40 headEx1 ⟨1, 200, [], [(clName, [50])]⟩ := ⟨by decide, by decide +kernel, by decide +kernel, by decide +kernel, by decide⟩
theorem headEx2_ok : HeadOK phrEx 40 headEx2 ⟨1, 200, [], [(teName, [99])]⟩ := ⟨by decide, by decide +kernel, by decide +kernel, by decide +kernel, by decide⟩

theorem wireEx1_ok : wireEx1.OK phrEx decEx () 40 := ⟨headEx1_ok, by decide, .inl ⟨rfl, by decide +kernel, rfl⟩⟩
theorem wireEx2_ok : wireEx2.OK phrEx decEx () 40 := ⟨headEx2_ok, by decide, .inr (.inl ⟨rfl, by decide +kernel, (), by decide +kernel⟩)⟩
theorem wireEx3_ok : wireEx3.OK phrEx decEx () 40 := ⟨headEx1_ok, by decide, .inr (.inr ⟨rfl, ⟨.length 2, by decide +kernel⟩, rfl, rfl⟩)⟩

-- a response with a length, one to a HEAD and one in chunks, cut in the middle of the mark and of the body
example : session phrEx decEx () 40 (Inflight.idle ()) []
      [(false, [headEx1.take 15, headEx1.drop 15 ++ [7], [8]]), (true, [headEx1]), (false, [headEx2 ++ [5, 6], [7, 0]])] =
    some (Inflight.idle (), [], [[wireEx1.response], [wireEx3.response], [wireEx2.response]]) :=
  C132_received phrEx_err phrEx_len decEx_incremental
    [(wireEx1, [headEx1.take 15, headEx1.drop 15 ++ [7], [8]]), (wireEx3, [headEx1]), (wireEx2, [headEx2 ++ [5, 6], [7, 0]])] (by
      intro c hc
      simp only [List.mem_cons, List.not_mem_nil, or_false] at hc
      rcases hc with rfl | rfl | rfl
      · exact ⟨wireEx1_ok, phrEx_strict _, by decide +kernel⟩
      · exact ⟨wireEx3_ok, phrEx_strict _, by decide +kernel⟩
      · exact ⟨wireEx2_ok, phrEx_strict _, by decide +kernel⟩)

example : exchange phrEx decEx () 40 true (Inflight.idle ()) [] [wireEx1.bytes] = some (Inflight.idle (), [7, 8], [⟨wireEx1.head, true, []⟩]) :=
  C133_stale_partial wireEx1 wireEx1_ok

end Verif.Http.Client
