import Verif.Http.Checker
/-!
# C76, C77: the checker of requests
-/

namespace Verif.Http

/-! ## Up to the mark -/

/-- There is a mark somewhere. -/
def hasMark : Bytes → Bool
  | [] => false
  | c :: s => mark.isPrefixOf (c :: s) || hasMark s

theorem untilMark_cons_pos {c : UInt8} {s : Bytes} (h : mark.isPrefixOf (c :: s) = true) : untilMark (c :: s) = mark := by
  rw [untilMark, if_pos h]

theorem untilMark_cons_neg {c : UInt8} {s : Bytes} (h : mark.isPrefixOf (c :: s) = false) : untilMark (c :: s) = c :: untilMark s := by
  rw [untilMark, if_neg (by simp [h])]

theorem prefix_ext {m s : Bytes} (t : Bytes) (h : m.isPrefixOf s = true) : m.isPrefixOf (s ++ t) = true := by
  rw [List.isPrefixOf_iff_prefix] at *
  exact h.trans (List.prefix_append s t)

theorem untilMark_prefix (s : Bytes) : untilMark s <+: s := by
  induction s with
  | nil => exact List.prefix_rfl
  | cons c s ih =>
    cases h : mark.isPrefixOf (c :: s)
    · rw [untilMark_cons_neg h]
      exact (List.prefix_cons_inj c).2 ih
    · rw [untilMark_cons_pos h]
      exact List.isPrefixOf_iff_prefix.1 h

theorem untilMark_ext (s t : Bytes) (h : hasMark s = true) : untilMark (s ++ t) = untilMark s := by
  induction s with
  | nil => cases h
  | cons c s ih =>
    cases hp : mark.isPrefixOf (c :: s)
    · rw [hasMark, hp, Bool.false_or] at h
      rw [untilMark_cons_neg hp, List.cons_append]
      cases hp' : mark.isPrefixOf (c :: (s ++ t))
      · rw [untilMark_cons_neg hp', ih h]
      · exfalso
        -- a mark that begins here ends here, as there is another one behind it
        have hlen : 4 ≤ (c :: s).length := by
          have : ∀ s : Bytes, hasMark s = true → 4 ≤ s.length := by
            intro s
            induction s with
            | nil => intro h; cases h
            | cons c s ih =>
              intro h
              rw [hasMark, Bool.or_eq_true] at h
              rcases h with h | h
              · have := (List.isPrefixOf_iff_prefix.1 h).length_le
                exact this
              · have := ih h
                rw [List.length_cons]
                omega
          have := this s h
          rw [List.length_cons]
          omega
        have h1 := List.isPrefixOf_iff_prefix.1 hp'
        rw [← List.cons_append] at h1
        have h2 : mark <+: c :: s := List.prefix_of_prefix_length_le h1 (List.prefix_append _ _) hlen
        rw [List.isPrefixOf_iff_prefix.2 h2] at hp
        cases hp
    · rw [untilMark_cons_pos hp, List.cons_append, untilMark_cons_pos]
      exact prefix_ext t hp

theorem untilMark_none (s : Bytes) (h : hasMark s = false) : untilMark s = s := by
  induction s with
  | nil => rfl
  | cons c s ih =>
    rw [hasMark, Bool.or_eq_false_iff] at h
    rw [untilMark_cons_neg h.1, ih h.2]

theorem prefix_until (s t : Bytes) (h : hasMark s = false) : s <+: untilMark (s ++ t) := by
  induction s with
  | nil => exact List.nil_prefix
  | cons c s ih =>
    rw [hasMark, Bool.or_eq_false_iff] at h
    rw [List.cons_append]
    cases hp : mark.isPrefixOf (c :: (s ++ t))
    · rw [untilMark_cons_neg hp]
      exact (List.prefix_cons_inj c).2 (ih h.2)
    · rw [untilMark_cons_pos hp]
      have h1 := List.isPrefixOf_iff_prefix.1 hp
      rw [← List.cons_append] at h1
      rcases Nat.lt_or_ge (c :: s).length 4 with hl | hl
      · exact List.prefix_of_prefix_length_le (List.prefix_append _ _) h1 (Nat.le_of_lt hl)
      · have h2 : mark <+: c :: s := List.prefix_of_prefix_length_le h1 (List.prefix_append _ _) hl
        rw [List.isPrefixOf_iff_prefix.2 h2] at h
        cases h.1

/-- More data only add to what is looked at. -/
theorem untilMark_mono (s t : Bytes) : untilMark s <+: untilMark (s ++ t) := by
  cases h : hasMark s
  · rw [untilMark_none s h]
    exact prefix_until s t h
  · rw [untilMark_ext s t h]
    exact List.prefix_rfl

theorem cut_mono (max : Nat) (s t : Bytes) : cut max s <+: cut max (s ++ t) := by
  rw [cut, cut, List.prefix_take_iff]
  exact ⟨(List.take_prefix _ _).trans (untilMark_mono s t), by rw [List.length_take]; omega⟩

theorem cut_infix (max : Nat) (s : Bytes) : cut max s <+: s := (List.take_prefix _ _).trans (untilMark_prefix s)

/-- A text that ends with a mark has one. -/
theorem hasMark_end (u v : Bytes) : hasMark (u ++ mark ++ v) = true := by
  induction u with
  | nil => rfl
  | cons c u ih =>
    simp only [List.cons_append, hasMark, ih, Bool.or_true]

/-! ## What is assumed of the parsers -/

/-- An error stays an error when there are more data. -/
def ErrExt (phr : Bytes → PhrRes) : Prop := ∀ b t, phr b = .error → phr (b ++ t) = .error

/-- What is parsed is not longer than what was given, and not empty. -/
def PhrLen (phr : Bytes → PhrRes) : Prop := ∀ b n h, phr b = .ok n h → 0 < n ∧ n ≤ b.length

/-- In the data `S` heads end with CR LF CR LF. -/
def Strict (phr : Bytes → PhrRes) (S : Bytes) : Prop := ∀ w n h, w <:+: S → phr w = .ok n h → ∃ u, w.take n = u ++ mark

/-- An incremental decoder. -/
structure Incremental {D : Type} (dec : D → Bytes → DecRes D) : Prop where
  nil : ∀ d, dec d [] = .more d []
  error : ∀ d a b, dec d a = .error → dec d (a ++ b) = .error
  done : ∀ d a b d' out left, dec d a = .done d' out left → dec d (a ++ b) = .done d' out (left + b.length)
  left : ∀ d a d' out left, dec d a = .done d' out left → left < a.length
  more : ∀ d a b d' out, dec d a = .more d' out → dec d (a ++ b) =
    match dec d' b with
    | .error => .error
    | .more d'' out' => .more d'' (out ++ out')
    | .done d'' out' left => .done d'' (out ++ out') left

section
variable {D : Type} {phr : Bytes → PhrRes} {dec : D → Bytes → DecRes D} {d0 : D} {max : Nat}

theorem parseHeader_error (hE : ErrExt phr) {s : Bytes} (t : Bytes)
    (h : parseHeader phr d0 max s = .error) (hS : Strict phr s) : parseHeader phr d0 max (s ++ t) = .error := by
  rw [parseHeader] at h ⊢
  have hmono := cut_mono max s t
  split at h
  · cases h
  · rename_i hlen
    rw [if_neg (by rw [List.length_append]; omega)]
    dsimp only at h ⊢
    split at h
    · rename_i hbig
      rw [if_pos (Nat.lt_of_lt_of_le hbig hmono.length_le)]
    · rename_i hbig
      split
      · rfl
      · split at h
        · rename_i hphr
          obtain ⟨r, hr⟩ := hmono
          rw [← hr, hE _ r hphr]
        · cases h
        · rename_i n hd hphr
          obtain ⟨u, hu⟩ := hS _ n hd (cut_infix max s).isInfix hphr
          have hm : hasMark s = true := by
            obtain ⟨r, hr⟩ := cut_infix max s
            have h1 : cut max s = u ++ mark ++ (cut max s).drop n := by rw [← hu, List.take_append_drop]
            rw [← hr, h1, List.append_assoc (u ++ mark)]
            exact hasMark_end _ _
          have : cut max (s ++ t) = cut max s := by rw [cut, cut, untilMark_ext s t hm]
          rw [this, hphr]
          exact h

theorem parseHeader_ok {s : Bytes} (t : Bytes) {r : Nat × Inflight D}
    (h : parseHeader phr d0 max s = .ok r) (hS : Strict phr s) : parseHeader phr d0 max (s ++ t) = .ok r := by
  rw [parseHeader] at h ⊢
  split at h
  · cases h
  · rename_i hlen
    rw [if_neg (by rw [List.length_append]; omega)]
    dsimp only at h ⊢
    split at h
    · cases h
    · rename_i hbig
      split at h
      · cases h
      · cases h
      · rename_i n hd hphr
        obtain ⟨u, hu⟩ := hS _ n hd (cut_infix max s).isInfix hphr
        have hm : hasMark s = true := by
          obtain ⟨r, hr⟩ := cut_infix max s
          have h1 : cut max s = u ++ mark ++ (cut max s).drop n := by rw [← hu, List.take_append_drop]
          rw [← hr, h1, List.append_assoc (u ++ mark)]
          exact hasMark_end _ _
        have : cut max (s ++ t) = cut max s := by rw [cut, cut, untilMark_ext s t hm]
        rw [this, if_neg hbig, hphr]
        exact h

/-- What a head sets. -/
theorem parseHeader_state (hL : PhrLen phr) {s : Bytes} {n : Nat} {st : Inflight D} (h : parseHeader phr d0 max s = .ok (n, st)) :
    st.newRequest = true ∧ 0 < n ∧ n ≤ s.length ∧ st.body = [] ∧ n + st.maxBody ≤ max ∧ (st.chunked = false → st.expect ≤ st.maxBody) := by
  rw [parseHeader] at h
  split at h
  · cases h
  · dsimp only at h
    split at h
    · cases h
    · rename_i hbig
      split at h
      · cases h
      · cases h
      · rename_i n' hd hphr
        have hn := hL _ _ _ hphr
        have hc := (cut_infix max s).length_le
        split at h
        · cases h
        · simp only [HeadRes.ok.injEq, Prod.mk.injEq] at h
          obtain ⟨h1, h2⟩ := h
          subst h1; subst h2
          exact ⟨rfl, hn.1, by omega, rfl, by dsimp only; omega, fun hc => Bool.noConfusion hc⟩
        · rename_i k hf
          simp only [HeadRes.ok.injEq, Prod.mk.injEq] at h
          obtain ⟨h1, h2⟩ := h
          subst h1; subst h2
          have hk : k ≤ max - n' := by
            rw [frame] at hf
            have key : ∀ (hs : List (Bytes × Bytes)) (ch : Bool) (cl : Option Nat) (r : Bool × Option Nat), (∀ m ∈ cl, m ≤ max - n') →
                frameLoop (max - n') hs ch cl = some r → ∀ m ∈ r.2, m ≤ max - n' := by
              intro hs
              induction hs with
              | nil =>
                intro ch cl r hcl hr
                simp only [frameLoop, Option.some.injEq] at hr
                subst hr
                exact hcl
              | cons p hs ih =>
                intro ch cl r hcl hr
                rw [frameLoop] at hr
                split at hr
                · exact ih _ _ _ hcl hr
                · split at hr
                  · split at hr
                    · cases hr
                    · split at hr
                      · cases hr
                      · rename_i hle
                        exact ih _ _ _ (by intro m hm; cases hm; omega) hr
                  · exact ih _ _ _ hcl hr
            split at hf
            · cases hf
            · cases hf
            · cases hf
            · rename_i cl hfl
              have := key _ _ _ _ (by intro m hm; cases hm) hfl
              simp only [Option.some.injEq, Framing.length.injEq] at hf
              subst hf
              rcases cl with _ | m
              · exact Nat.zero_le _
              · exact this m rfl
          refine ⟨rfl, hn.1, by omega, rfl, by dsimp only; omega, fun _ => ?_⟩
          dsimp only
          omega

/-- The state between two checks. -/
structure Inflight.WF (st : Inflight D) : Prop where
  open_ : st.newRequest = false → st.chunked = false → 0 < st.expect

theorem append_full {st st' : Inflight D} {b : Bytes} {full : Bool} {rs : List (Option Head × Bytes)}
    (h : appendBuffer st b full = some (st', rs)) :
    st' = { st with body := st.body ++ b, newRequest := full } ∧ rs = (if full then [(st.head, st.body ++ b)] else []) ∧
      st.body.length + b.length ≤ st.maxBody := by
  rw [appendBuffer] at h
  split at h
  · rename_i hle
    simp only [Option.some.injEq, Prod.mk.injEq] at h
    exact ⟨h.1.symm, h.2.symm, hle⟩
  · cases h

/-- A body that is complete: nothing behind it matters. -/
theorem content_full (hD : Incremental dec) {st st' : Inflight D} {s rest : Bytes} {rs : List (Option Head × Bytes)} (t : Bytes)
    (h : parseContent dec st s = some (st', rest, rs)) (hf : st'.newRequest = true) :
    parseContent dec st (s ++ t) = some (st', rest ++ t, rs) := by
  rw [parseContent] at h ⊢
  split at h
  · rename_i hch
    rw [if_pos hch]
    split at h
    · cases h
    · obtain ⟨r, hr, he⟩ := Option.map_eq_some_iff.1 h
      have := append_full (b := _) (show appendBuffer _ _ _ = some (r.1, r.2) from hr)
      simp only [Prod.mk.injEq] at he
      rw [← he.1, this.1] at hf
      cases hf
    · rename_i d'' out left hdec
      have hleft := hD.left _ _ _ _ _ hdec
      rw [hD.done _ _ t _ _ _ hdec]
      dsimp only
      obtain ⟨r, hr, he⟩ := Option.map_eq_some_iff.1 h
      simp only [Prod.mk.injEq] at he
      obtain ⟨h1, h2, h3⟩ := he
      rw [hr]
      simp only [Option.map_some, h1, h3, Option.some.injEq, Prod.mk.injEq, true_and, and_true]
      rw [← h2, List.length_append, show s.length + t.length - (left + t.length) = s.length - left by omega]
      rw [List.drop_append_of_le_length (by omega)]
  · rename_i hch
    rw [if_neg hch]
    obtain ⟨r, hr, he⟩ := Option.map_eq_some_iff.1 h
    simp only [Prod.mk.injEq] at he
    obtain ⟨h1, h2, h3⟩ := he
    have ha := append_full (show appendBuffer _ _ _ = some (r.1, r.2) from hr)
    rw [h1] at ha
    have hz : st.expect - min st.expect s.length = 0 := by
      have := congrArg Inflight.newRequest ha.1
      rw [hf] at this
      simpa using this.symm
    have hk : st.expect ≤ s.length := by omega
    have hmin : min st.expect (s ++ t).length = min st.expect s.length := by
      rw [List.length_append]; omega
    dsimp only
    rw [hmin, List.take_append_of_le_length (by omega), hr]
    simp only [Option.map_some, h1, h3, Option.some.injEq, Prod.mk.injEq, true_and, and_true]
    rw [← h2, List.drop_append_of_le_length (by omega)]

/-- A body that is not complete: everything was read, and it goes on with the next data. -/
theorem content_partial (hD : Incremental dec) {st st' : Inflight D} {s rest : Bytes} {rs : List (Option Head × Bytes)} (t : Bytes)
    (h : parseContent dec st s = some (st', rest, rs)) (hf : st'.newRequest = false) :
    rest = [] ∧ rs = [] ∧ st'.WF ∧ parseContent dec st (s ++ t) = parseContent dec st' t := by
  rw [parseContent] at h
  split at h
  · rename_i hch
    split at h
    · cases h
    · rename_i d out hdec
      obtain ⟨r, hr, he⟩ := Option.map_eq_some_iff.1 h
      simp only [Prod.mk.injEq] at he
      obtain ⟨h1, h2, h3⟩ := he
      have ha := append_full (show appendBuffer _ _ _ = some (r.1, r.2) from hr)
      rw [h1] at ha
      obtain ⟨hst, hrs, hle⟩ := ha
      dsimp only at hst hle
      refine ⟨h2.symm, by rw [← h3, hrs]; rfl, ⟨fun _ hc => ?_⟩, ?_⟩
      · rw [hst] at hc
        rw [hch] at hc
        cases hc
      · have hch' : st'.chunked = true := by rw [hst]; exact hch
        have hd' : st'.dec = d := by rw [hst]
        rw [parseContent, parseContent, if_pos hch, if_pos hch', hD.more _ _ t _ _ hdec, hd']
        rcases hb : dec d t with _ | ⟨d'', out'⟩ | ⟨d'', out', left⟩
        · rfl
        · dsimp only
          rw [hst]
          simp only [appendBuffer, List.length_append, List.append_assoc, Nat.add_assoc]
        · dsimp only
          have hl := hD.left _ _ _ _ _ hb
          rw [hst]
          simp only [appendBuffer, List.length_append, List.append_assoc, Nat.add_assoc]
          rw [show s.length + t.length - left = s.length + (t.length - left) by omega, ← List.drop_drop, List.drop_left]
    · obtain ⟨r, hr, he⟩ := Option.map_eq_some_iff.1 h
      have := append_full (show appendBuffer _ _ _ = some (r.1, r.2) from hr)
      simp only [Prod.mk.injEq] at he
      rw [← he.1, this.1] at hf
      cases hf
  · rename_i hch
    obtain ⟨r, hr, he⟩ := Option.map_eq_some_iff.1 h
    simp only [Prod.mk.injEq] at he
    obtain ⟨h1, h2, h3⟩ := he
    have ha := append_full (show appendBuffer _ _ _ = some (r.1, r.2) from hr)
    rw [h1] at ha
    obtain ⟨hst, hrs, hle⟩ := ha
    dsimp only at hst hle
    have hz : ¬ st.expect - min st.expect s.length = 0 := by
      have := congrArg Inflight.newRequest hst
      rw [hf] at this
      simpa using this.symm
    have hk : s.length < st.expect := by omega
    have hmin : min st.expect s.length = s.length := by omega
    rw [hmin] at hst h2 hrs hle
    have hdec : decide (st.expect - s.length = 0) = false := by rw [decide_eq_false]; omega
    rw [hdec] at hst hrs
    rw [List.take_length] at hst hrs hle
    refine ⟨by rw [← h2, List.drop_length], by rw [← h3, hrs]; rfl, ⟨fun _ _ => ?_⟩, ?_⟩
    · rw [hst]; dsimp only; omega
    · have hch' : ¬ st'.chunked = true := by rw [hst]; exact hch
      rw [parseContent, parseContent, if_neg hch, if_neg hch', hst]
      dsimp only
      have hm2 : min st.expect (s ++ t).length = s.length + min (st.expect - s.length) t.length := by
        rw [List.length_append]; omega
      rw [hm2, List.take_length_add_append, List.drop_length_add_append]
      simp only [appendBuffer, List.length_append, List.append_assoc, Nat.sub_sub, Nat.add_assoc]

theorem content_error (hD : Incremental dec) {st : Inflight D} {s : Bytes} (t : Bytes) (h : parseContent dec st s = none) :
    parseContent dec st (s ++ t) = none := by
  rw [parseContent] at h ⊢
  split at h
  · rename_i hch
    rw [if_pos hch]
    split at h
    · rename_i hdec
      rw [hD.error _ _ t hdec]
    · rename_i d out hdec
      rw [hD.more _ _ t _ _ hdec]
      rw [Option.map_eq_none_iff, appendBuffer] at h
      split at h
      · cases h
      · rename_i hle
        dsimp only at hle
        rcases dec d t with _ | ⟨d'', out'⟩ | ⟨d'', out', left⟩
        · rfl
        · dsimp only
          rw [appendBuffer, if_neg (by dsimp only; rw [List.length_append]; omega)]
          rfl
        · dsimp only
          rw [appendBuffer, if_neg (by dsimp only; rw [List.length_append]; omega)]
          rfl
    · rename_i d'' out left hdec
      rw [hD.done _ _ t _ _ _ hdec]
      rw [Option.map_eq_none_iff] at h
      dsimp only
      rw [h]
      rfl
  · rename_i hch
    rw [if_neg hch]
    rw [Option.map_eq_none_iff, appendBuffer] at h
    split at h
    · cases h
    · rename_i hle
      dsimp only at hle ⊢
      rw [appendBuffer, if_neg]
      · rfl
      · dsimp only
        simp only [List.length_take, List.length_append] at hle ⊢
        omega

/-- Nothing is read twice and something is read. -/
theorem content_rest (hD : Incremental dec) {st st' : Inflight D} {s rest : Bytes} {rs : List (Option Head × Bytes)}
    (h : parseContent dec st s = some (st', rest, rs)) :
    rest <:+ s ∧ (s ≠ [] → (st.chunked = false → 0 < st.expect) → rest.length < s.length) := by
  rw [parseContent] at h
  split at h
  · rename_i hch
    split at h
    · cases h
    · obtain ⟨r, hr, he⟩ := Option.map_eq_some_iff.1 h
      simp only [Prod.mk.injEq] at he
      rw [← he.2.1]
      exact ⟨List.nil_suffix, fun hs _ => List.length_pos_iff.2 hs⟩
    · rename_i d'' out left hdec
      obtain ⟨r, hr, he⟩ := Option.map_eq_some_iff.1 h
      simp only [Prod.mk.injEq] at he
      rw [← he.2.1]
      have := hD.left _ _ _ _ _ hdec
      exact ⟨List.drop_suffix _ _, fun hs _ => by rw [List.length_drop]; omega⟩
  · rename_i hch
    obtain ⟨r, hr, he⟩ := Option.map_eq_some_iff.1 h
    simp only [Prod.mk.injEq] at he
    rw [← he.2.1]
    refine ⟨List.drop_suffix _ _, fun hs hp => ?_⟩
    have h1 := hp (by simpa using hch)
    have h2 := List.length_pos_iff.2 hs
    rw [List.length_drop]
    omega

/-! ## Data that arrive in pieces -/

/-- The first half of the loop. -/
def headPart (phr : Bytes → PhrRes) (d0 : D) (max : Nat) (st : Inflight D) (s : Bytes) : HeadRes (Nat × Inflight D) :=
  if st.newRequest then parseHeader phr d0 max s else .ok (0, st)

theorem checkLoop_nil (st : Inflight D) (out : List (Option Head × Bytes)) : checkLoop phr dec d0 max st [] out = .ok st [] out := by
  rw [checkLoop, if_pos rfl]

theorem checkLoop_cons {st : Inflight D} {s : Bytes} (hs : s ≠ []) (out : List (Option Head × Bytes)) :
    checkLoop phr dec d0 max st s out =
      match headPart phr d0 max st s with
      | .error => .error
      | .more => .ok st s out
      | .ok (n, st1) =>
        match parseContent dec st1 (s.drop n) with
        | none => .error
        | some (st2, rest, rs) =>
          if rest.length < s.length then checkLoop phr dec d0 max (st2.settle d0) rest (out ++ rs) else .hang := by
  rw [checkLoop, if_neg hs, headPart]
  rfl

theorem idle_WF : (Inflight.idle d0).WF := ⟨fun h => Bool.noConfusion h⟩

theorem settle_WF {st : Inflight D} (h : st.newRequest = false → st.WF) : (st.settle d0).WF := by
  rw [Inflight.settle]
  split
  · exact idle_WF
  · rename_i hn
    exact h (by simpa using hn)

theorem Strict.mono {S T : Bytes} (h : Strict phr S) (hT : T <:+: S) : Strict phr T :=
  fun w n hd hw hp => h w n hd (hw.trans hT) hp

/-- What the head leaves for the body. -/
theorem headPart_ok (hL : PhrLen phr) {st st1 : Inflight D} {s : Bytes} {n : Nat} (hw : st.WF) (h : headPart phr d0 max st s = .ok (n, st1)) :
    n ≤ s.length ∧ (n = 0 → s.drop n = s ∧ (st1.chunked = false → 0 < st1.expect)) := by
  rw [headPart] at h
  split at h
  · have := parseHeader_state hL h
    exact ⟨this.2.2.1, fun hn => absurd hn (by omega)⟩
  · rename_i hn
    simp only [HeadRes.ok.injEq, Prod.mk.injEq] at h
    obtain ⟨h1, h2⟩ := h
    subst h1; subst h2
    exact ⟨Nat.zero_le _, fun _ => ⟨rfl, hw.open_ (by simpa using hn)⟩⟩

/-- There is no endless loop. -/
theorem progress (hL : PhrLen phr) (hD : Incremental dec) {st st1 st2 : Inflight D} {s rest : Bytes} {n : Nat} {rs : List (Option Head × Bytes)}
    (hw : st.WF) (hs : s ≠ []) (h : headPart phr d0 max st s = .ok (n, st1)) (hc : parseContent dec st1 (s.drop n) = some (st2, rest, rs)) :
    rest.length < s.length ∧ rest <:+ s := by
  obtain ⟨hn, hz⟩ := headPart_ok hL hw h
  obtain ⟨hr1, hr2⟩ := content_rest hD hc
  refine ⟨?_, hr1.trans (List.drop_suffix _ _)⟩
  rcases Nat.eq_zero_or_pos n with hn0 | hn0
  · obtain ⟨h1, h2⟩ := hz hn0
    rw [h1] at hr2
    exact hr2 hs h2
  · have := hr1.length_le
    rw [List.length_drop] at this
    omega

theorem loop_split (hE : ErrExt phr) (hL : PhrLen phr) (hD : Incremental dec) (t : Bytes) (N : Nat) :
    ∀ (s : Bytes) (st : Inflight D) (out : List (Option Head × Bytes)), s.length ≤ N → st.WF → Strict phr s →
      (checkLoop phr dec d0 max st s out = .error → checkLoop phr dec d0 max st (s ++ t) out = .error) ∧
      checkLoop phr dec d0 max st s out ≠ .hang ∧
      ∀ st' rest out', checkLoop phr dec d0 max st s out = .ok st' rest out' →
        st'.WF ∧ rest <:+ s ∧ checkLoop phr dec d0 max st (s ++ t) out = checkLoop phr dec d0 max st' (rest ++ t) out' := by
  induction N with
  | zero =>
    intro s st out hN hw hS
    have : s = [] := List.length_eq_zero_iff.1 (by omega)
    subst this
    rw [checkLoop_nil]
    refine ⟨fun h => (by cases h), fun h => (by cases h), ?_⟩
    intro st' rest out' h
    simp only [CheckRes.ok.injEq] at h
    obtain ⟨h1, h2, h3⟩ := h
    subst h1; subst h2; subst h3
    exact ⟨hw, List.nil_suffix, rfl⟩
  | succ N ih =>
    intro s st out hN hw hS
    by_cases hs : s = []
    · subst hs
      rw [checkLoop_nil]
      refine ⟨fun h => (by cases h), fun h => (by cases h), ?_⟩
      intro st' rest out' h
      simp only [CheckRes.ok.injEq] at h
      obtain ⟨h1, h2, h3⟩ := h
      subst h1; subst h2; subst h3
      exact ⟨hw, List.nil_suffix, rfl⟩
    have hst : s ++ t ≠ [] := by
      intro h
      exact hs (List.append_eq_nil_iff.1 h).1
    rw [checkLoop_cons hs, checkLoop_cons hst]
    rcases hh : headPart phr d0 max st s with _ | _ | ⟨n, st1⟩
    · -- an error in the head
      have : headPart phr d0 max st (s ++ t) = .error := by
        rw [headPart] at hh ⊢
        split at hh
        · rename_i hn
          rw [if_pos hn]
          exact parseHeader_error hE t hh hS
        · cases hh
      rw [this]
      exact ⟨fun _ => rfl, fun h => (by cases h), fun _ _ _ h => (by cases h)⟩
    · refine ⟨fun h => (by cases h), fun h => (by cases h), ?_⟩
      intro st' rest out' h
      simp only [CheckRes.ok.injEq] at h
      obtain ⟨h1, h2, h3⟩ := h
      subst h1; subst h2; subst h3
      rw [← checkLoop_cons hst]
      exact ⟨hw, List.suffix_rfl, rfl⟩
    · have hh' : headPart phr d0 max st (s ++ t) = .ok (n, st1) := by
        rw [headPart] at hh ⊢
        split at hh
        · rename_i hn
          rw [if_pos hn]
          exact parseHeader_ok t hh hS
        · rename_i hn
          rw [if_neg hn]
          exact hh
      obtain ⟨hn, -⟩ := headPart_ok hL hw hh
      rw [hh']
      dsimp only
      rw [List.drop_append_of_le_length hn]
      rcases hc : parseContent dec st1 (s.drop n) with _ | ⟨st2, rest, rs⟩
      · rw [content_error hD t hc]
        exact ⟨fun _ => rfl, fun h => (by cases h), fun _ _ _ h => (by cases h)⟩
      · obtain ⟨hlt, hsuf⟩ := progress hL hD hw hs hh hc
        dsimp only
        rw [if_pos hlt]
        cases hf : st2.newRequest
        · obtain ⟨h1, h2, h3, h4⟩ := content_partial hD t hc hf
          subst h1; subst h2
          have hset : st2.settle d0 = st2 := by rw [Inflight.settle, if_neg (by simp [hf])]
          rw [hset, checkLoop_nil, h4, List.append_nil]
          refine ⟨fun h => (by cases h), fun h => (by cases h), ?_⟩
          intro st' rest out' h
          simp only [CheckRes.ok.injEq] at h
          obtain ⟨g1, g2, g3⟩ := h
          subst g1; subst g2; subst g3
          refine ⟨h3, List.nil_suffix, ?_⟩
          rw [List.nil_append]
          by_cases ht : t = []
          · subst ht
            have h5 := h4
            rw [List.append_nil, hc] at h5
            rw [← h5, checkLoop_nil]
            dsimp only
            rw [if_pos (by rw [List.append_nil]; exact hlt), hset, checkLoop_nil, List.append_nil]
          · rw [checkLoop_cons ht, headPart, if_neg (by simp [hf])]
            dsimp only
            rw [List.drop_zero]
            rcases hc2 : parseContent dec st2 t with _ | ⟨st3, rest3, rs3⟩
            · rfl
            · dsimp only
              have := (content_rest hD hc2).2 ht (h3.open_ hf)
              rw [if_pos this, if_pos (by rw [List.length_append]; omega)]
        · have h1 := content_full hD t hc hf
          rw [h1]
          dsimp only
          rw [if_pos (by rw [List.length_append, List.length_append]; omega)]
          have hwf : (st2.settle d0).WF := settle_WF fun h => (by rw [hf] at h; cases h)
          have := ih rest (st2.settle d0) (out ++ rs) (by omega) hwf (hS.mono hsuf.isInfix)
          refine ⟨this.1, this.2.1, ?_⟩
          intro st' rest' out' h
          obtain ⟨g1, g2, g3⟩ := this.2.2 st' rest' out' h
          exact ⟨g1, g2.trans hsuf, g3⟩

theorem all_eq (hE : ErrExt phr) (hL : PhrLen phr) (hD : Incremental dec) (xs : List Bytes) :
    ∀ (st : Inflight D) (buf : Bytes) (out : List (Option Head × Bytes)), st.WF → Strict phr (buf ++ xs.flatten) →
      checkLoop phr dec d0 max st buf out = .ok st buf out →
      checkAll phr dec d0 max st buf out xs = checkLoop phr dec d0 max st (buf ++ xs.flatten) out := by
  induction xs with
  | nil =>
    intro st buf out hw hS h
    rw [checkAll, List.flatten_nil, List.append_nil, h]
  | cons x xs ih =>
    intro st buf out hw hS h
    rw [checkAll, List.flatten_cons, ← List.append_assoc]
    rw [List.flatten_cons, ← List.append_assoc] at hS
    have hS' : Strict phr (buf ++ x) := hS.mono (List.prefix_append _ _).isInfix
    have key := loop_split (d0 := d0) (max := max) hE hL hD xs.flatten _ (buf ++ x) st out (Nat.le_refl _) hw hS'
    rcases hr : checkLoop phr dec d0 max st (buf ++ x) out with _ | _ | ⟨st', rest, out'⟩
    · dsimp only
      rw [key.1 hr]
    · exact absurd hr key.2.1
    · dsimp only
      obtain ⟨h1, h2, h3⟩ := key.2.2 st' rest out' hr
      rw [h3]
      refine ih st' rest out' h1 (hS.mono ?_) ?_
      · obtain ⟨u, hu⟩ := h2
        rw [← hu, List.append_assoc]
        exact (List.suffix_append _ _).isInfix
      · obtain ⟨g1, g2, g3⟩ := (loop_split (d0 := d0) (max := max) hE hL hD [] _ (buf ++ x) st out (Nat.le_refl _) hw hS').2.2 st' rest out' hr
        rw [List.append_nil, List.append_nil, hr] at g3
        exact g3.symm

/-! ## C76 -/

/-- The requests that are passed on, and whether there is an error, do not depend on how the data were cut into pieces. -/
theorem C76_pieces (hE : ErrExt phr) (hL : PhrLen phr) (hD : Incremental dec) (xs : List Bytes) (hS : Strict phr xs.flatten) :
    checkAll phr dec d0 max (Inflight.idle d0) [] [] xs = checkLoop phr dec d0 max (Inflight.idle d0) xs.flatten [] :=
  all_eq hE hL hD xs _ [] [] idle_WF hS (checkLoop_nil _ _)

/-- The loop ends. -/
theorem C76_ends (hE : ErrExt phr) (hL : PhrLen phr) (hD : Incremental dec) (xs : List Bytes) (hS : Strict phr xs.flatten) :
    checkAll phr dec d0 max (Inflight.idle d0) [] [] xs ≠ .hang := by
  rw [C76_pieces hE hL hD xs hS]
  exact (loop_split hE hL hD [] _ xs.flatten _ [] (Nat.le_refl _) idle_WF hS).2.1

/-- A request on the wire: its head, as the parser reads it, and its body. -/
structure Wire where
  headBytes : Bytes
  head : Head
  bodyBytes : Bytes
  body : Bytes

def Wire.bytes (w : Wire) : Bytes := w.headBytes ++ w.bodyBytes

/-- It is well-formed and not too large: the head has one mark, at its end, and the body is as long as the head says, or is in chunks. -/
structure Wire.OK (phr : Bytes → PhrRes) (dec : D → Bytes → DecRes D) (d0 : D) (max : Nat) (w : Wire) : Prop where
  min : 16 ≤ w.headBytes.length
  marked : hasMark w.headBytes = true
  once : untilMark w.headBytes = w.headBytes
  parsed : phr w.headBytes = .ok w.headBytes.length w.head
  fits : w.headBytes.length + w.body.length ≤ max
  framed : (frame (max - w.headBytes.length) w.head.headers = some (.length w.body.length) ∧ w.bodyBytes = w.body) ∨
    (frame (max - w.headBytes.length) w.head.headers = some .chunked ∧ ∃ d, dec d0 w.bodyBytes = .done d w.body 0)

theorem loop_wire (hD : Incremental dec) (w : Wire) (hw : w.OK phr dec d0 max) (t : Bytes) (out : List (Option Head × Bytes)) :
    checkLoop phr dec d0 max (Inflight.idle d0) (w.bytes ++ t) out =
      checkLoop phr dec d0 max (Inflight.idle d0) t (out ++ [(some w.head, w.body)]) := by
  have hmin := hw.min
  have hfits := hw.fits
  have hne : w.bytes ++ t ≠ [] := by
    intro h
    have := congrArg List.length h
    simp only [Wire.bytes, List.length_append, List.length_nil] at this
    omega
  have hcut : cut max (w.bytes ++ t) = w.headBytes := by
    rw [cut, Wire.bytes, List.append_assoc, untilMark_ext _ _ hw.marked, hw.once, List.take_of_length_le (by omega)]
  have hdrop : (w.bytes ++ t).drop w.headBytes.length = w.bodyBytes ++ t := by
    rw [Wire.bytes, List.append_assoc, List.drop_left]
  rw [checkLoop_cons hne, headPart, if_pos (show (Inflight.idle d0).newRequest = true from rfl), parseHeader, if_neg (by simp only [Wire.bytes, List.length_append]; omega)]
  dsimp only
  rw [hcut, if_neg (by omega), hw.parsed]
  dsimp only
  rcases hw.framed with ⟨hf, hb⟩ | ⟨hf, d, hd⟩
  · rw [hf]
    dsimp only
    rw [hdrop, hb, parseContent, if_neg (by simp)]
    dsimp only
    have hm : min w.body.length (w.body ++ t).length = w.body.length := by rw [List.length_append]; omega
    rw [hm, List.take_left, List.drop_left, appendBuffer, if_pos (by dsimp only; rw [List.length_nil]; omega)]
    simp only [Option.map_some, Nat.sub_self, List.nil_append, decide_true, if_true]
    rw [if_pos (by simp only [Wire.bytes, List.length_append]; omega)]
    rfl
  · rw [hf]
    dsimp only
    have hl := hD.left _ _ _ _ _ hd
    rw [hdrop, parseContent, if_pos rfl]
    dsimp only
    rw [hD.done _ _ t _ _ _ hd]
    dsimp only
    rw [appendBuffer, if_pos (by dsimp only; rw [List.length_nil]; omega)]
    simp only [Option.map_some, List.nil_append, if_true, Nat.zero_add]
    have hd2 : (w.bodyBytes ++ t).drop ((w.bodyBytes ++ t).length - t.length) = t := by
      rw [List.length_append, Nat.add_sub_cancel, List.drop_left]
    rw [hd2, if_pos (by simp only [Wire.bytes, List.length_append]; omega)]
    rfl

/-- Requests that are well-formed and not too large are passed on, every one once, in their order and with their bodies, however their bytes were cut into pieces, and
the connection is ready for the next one. -/
theorem C76_received (hE : ErrExt phr) (hL : PhrLen phr) (hD : Incremental dec) (ws : List Wire) (hw : ∀ w ∈ ws, w.OK phr dec d0 max)
    (xs : List Bytes) (hx : xs.flatten = (ws.map Wire.bytes).flatten) (hS : Strict phr xs.flatten) :
    checkAll phr dec d0 max (Inflight.idle d0) [] [] xs = .ok (Inflight.idle d0) [] (ws.map fun w => (some w.head, w.body)) := by
  rw [C76_pieces hE hL hD xs hS, hx]
  have key : ∀ (ws : List Wire) (out : List (Option Head × Bytes)), (∀ w ∈ ws, w.OK phr dec d0 max) →
      checkLoop phr dec d0 max (Inflight.idle d0) (ws.map Wire.bytes).flatten out =
        .ok (Inflight.idle d0) [] (out ++ ws.map fun w => (some w.head, w.body)) := by
    intro ws
    induction ws with
    | nil => intro out _; simp [checkLoop_nil]
    | cons w ws ih =>
      intro out hw
      rw [List.map_cons, List.flatten_cons, loop_wire hD w (hw w List.mem_cons_self), ih _ fun w' h' => hw w' (List.mem_cons_of_mem _ h')]
      simp
  have := key ws [] hw
  rwa [List.nil_append] at this

theorem limit_loop (hL : PhrLen phr) (N : Nat) :
    ∀ (s : Bytes) (st : Inflight D) (out : List (Option Head × Bytes)) (st' : Inflight D) (rest : Bytes) (out' : List (Option Head × Bytes)),
      s.length ≤ N → st.body.length ≤ st.maxBody → st.maxBody ≤ max → (∀ r ∈ out, r.2.length ≤ max) →
      checkLoop phr dec d0 max st s out = .ok st' rest out' →
      st'.body.length ≤ st'.maxBody ∧ st'.maxBody ≤ max ∧ ∀ r ∈ out', r.2.length ≤ max := by
  induction N with
  | zero =>
    intro s st out st' rest out' hN h1 h2 h3 h
    have : s = [] := List.length_eq_zero_iff.1 (by omega)
    subst this
    rw [checkLoop_nil] at h
    simp only [CheckRes.ok.injEq] at h
    obtain ⟨g1, g2, g3⟩ := h
    subst g1; subst g3
    exact ⟨h1, h2, h3⟩
  | succ N ih =>
    intro s st out st' rest out' hN h1 h2 h3 h
    by_cases hs : s = []
    · subst hs
      rw [checkLoop_nil] at h
      simp only [CheckRes.ok.injEq] at h
      obtain ⟨g1, g2, g3⟩ := h
      subst g1; subst g3
      exact ⟨h1, h2, h3⟩
    rw [checkLoop_cons hs] at h
    rcases hh : headPart phr d0 max st s with _ | _ | ⟨n, st1⟩
    · rw [hh] at h; cases h
    · rw [hh] at h
      simp only [CheckRes.ok.injEq] at h
      obtain ⟨g1, g2, g3⟩ := h
      subst g1; subst g3
      exact ⟨h1, h2, h3⟩
    · rw [hh] at h
      dsimp only at h
      have hst1 : st1.body.length ≤ st1.maxBody ∧ st1.maxBody ≤ max := by
        rw [headPart] at hh
        split at hh
        · have := parseHeader_state hL hh
          rw [this.2.2.2.1]
          exact ⟨Nat.zero_le _, by omega⟩
        · simp only [HeadRes.ok.injEq, Prod.mk.injEq] at hh
          rw [← hh.2]
          exact ⟨h1, h2⟩
      rcases hc : parseContent dec st1 (s.drop n) with _ | ⟨st2, rest2, rs⟩
      · rw [hc] at h; cases h
      · rw [hc] at h
        dsimp only at h
        split at h
        · rename_i hlt
          have hst2 : st2.body.length ≤ st2.maxBody ∧ st2.maxBody = st1.maxBody ∧ ∀ r ∈ rs, r.2.length ≤ max := by
            have key : ∀ (st3 : Inflight D) (b : Bytes) (full : Bool) (r : Inflight D × List (Option Head × Bytes)),
                st3.maxBody = st1.maxBody → appendBuffer st3 b full = some r →
                r.1.body.length ≤ r.1.maxBody ∧ r.1.maxBody = st1.maxBody ∧ ∀ x ∈ r.2, x.2.length ≤ max := by
              intro st3 b full r hm ha
              obtain ⟨g1, g2, g3⟩ := append_full (show appendBuffer st3 b full = some (r.1, r.2) from ha)
              rw [g1, g2]
              refine ⟨by dsimp only; rw [List.length_append]; exact g3, hm, ?_⟩
              intro x hx
              split at hx
              · rw [List.mem_singleton] at hx
                subst hx
                dsimp only
                rw [List.length_append]
                omega
              · cases hx
            rw [parseContent] at hc
            split at hc
            · split at hc
              · cases hc
              · obtain ⟨r, hr, he⟩ := Option.map_eq_some_iff.1 hc
                simp only [Prod.mk.injEq] at he
                rw [← he.1, ← he.2.2]
                exact key _ _ _ r (by rfl) hr
              · obtain ⟨r, hr, he⟩ := Option.map_eq_some_iff.1 hc
                simp only [Prod.mk.injEq] at he
                rw [← he.1, ← he.2.2]
                exact key _ _ _ r (by rfl) hr
            · obtain ⟨r, hr, he⟩ := Option.map_eq_some_iff.1 hc
              simp only [Prod.mk.injEq] at he
              rw [← he.1, ← he.2.2]
              exact key _ _ _ r (by rfl) hr
          refine ih rest2 (st2.settle d0) (out ++ rs) st' rest out' (by omega) ?_ ?_ ?_ h
          · rw [Inflight.settle]
            split
            · exact Nat.le_refl _
            · exact hst2.1
          · rw [Inflight.settle]
            split
            · exact Nat.zero_le _
            · omega
          · intro r hr
            rcases List.mem_append.1 hr with hr | hr
            · exact h3 r hr
            · exact hst2.2.2 r hr
        · cases h

/-- No request that is passed on is larger than the limit, and neither is what is kept of one that is not complete, whatever the data are. -/
theorem C76_limit (hL : PhrLen phr) (xs : List Bytes) (st' : Inflight D) (rest : Bytes) (out' : List (Option Head × Bytes))
    (h : checkAll phr dec d0 max (Inflight.idle d0) [] [] xs = .ok st' rest out') :
    st'.body.length ≤ max ∧ ∀ r ∈ out', r.2.length ≤ max := by
  have key : ∀ (xs : List Bytes) (st : Inflight D) (buf : Bytes) (out : List (Option Head × Bytes)),
      st.body.length ≤ st.maxBody → st.maxBody ≤ max → (∀ r ∈ out, r.2.length ≤ max) →
      checkAll phr dec d0 max st buf out xs = .ok st' rest out' → st'.body.length ≤ max ∧ ∀ r ∈ out', r.2.length ≤ max := by
    intro xs
    induction xs with
    | nil =>
      intro st buf out h1 h2 h3 h
      simp only [checkAll, CheckRes.ok.injEq] at h
      obtain ⟨g1, g2, g3⟩ := h
      subst g1; subst g3
      exact ⟨by omega, h3⟩
    | cons x xs ih =>
      intro st buf out h1 h2 h3 h
      rw [checkAll] at h
      rcases hr : checkLoop phr dec d0 max st (buf ++ x) out with _ | _ | ⟨st2, rest2, out2⟩
      · rw [hr] at h; cases h
      · rw [hr] at h; cases h
      · rw [hr] at h
        have g := limit_loop hL _ (buf ++ x) st out st2 rest2 out2 (Nat.le_refl _) h1 h2 h3 hr
        exact ih st2 rest2 out2 g.1 g.2.1 g.2.2 h
  exact key xs _ [] [] (Nat.le_refl _) (Nat.zero_le _) (fun _ h => by cases h) h

end

/-! ## An instance -/

/-- A parser that takes everything up to the mark for a head: in chunks when it begins with `c`, otherwise with a body of two bytes. -/
def phrEx (b : Bytes) : PhrRes :=
  if hasMark b then
    .ok (untilMark b).length ⟨[], [], 1, if b.head? = some 99 then [(teName, [99])] else [(clName, [50])]⟩
  else .more

/-- A decoder of bodies that end with a zero and where 255 is an error. -/
def decEx : Unit → Bytes → DecRes Unit
  | d, [] => .more d []
  | d, c :: s =>
    if c = 0 then .done d [] s.length else if c = 255 then .error
    else match decEx d s with
      | .error => .error
      | .more d o => .more d (c :: o)
      | .done d o l => .done d (c :: o) l

theorem untilMark_end (s : Bytes) (h : hasMark s = true) : ∃ u, untilMark s = u ++ mark := by
  induction s with
  | nil => cases h
  | cons c s ih =>
    cases hp : mark.isPrefixOf (c :: s)
    · rw [hasMark, hp, Bool.false_or] at h
      obtain ⟨u, hu⟩ := ih h
      exact ⟨c :: u, by rw [untilMark_cons_neg hp, hu, List.cons_append]⟩
    · exact ⟨[], by rw [untilMark_cons_pos hp, List.nil_append]⟩

theorem phrEx_ok {b : Bytes} {n : Nat} {h : Head} (e : phrEx b = .ok n h) : hasMark b = true ∧ n = (untilMark b).length := by
  rw [phrEx] at e
  split at e
  · rename_i hm
    simp only [PhrRes.ok.injEq] at e
    exact ⟨hm, e.1.symm⟩
  · cases e

theorem phrEx_err : ErrExt phrEx := by
  intro b t h
  rw [phrEx] at h
  split at h <;> cases h

theorem phrEx_len : PhrLen phrEx := by
  intro b n h e
  obtain ⟨hm, rfl⟩ := phrEx_ok e
  obtain ⟨u, hu⟩ := untilMark_end b hm
  refine ⟨?_, (untilMark_prefix b).length_le⟩
  rw [hu, List.length_append]
  exact Nat.lt_of_lt_of_le (by decide) (Nat.le_add_left mark.length u.length)

theorem phrEx_strict (S : Bytes) : Strict phrEx S := by
  intro w n h _ e
  obtain ⟨hm, rfl⟩ := phrEx_ok e
  obtain ⟨u, hu⟩ := untilMark_end w hm
  exact ⟨u, by rw [← List.prefix_iff_eq_take.1 (untilMark_prefix w), hu]⟩

theorem decEx_incremental : Incremental decEx := by
  constructor
  · intro d; rfl
  · intro d a b
    induction a with
    | nil => intro h; cases h
    | cons c a ih =>
      intro h
      rw [List.cons_append, decEx]
      rw [decEx] at h
      split at h
      · cases h
      · rename_i h0
        rw [if_neg h0]
        split at h
        · rename_i h1; rw [if_pos h1]
        · rename_i h1
          rw [if_neg h1]
          rcases hd : decEx d a with _ | ⟨d1, o1⟩ | ⟨d1, o1, l1⟩
          · rw [ih hd]
          · rw [hd] at h; cases h
          · rw [hd] at h; cases h
  · intro d a b
    induction a with
    | nil => intro _ _ _ h; cases h
    | cons c a ih =>
      intro d' out left h
      rw [List.cons_append, decEx]
      rw [decEx] at h
      split at h
      · rename_i h0
        rw [if_pos h0]
        simp only [DecRes.done.injEq] at h ⊢
        refine ⟨h.1, h.2.1, ?_⟩
        rw [List.length_append, h.2.2]
      · rename_i h0
        rw [if_neg h0]
        split at h
        · cases h
        · rename_i h1
          rw [if_neg h1]
          rcases hd : decEx d a with _ | ⟨d1, o1⟩ | ⟨d1, o1, l1⟩
          · rw [hd] at h; cases h
          · rw [hd] at h; cases h
          · rw [hd] at h
            rw [ih _ _ _ hd]
            simp only [DecRes.done.injEq] at h ⊢
            exact ⟨h.1, h.2.1, by rw [h.2.2]⟩
  · intro d a
    induction a with
    | nil => intro _ _ _ h; cases h
    | cons c a ih =>
      intro d' out left h
      rw [decEx] at h
      split at h
      · simp only [DecRes.done.injEq] at h
        rw [List.length_cons]
        omega
      · split at h
        · cases h
        · rcases hd : decEx d a with _ | ⟨d1, o1⟩ | ⟨d1, o1, l1⟩
          · rw [hd] at h; cases h
          · rw [hd] at h; cases h
          · rw [hd] at h
            have := ih _ _ _ hd
            simp only [DecRes.done.injEq] at h
            rw [List.length_cons]
            omega
  · intro d a b
    induction a with
    | nil =>
      intro d' out h
      simp only [decEx, DecRes.more.injEq] at h
      rw [← h.2, List.nil_append]
      rcases hd : decEx d b with _ | ⟨d1, o1⟩ | ⟨d1, o1, l1⟩ <;> rfl
    | cons c a ih =>
      intro d' out h
      rw [List.cons_append, decEx]
      rw [decEx] at h
      split at h
      · cases h
      · rename_i h0
        rw [if_neg h0]
        split at h
        · cases h
        · rename_i h1
          rw [if_neg h1]
          rcases hd : decEx d a with _ | ⟨d1, o1⟩ | ⟨d1, o1, l1⟩
          · rw [hd] at h; cases h
          · rw [hd] at h
            rw [ih _ _ hd]
            simp only [DecRes.more.injEq] at h
            rw [← h.2]
            rcases decEx d1 b with _ | ⟨d2, o2⟩ | ⟨d2, o2, l2⟩ <;> rfl
          · rw [hd] at h; cases h

def headEx1 : Bytes := [71, 69, 84, 32, 47, 32, 72, 84, 84, 80, 47, 49, 46, 49, 13, 10, 13, 10]
def headEx2 : Bytes := [99, 69, 84, 32, 47, 32, 72, 84, 84, 80, 47, 49, 46, 49, 13, 10, 13, 10]
def wiresEx : List Wire :=
  [⟨headEx1, ⟨[], [], 1, [(clName, [50])]⟩, [7, 8], [7, 8]⟩, ⟨headEx2, ⟨[], [], 1, [(teName, [99])]⟩, [5, 6, 7, 0], [5, 6, 7]⟩]

theorem wiresEx_ok : ∀ w ∈ wiresEx, w.OK phrEx decEx () 40 := by
  intro w hw
  simp only [wiresEx, List.mem_cons, List.not_mem_nil, or_false] at hw
  rcases hw with rfl | rfl
  · exact ⟨by decide, by decide +kernel, by decide +kernel, by decide +kernel, by decide, .inl ⟨by decide +kernel, rfl⟩⟩
  · exact ⟨by decide, by decide +kernel, by decide +kernel, by decide +kernel, by decide, .inr ⟨by decide +kernel, (), by decide +kernel⟩⟩

-- a request with a length and one in chunks, cut in the middle of the mark and of the body
example : checkAll phrEx decEx () 40 (Inflight.idle ()) [] []
      [headEx1.take 15, headEx1.drop 15 ++ [7], [8] ++ headEx2 ++ [5, 6], [7, 0]] =
    .ok (Inflight.idle ()) [] (wiresEx.map fun w => (some w.head, w.body)) :=
  C76_received phrEx_err phrEx_len decEx_incremental wiresEx wiresEx_ok _ (by decide +kernel) (phrEx_strict _)

/-! ## C77: what the framing of a request accepts -/

theorem ciEqual_both (k : Bytes) (h1 : ciEqual k teName = true) (h2 : ciEqual k clName = true) : False := by
  simp only [ciEqual, Bool.and_eq_true, decide_eq_true_eq] at h1 h2
  have e1 : teName.length = 17 := by decide
  have e2 : clName.length = 14 := by decide
  omega

theorem frameLoop_seen {cap : Nat} {hs : List (Bytes × Bytes)} {ch cl ch' cl'} (h : frameLoop cap hs ch cl = some (ch', cl')) :
    ((ch = true ∨ ∃ p ∈ hs, ciEqual p.1 teName = true) → ch' = true) ∧
    ((cl ≠ none ∨ ∃ p ∈ hs, ciEqual p.1 clName = true) → cl' ≠ none) := by
  induction hs generalizing ch cl with
  | nil =>
    simp only [frameLoop] at h
    injection h with h
    injection h with h1 h2
    subst h1; subst h2
    simp
  | cons p hs ih =>
    obtain ⟨k, v⟩ := p
    simp only [frameLoop] at h
    split at h
    · rename_i hc
      simp only [Bool.and_eq_true] at hc
      obtain ⟨i1, i2⟩ := ih h
      refine ⟨fun _ => i1 (.inl rfl), fun hh => i2 ?_⟩
      rcases hh with hh | ⟨q, hq, hh⟩
      · exact .inl hh
      · rcases List.mem_cons.1 hq with rfl | hq
        · exact (ciEqual_both _ hc.2 hh).elim
        · exact .inr ⟨q, hq, hh⟩
    · rename_i hc
      split at h
      · rename_i hc2
        simp only [Bool.and_eq_true] at hc2
        split at h
        · cases h
        · split at h
          · cases h
          · obtain ⟨i1, i2⟩ := ih h
            refine ⟨fun hh => i1 ?_, fun _ => i2 (.inl (by simp))⟩
            rcases hh with hh | ⟨q, hq, hh⟩
            · exact .inl hh
            · rcases List.mem_cons.1 hq with rfl | hq
              · exact (ciEqual_both _ hh hc2.2).elim
              · exact .inr ⟨q, hq, hh⟩
      · rename_i hc2
        obtain ⟨i1, i2⟩ := ih h
        constructor
        · intro hh
          apply i1
          rcases hh with hh | ⟨q, hq, hh⟩
          · exact .inl hh
          · rcases List.mem_cons.1 hq with rfl | hq
            · left
              cases ch
              · simp [hh] at hc
              · rfl
            · exact .inr ⟨q, hq, hh⟩
        · intro hh
          apply i2
          rcases hh with hh | ⟨q, hq, hh⟩
          · exact .inl hh
          · rcases List.mem_cons.1 hq with rfl | hq
            · left
              cases cl
              · simp [hh] at hc2
              · simp
            · exact .inr ⟨q, hq, hh⟩

/-- A request with both a `Transfer-Encoding` and a `Content-Length`, in any order and any case, is refused. -/
theorem C76_ambiguous (cap : Nat) (hs : List (Bytes × Bytes)) (p q : Bytes × Bytes) (hp : p ∈ hs) (hq : q ∈ hs)
    (h1 : ciEqual p.1 teName = true) (h2 : ciEqual q.1 clName = true) : frame cap hs = none := by
  unfold frame
  cases h : frameLoop cap hs false none with
  | none => rfl
  | some r =>
    obtain ⟨ch, cl⟩ := r
    obtain ⟨i1, i2⟩ := frameLoop_seen h
    have e1 := i1 (.inr ⟨p, hp, h1⟩)
    have e2 := i2 (.inr ⟨q, hq, h2⟩)
    subst e1
    cases cl with
    | none => exact absurd rfl e2
    | some n => rfl

/-- Of two lengths that differ the first counts, and nothing is rejected; the second one stays among the headers. -/
theorem C77_lengths_partial (cap n : Nat) (v w : Bytes) (h : parseContentLength (v ++ [13]) v.length = some n) (hn : n ≤ cap) :
    frame cap [(clName, v), (clName, w)] = some (.length n) := by
  have h1 : ciEqual clName teName = false := by decide +kernel
  have h2 : ciEqual clName clName = true := by decide +kernel
  simp [frame, frameLoop, h1, h2, h, Nat.not_lt.2 hn]

example : frame 100 [(clName, [50]), (clName, [53])] = some (.length 2) :=
  C77_lengths_partial 100 2 [50] [53] (by decide +kernel) (by decide)

/-- The value of Transfer-Encoding is not looked at: whatever it is, the body is decoded as chunks. -/
theorem C77_encoding_partial (cap : Nat) (v : Bytes) : frame cap [(teName, v)] = some .chunked := by
  have h1 : ciEqual teName teName = true := by decide +kernel
  simp [frame, frameLoop, h1]

/-- Were heads to end with two LF (which picohttpparser accepts), what follows them would count as part of the head: the same data are a request when they come in two
pieces and an error when they come in one. -/
theorem C77_linefeeds_partial {D : Type} {phr : Bytes → PhrRes} (dec : D → Bytes → DecRes D) (d0 : D) (max : Nat) (s t : Bytes) (h : Head)
    (hp : phr s = .ok s.length h) (hf : frame (max - s.length) h.headers = some (.length 0)) (hm : hasMark (s ++ t) = false)
    (h16 : 16 ≤ s.length) (hs : s.length ≤ max) (ht : t.length < 16) (htl : max < s.length + t.length) :
    checkAll phr dec d0 max (Inflight.idle d0) [] [] [s, t] = .ok (Inflight.idle d0) t [(some h, [])] ∧
    checkAll phr dec d0 max (Inflight.idle d0) [] [] [s ++ t] = .error := by
  have hms : hasMark s = false := by
    have key : ∀ s : Bytes, hasMark (s ++ t) = false → hasMark s = false := by
      intro s
      induction s with
      | nil => intro _; rfl
      | cons c s ih =>
        intro h
        rw [List.cons_append, hasMark, Bool.or_eq_false_iff] at h
        rw [hasMark, ih h.2, Bool.or_false]
        cases hp : mark.isPrefixOf (c :: s)
        · rfl
        · have := prefix_ext t hp
          rw [List.cons_append, h.1] at this
          cases this
    exact key s hm
  have hne : s ≠ [] := by intro e; subst e; simp at h16
  have htne : t ≠ [] := by intro e; subst e; simp at htl; omega
  have hne2 : s ++ t ≠ [] := by simp [hne]
  have hi : (Inflight.idle d0).newRequest = true := rfl
  have hcut : cut max s = s := by rw [cut, untilMark_none s hms, List.take_of_length_le (by omega)]
  have hcut2 : (cut max (s ++ t)).length = max + 1 := by
    rw [cut, untilMark_none _ hm, List.length_take, List.length_append]
    omega
  constructor
  · have h1 : checkLoop phr dec d0 max (Inflight.idle d0) s [] = .ok (Inflight.idle d0) [] [(some h, [])] := by
      rw [checkLoop_cons hne, headPart, if_pos hi, parseHeader, if_neg (by omega)]
      dsimp only
      rw [hcut, if_neg (by omega), hp]
      dsimp only
      rw [hf]
      dsimp only
      rw [List.drop_length, parseContent, if_neg (by simp)]
      simp only [Nat.sub_self, List.take_nil, List.drop_nil, appendBuffer, List.length_nil, Nat.min_zero, Nat.add_zero,
        Nat.le_refl, if_true, decide_true, Option.map_some, List.append_nil]
      rw [if_pos (List.length_pos_iff.2 hne), Inflight.settle, if_pos rfl, checkLoop_nil, List.nil_append]
    rw [checkAll, List.nil_append, h1]
    dsimp only
    rw [checkAll, List.nil_append, checkLoop_cons htne, headPart, if_pos hi, parseHeader, if_pos ht]
    rfl
  · rw [checkAll, List.nil_append, checkLoop_cons hne2, headPart, if_pos hi, parseHeader, if_neg (by rw [List.length_append]; omega)]
    dsimp only
    rw [hcut2, if_pos (by omega)]

end Verif.Http
