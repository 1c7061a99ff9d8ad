import Verif.Redis.RoundTrip
import Verif.Buffer.Lemmas
/-!
# `RedisZeroCopyCheckResponse` (codec/redis/redis_proto_checker.cc)
-/

namespace Verif.Redis

open Buffer (NB Block)

def blocksOf (nb : NB) : List Bytes := nb.blocks.map Block.bytes

/-- `GetReply` with its effect on the buffer (client/redis/reader.cc:481-490): the rest of the buffer and the reply. -/
def getFrom (nb : NB) (count : Int) : R (NB × Val) :=
  match getReply (blocksOf nb) count with
  | .ok (v, n) =>
    if 0 < n then
      match nb.skip n with
      | some nb' => .ok (nb', v)
      | none => .ub
    else .ok (nb, v)
  | .less => .less
  | .bad => .bad
  | .overflow => .overflow
  | .ub => .ub
  | .loop => .loop

/-- The loop for connections that support pipelines (redis_proto_checker.cc:32-36); what is in `out` afterwards. -/
def checkLoop : Nat → NB → List Val → R (NB × List Val)
  | 0, _, _ => .loop
  | fuel + 1, nb, out =>
    if 0 < nb.byteSize then
      match getFrom nb 1 with
      | .ok (nb', v) => checkLoop fuel nb' (out ++ [v])
      | .less => .ok (nb, out)
      | .bad => .bad
      | .overflow => .overflow
      | .ub => .ub
      | .loop => .loop
    else .ok (nb, out)

/-- `RedisZeroCopyCheckResponse` (lines 24-50) with `out` empty before: `PACKET_ERR` is `bad`; otherwise the rest of the
buffer and `out`, where an empty `out` is `PACKET_LESS` and any other `PACKET_FULL`. -/
def check (support : Bool) (count : Int) (nb : NB) : R (NB × List Val) :=
  if nb.blocks = [] ∨ nb.byteSize < 1 then .ok (nb, [])
  else if support then checkLoop (nb.byteSize + 1) nb []
  else
    match getFrom nb count with
    | .ok (nb', v) => .ok (nb', [v])
    | .less => .ok (nb, [])
    | .bad => .bad
    | .overflow => .overflow
    | .ub => .ub
    | .loop => .loop

/-! ## Proofs -/

theorem flatten_blocksOf (nb : NB) : (blocksOf nb).flatten = nb.content := rfl

theorem suffix_of_mono {α : Type} {p : Bytes → R (α × Bytes)} (h : ∀ s a r, p s = .ok (a, r) → r <:+ s) {s r : Bytes} {a : α}
    (hs : p s = .ok (a, r)) : r = s.drop (s.length - r.length) := by
  obtain ⟨t, ht⟩ := h s a r hs
  rw [← ht]
  simp

theorem number_suffix {s r : Bytes} {i : Int} (h : number s = .ok (i, r)) : r <:+ s := by
  rw [number] at h
  split at h
  · cases h
  · rename_i l r' hl
    split at h
    · cases h
    · rcases conv_cases l with ⟨j, hj⟩ | hj
      · rw [hj] at h
        simp only [R.bind, R.ok.injEq, Prod.mk.injEq] at h
        rw [line_split hl, ← h.2]
        exact ⟨l ++ [13, 10], by simp⟩
      · rw [hj] at h; cases h

theorem R.bind_ok {α β : Type} {x : R α} {f : α → R β} {b : β} (h : x.bind f = .ok b) : ∃ a, x = .ok a ∧ f a = .ok b := by
  cases x with
  | ok a => exact ⟨a, rfl, h⟩
  | less => cases h
  | bad => cases h
  | overflow => cases h
  | ub => cases h
  | loop => cases h

theorem lineP_suffix {s l r : Bytes} (h : lineP s = .ok (l, r)) : r <:+ s := by
  rw [lineP] at h
  split at h
  · cases h
  · rename_i x hx
    cases h
    exact ⟨l ++ [13, 10], by rw [line_split hx]; simp⟩

theorem item_suffix {deep : Bool} {s r : Bytes} {it : Item} (h : item deep s = .ok (it, r)) : r <:+ s := by
  cases s with
  | nil => cases h
  | cons t s =>
    rw [item_body] at h
    split at h
    · split at h
      · cases h
      · refine List.IsSuffix.trans ?_ (List.suffix_cons t s)
        rw [body] at h
        split at h
        · obtain ⟨x, h1, h2⟩ := R.bind_ok h
          cases h2; exact lineP_suffix h1
        · split at h
          · obtain ⟨x, h1, h2⟩ := R.bind_ok h
            cases h2; exact lineP_suffix h1
          · split at h
            · obtain ⟨x, h1, h2⟩ := R.bind_ok h
              cases h2; exact number_suffix h1
            · split at h
              · obtain ⟨x, h1, h2⟩ := R.bind_ok h
                cases h2
                rw [bulk] at h1
                obtain ⟨y, h3, h4⟩ := R.bind_ok h1
                have hy := number_suffix h3
                split at h4
                · cases h4; exact hy
                · split at h4
                  · cases h4
                  · cases h4
                    exact (List.drop_suffix _ _).trans hy
              · split at h
                · cases h
                · rw [arrayHead] at h
                  obtain ⟨y, h3, h4⟩ := R.bind_ok h
                  have hy := number_suffix h3
                  split at h4
                  · cases h4; exact hy
                  · split at h4
                    · cases h4; exact hy
                    · cases h4; exact hy
    · cases h

theorem elems_suffix {p : Bytes → R (Val × Bytes)} (hp : ∀ s a r, p s = .ok (a, r) → r <:+ s) (n : Nat) :
    ∀ s a r, elems p n s = .ok (a, r) → r <:+ s := by
  induction n with
  | zero =>
    intro s a r h
    cases h
    exact List.suffix_refl _
  | succ n ih =>
    intro s a r h
    rw [elems] at h
    obtain ⟨x, h1, h2⟩ := R.bind_ok h
    obtain ⟨y, h3, h4⟩ := R.bind_ok h2
    cases h4
    exact (ih _ _ _ h3).trans (hp _ _ _ h1)

theorem parse_suffix (d : Nat) : ∀ s a r, parse d s = .ok (a, r) → r <:+ s := by
  induction d with
  | zero =>
    intro s a r h
    rw [parse] at h
    obtain ⟨x, h1, h2⟩ := R.bind_ok h
    obtain ⟨it, t⟩ := x
    cases it with
    | leaf v => cases h2; exact item_suffix h1
    | array e => cases h2
  | succ d ih =>
    intro s a r h
    rw [parse] at h
    obtain ⟨x, h1, h2⟩ := R.bind_ok h
    obtain ⟨it, t⟩ := x
    cases it with
    | leaf v => cases h2; exact item_suffix h1
    | array e =>
      obtain ⟨y, h3, h4⟩ := R.bind_ok h2
      cases h4
      exact (elems_suffix ih _ _ _ _ h3).trans (item_suffix h1)

theorem serial_suffix {s r : Bytes} {no : Nat} (h : serial s = .ok (no, r)) : r <:+ s := by
  cases s with
  | nil => cases h
  | cons t s =>
    rw [serial] at h
    split at h
    · split at h
      · cases h
      · obtain ⟨x, h1, h2⟩ := R.bind_ok h
        cases h2
        exact (number_suffix h1).trans (List.suffix_cons t s)
    · cases h; exact List.suffix_refl _

theorem numbered_suffix (d : Nat) : ∀ s a r, numbered d s = .ok (a, r) → r <:+ s := by
  intro s a r h
  rw [numbered] at h
  obtain ⟨x, h1, h2⟩ := R.bind_ok h
  obtain ⟨y, h3, h4⟩ := R.bind_ok h2
  cases h4
  exact (parse_suffix d _ _ _ h3).trans (serial_suffix h1)

theorem readReply_suffix (count : Int) : ∀ s a r, readReply count s = .ok (a, r) → r <:+ s := by
  intro s a r h
  rw [readReply] at h
  split at h
  · obtain ⟨y, h3, h4⟩ := R.bind_ok h
    cases h4
    exact elems_suffix (numbered_suffix 7) _ _ _ _ h3
  · exact numbered_suffix 8 _ _ _ h

theorem parse_shrinks {d : Nat} {s r : Bytes} {v : Val} (h : parse d s = .ok (v, r)) : r.length < s.length := by
  cases d with
  | zero =>
    rw [parse] at h
    obtain ⟨x, h1, h2⟩ := R.bind_ok h
    obtain ⟨it, t⟩ := x
    cases it with
    | leaf v => cases h2; exact item_shrinks h1
    | array e => cases h2
  | succ d =>
    rw [parse] at h
    obtain ⟨x, h1, h2⟩ := R.bind_ok h
    obtain ⟨it, t⟩ := x
    cases it with
    | leaf v => cases h2; exact item_shrinks h1
    | array e =>
      obtain ⟨y, h3, h4⟩ := R.bind_ok h2
      cases h4
      have h5 := (elems_suffix (parse_suffix d) _ _ _ _ h3).length_le
      have h6 := item_shrinks h1
      dsimp only at h5
      omega

theorem numbered_shrinks {d : Nat} {s r : Bytes} {v : Val} (h : numbered d s = .ok (v, r)) : r.length < s.length := by
  rw [numbered] at h
  obtain ⟨x, h1, h2⟩ := R.bind_ok h
  obtain ⟨y, h3, h4⟩ := R.bind_ok h2
  cases h4
  have h5 := parse_shrinks h3
  have h6 := (serial_suffix h1).length_le
  omega

/-- What `GetReply` does to the buffer, in terms of the parser. -/
theorem getFrom_spec {nb : NB} (hw : nb.WF) (count : Int) :
    (∃ v r nb', readReply count nb.content = .ok (v, r) ∧ getFrom nb count = .ok (nb', v) ∧ nb'.WF ∧ nb'.content = r) ∨
    (readReply count nb.content = .less ∧ getFrom nb count = .less) ∨
    (readReply count nb.content = .bad ∧ getFrom nb count = .bad) ∨
    (readReply count nb.content = .overflow ∧ getFrom nb count = .overflow) := by
  obtain ⟨h1, h2, h3⟩ := getReply_eq (blocksOf nb) count
  rw [flatten_blocksOf] at h1 h2 h3
  cases h : readReply count nb.content with
  | ok x =>
    obtain ⟨v, r⟩ := x
    left
    refine ⟨v, r, ?_⟩
    have hsuf := readReply_suffix count _ _ _ h
    have hdrop : r = nb.content.drop (nb.content.length - r.length) := by
      obtain ⟨t, ht⟩ := hsuf
      rw [← ht]
      simp
    rw [h] at h1
    simp only [outcome] at h1
    simp only [getFrom, h1]
    by_cases h0 : 0 < nb.content.length - r.length
    · obtain ⟨nb', g1, g2, g3, -, -⟩ := (NB.skip_spec nb (nb.content.length - r.length) hw).1 (by omega)
      exact ⟨nb', trivial, by rw [if_pos h0, g1], g2, by rw [g3, ← hdrop]⟩
    · refine ⟨nb, trivial, by rw [if_neg h0], hw, ?_⟩
      have hz : nb.content.length - r.length = 0 := by omega
      rw [hz] at hdrop
      rw [hdrop]; simp
  | less => rw [h] at h1; exact .inr (.inl ⟨rfl, by simp only [getFrom, h1, outcome]⟩)
  | bad => rw [h] at h1; exact .inr (.inr (.inl ⟨rfl, by simp only [getFrom, h1, outcome]⟩))
  | overflow => rw [h] at h1; exact .inr (.inr (.inr ⟨rfl, by simp only [getFrom, h1, outcome]⟩))
  | ub => exact absurd h h2
  | loop => exact absurd h h3

/-- The loop, on a buffer that begins with whole replies. -/
theorem checkLoop_replies {vs : List Val} (hv : AllTopOk 8 vs) {tail : Bytes} (ht : tail = [] ∨ readReply 1 tail = .less) :
    ∀ {nb : NB} (fuel : Nat) (out : List Val), nb.WF → nb.content = encAll vs ++ tail → nb.byteSize < fuel →
      ∃ nb', checkLoop fuel nb out = .ok (nb', out ++ vs) ∧ nb'.WF ∧ nb'.content = tail := by
  induction vs with
  | nil =>
    intro nb fuel out hw hc hf
    obtain ⟨f, rfl⟩ : ∃ f, fuel = f + 1 := ⟨fuel - 1, by omega⟩
    simp only [encAll, List.nil_append] at hc
    refine ⟨nb, ?_, hw, hc⟩
    rw [checkLoop]
    rcases ht with ht | ht
    · have : nb.byteSize = 0 := by rw [← hw.content_length, hc, ht]; rfl
      rw [if_neg (by omega)]; simp
    · rw [← hc] at ht
      rcases getFrom_spec hw 1 with ⟨v, r, nb', h1, -⟩ | ⟨-, h2⟩ | ⟨h1, -⟩ | ⟨h1, -⟩
      · rw [ht] at h1; cases h1
      · simp only [h2]; simp
      · rw [ht] at h1; cases h1
      · rw [ht] at h1; cases h1
  | cons v vs ih =>
    intro nb fuel out hw hc hf
    obtain ⟨f, rfl⟩ : ∃ f, fuel = f + 1 := ⟨fuel - 1, by omega⟩
    rw [encAll, List.append_assoc] at hc
    have hr : readReply 1 nb.content = .ok (v, encAll vs ++ tail) := by
      rw [readReply, if_neg (by omega), hc]
      exact numbered_enc (hv v (by simp)) _
    have hpos : 0 < nb.byteSize := by
      rw [← hw.content_length, hc]
      have := enc_ne_nil v
      have := List.length_pos_iff.2 this
      simp only [List.length_append]; omega
    rw [checkLoop, if_pos hpos]
    rcases getFrom_spec hw 1 with ⟨w, r, nb', h1, h2, h3, h4⟩ | ⟨h1, -⟩ | ⟨h1, -⟩ | ⟨h1, -⟩
    · rw [hr] at h1
      simp only [R.ok.injEq, Prod.mk.injEq] at h1
      obtain ⟨rfl, rfl⟩ := h1
      have hlt : nb'.byteSize < f := by
        rw [← h3.content_length, h4]
        have h5 : nb.content.length < f + 1 := by rw [hw.content_length]; exact hf
        have h6 := List.length_pos_iff.2 (enc_ne_nil v)
        rw [hc] at h5
        simp only [List.length_append] at h5 ⊢
        omega
      obtain ⟨nb2, g1, g2, g3⟩ := ih (fun w hw => hv w (by simp [hw])) f (out ++ [v]) h3 h4 hlt
      refine ⟨nb2, ?_, g2, g3⟩
      rw [h2]
      simp only [g1, List.append_assoc, List.cons_append, List.nil_append]
    · rw [hr] at h1; cases h1
    · rw [hr] at h1; cases h1
    · rw [hr] at h1; cases h1

theorem readReply_good (count : Int) (s : Bytes) : readReply count s ≠ .ub ∧ readReply count s ≠ .loop := by
  have h := getReply_eq [s] count
  simp only [List.flatten_cons, List.flatten_nil, List.append_nil] at h
  exact h.2

/-- The beginning of one reply is incomplete. -/
theorem readReply_prefix {w : Val} (hw : w.TopOk 8) {s u : Bytes} (h : s ++ u = w.enc) (hu : u ≠ []) : readReply 1 s = .less := by
  refine (readReply_mono 1).prefix (readReply_good 1) (u := u) (a := w) ?_ hu
  rw [h, readReply, if_neg (by omega)]
  have := numbered_enc hw []
  rwa [List.append_nil] at this

theorem AllTopOk.append {d : Nat} {xs ys : List Val} : AllTopOk d (xs ++ ys) ↔ AllTopOk d xs ∧ AllTopOk d ys := by
  simp only [AllTopOk, List.mem_append]
  exact ⟨fun h => ⟨fun v hv => h v (.inl hv), fun v hv => h v (.inr hv)⟩, fun h v hv => hv.elim (h.1 v) (h.2 v)⟩

theorem encAll_append (xs ys : List Val) : encAll (xs ++ ys) = encAll xs ++ encAll ys := by
  induction xs with
  | nil => rfl
  | cons x xs ih => simp only [List.cons_append, encAll, ih, List.append_assoc]

/-- The bytes that are left are the beginning of the next reply. -/
def Begins (tail : Bytes) : List Val → Prop
  | [] => tail = []
  | w :: _ => ∃ y, y ≠ [] ∧ tail ++ y = w.enc

/-- A beginning of a stream is some replies and the beginning of the next one. -/
theorem split_stream (ws : List Val) : ∀ (p x : Bytes), p ++ x = encAll ws →
    ∃ vs ws' tail, ws = vs ++ ws' ∧ p = encAll vs ++ tail ∧ Begins tail ws' := by
  induction ws with
  | nil =>
    intro p x h
    simp only [encAll, List.append_eq_nil_iff] at h
    exact ⟨[], [], [], rfl, by simp [encAll, h.1], rfl⟩
  | cons w ws ih =>
    intro p x h
    rw [encAll] at h
    rcases List.append_eq_append_iff.1 h with ⟨a, h1, h2⟩ | ⟨a, h1, h2⟩
    · cases a with
      | nil =>
        obtain ⟨vs, ws', tail, g1, g2, g3⟩ := ih [] (encAll ws) rfl
        refine ⟨w :: vs, ws', tail, by rw [g1]; rfl, ?_, g3⟩
        rw [encAll, List.append_assoc, ← g2, h1]
        simp
      | cons b a => exact ⟨[], w :: ws, p, rfl, by simp [encAll], ⟨b :: a, by simp, h1.symm⟩⟩
    · obtain ⟨vs, ws', tail, g1, g2, g3⟩ := ih a x h2.symm
      refine ⟨w :: vs, ws', tail, by rw [g1]; rfl, ?_, g3⟩
      rw [encAll, h1, g2, List.append_assoc]

/-- The checker on replies and the beginning of another one. -/
theorem check_replies {vs ws' : List Val} (hv : AllTopOk 8 vs) (hw' : AllTopOk 8 ws') {tail : Bytes} (ht : Begins tail ws') {nb : NB}
    (hw : nb.WF) (hc : nb.content = encAll vs ++ tail) (count : Int) :
    ∃ nb', check true count nb = .ok (nb', vs) ∧ nb'.WF ∧ nb'.content = tail := by
  rw [check]
  split
  · rename_i he
    have h0 : nb.content = [] := by
      rcases he with he | he
      · simp [NB.content, Buffer.blocksContent, he]
      · have := hw.content_length
        exact List.eq_nil_of_length_eq_zero (by omega)
    rw [h0] at hc
    have hc := List.append_eq_nil_iff.1 hc.symm
    have hvs : vs = [] := by
      cases vs with
      | nil => rfl
      | cons v vs =>
        rw [encAll] at hc
        exact absurd (List.append_eq_nil_iff.1 hc.1).1 (enc_ne_nil v)
    exact ⟨nb, by rw [hvs], hw, by rw [h0, hc.2]⟩
  · rw [if_pos rfl]
    have htail : tail = [] ∨ readReply 1 tail = .less := by
      cases ws' with
      | nil => exact .inl ht
      | cons w ws' =>
        obtain ⟨y, hy, h⟩ := ht
        exact .inr (readReply_prefix (hw' w (by simp)) h hy)
    obtain ⟨nb', h1, h2, h3⟩ := checkLoop_replies hv htail (nb.byteSize + 1) [] hw hc (Nat.lt_succ_self _)
    exact ⟨nb', by rw [h1]; rfl, h2, h3⟩

end Verif.Redis
