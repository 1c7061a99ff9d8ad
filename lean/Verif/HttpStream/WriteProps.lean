import Verif.HttpStream.Write

/-!
# C116, C117: the body of a streamed response
-/

namespace Verif.HttpStream

/-! ## Specification: RFC 7230, chunked bodies without extensions and trailers -/

/-- The value of a hexadecimal digit. -/
def digit (c : Nat) : Option Nat :=
  if 48 ≤ c ∧ c ≤ 57 then some (c - 48) else if 97 ≤ c ∧ c ≤ 102 then some (c - 87) else if 65 ≤ c ∧ c ≤ 70 then some (c - 55) else none

/-- Digits up to CR LF; what follows. -/
def readSize (acc : Nat) : List Nat → Option (Nat × List Nat)
  | [] => none
  | c :: l =>
    match digit c with
    | some d => readSize (acc * 16 + d) l
    | none => if c = 13 ∧ l.head? = some 10 then some (acc, l.drop 1) else none

/-- The size of a chunk: at least one digit. -/
def chunkSize (l : List Nat) : Option (Nat × List Nat) :=
  match l with
  | [] => none
  | c :: _ => if (digit c).isSome then readSize 0 l else none

/-- The body and what follows it. -/
def dechunk : Nat → List Nat → Option (List Nat × List Nat)
  | 0, _ => none
  | fuel + 1, l =>
    match chunkSize l with
    | none => none
    | some (0, r) => if r.take 2 = [13, 10] then some ([], r.drop 2) else none
    | some (n + 1, r) =>
      if (r.drop (n + 1)).take 2 = [13, 10] then
        match dechunk fuel (r.drop (n + 3)) with
        | some (b, r') => some (r.take (n + 1) ++ b, r')
        | none => none
      else none

def decode (l : List Nat) : Option (List Nat × List Nat) := dechunk (l.length + 1) l

/-- The bytes of messages. -/
def Msg.bytes : Msg → List Nat
  | .body x => x
  | _ => []

/-- The calls of a user that writes no empty item, none after `WriteDone`, and calls `WriteDone` after the header; `items` are those whose `Write` succeeded. -/
inductive Run (ok : Nat → Bool) (s0 : S) : S → List (List Nat) → Prop
  | init : Run ok s0 s0 []
  | header {s : S} {items : List (List Nat)} (h : Run ok s0 s items) : Run ok s0 (s.writeHeader ok).1 items
  | write {s : S} {items : List (List Nat)} (h : Run ok s0 s items) (x : List Nat) (hx : x ≠ []) (hl : x.length < 18446744073709551616) (hd : s.done = false) :
      Run ok s0 (s.write ok x).1 (if (s.write ok x).2 = .ok then items ++ [x] else items)
  | done {s : S} {items : List (List Nat)} (h : Run ok s0 s items) (hh : s.hdr = true) : Run ok s0 (s.writeDone ok).1 items

/-! ## The header of a chunk -/

theorem digit_hexChar {d : Nat} (h : d < 16) : digit (hexChar d) = some d := by
  have : d = 0 ∨ d = 1 ∨ d = 2 ∨ d = 3 ∨ d = 4 ∨ d = 5 ∨ d = 6 ∨ d = 7 ∨ d = 8 ∨ d = 9 ∨ d = 10 ∨ d = 11 ∨ d = 12 ∨ d = 13 ∨ d = 14 ∨ d = 15 := by omega
  rcases this with rfl | rfl | rfl | rfl | rfl | rfl | rfl | rfl | rfl | rfl | rfl | rfl | rfl | rfl | rfl | rfl <;> rfl

theorem set_two (k : Nat) (a b : Nat) (tail : List Nat) :
    ((List.replicate (k + 2) 48 ++ tail).set (k + 1) a).set k b = List.replicate k 48 ++ b :: a :: tail := by
  induction k with
  | zero => rfl
  | succ k ih =>
    simp only [List.replicate_succ (n := k + 2), List.cons_append, List.set_cons_succ]
    rw [ih]
    simp [List.replicate_succ]

/-- Every element is a hexadecimal digit. -/
def AllHex (l : List Nat) : Prop := ∀ c ∈ l, (digit c).isSome = true

theorem readSize_zeros (k acc : Nat) (l : List Nat) : readSize 0 (List.replicate k 48 ++ l) = readSize 0 l ∧ (acc = 0 → readSize acc (48 :: l) = readSize 0 l) := by
  have h : ∀ l, readSize 0 (48 :: l) = readSize 0 l := fun l => by simp [readSize, digit]
  refine ⟨?_, fun e => e ▸ h l⟩
  induction k with
  | zero => rfl
  | succ k ih => rw [List.replicate_succ, List.cons_append, h, ih]

/-- The loop writes the digits of `n`, most significant first, with leading zeros. -/
theorem fill_spec : ∀ (k fuel n : Nat) (tail : List Nat), n < 256 ^ (k + 1) → k < fuel →
    ∃ D, fill fuel n (2 * (k + 1)) (List.replicate (2 * (k + 1)) 48 ++ tail) = some (D ++ tail) ∧ D.length = 2 * (k + 1) ∧ AllHex D ∧ ∀ r, readSize 0 (D ++ r) = readSize n r := by
  intro k
  induction k with
  | zero =>
    intro fuel n tail hn hf
    cases fuel with
    | zero => omega
    | succ fuel =>
      have h0 : n / 256 = 0 := by omega
      refine ⟨[hexChar (n % 256 / 16), hexChar (n % 256 % 16)], ?_, rfl, ?_, ?_⟩
      · simp only [fill, h0]
        rfl
      · intro c hc
        simp only [List.mem_cons, List.not_mem_nil, or_false] at hc
        rcases hc with rfl | rfl
        · rw [digit_hexChar (by omega)]; rfl
        · rw [digit_hexChar (by omega)]; rfl
      · intro r
        simp only [List.cons_append, List.nil_append, readSize, digit_hexChar (show n % 256 / 16 < 16 by omega), digit_hexChar (show n % 256 % 16 < 16 by omega)]
        congr 1
        omega
  | succ k ih =>
    intro fuel n tail hn hf
    cases fuel with
    | zero => omega
    | succ fuel =>
      have hset := set_two (2 * (k + 1)) (hexChar (n % 256 % 16)) (hexChar (n % 256 / 16)) tail
      have e3 : 2 * (k + 1 + 1) = 2 * (k + 1) + 2 := by omega
      by_cases h0 : n / 256 = 0
      · refine ⟨List.replicate (2 * (k + 1)) 48 ++ [hexChar (n % 256 / 16), hexChar (n % 256 % 16)], ?_, by simp; omega, ?_, ?_⟩
        · rw [e3]
          unfold fill
          rw [if_neg (by omega)]
          dsimp only
          rw [show 2 * (k + 1) + 2 - 1 = 2 * (k + 1) + 1 by omega, show 2 * (k + 1) + 2 - 2 = 2 * (k + 1) by omega, hset, if_pos h0]
          simp
        · intro c hc
          simp only [List.mem_append, List.mem_replicate, List.mem_cons, List.not_mem_nil, or_false] at hc
          rcases hc with ⟨_, rfl⟩ | rfl | rfl
          · rfl
          · rw [digit_hexChar (by omega)]; rfl
          · rw [digit_hexChar (by omega)]; rfl
        · intro r
          rw [List.append_assoc, (readSize_zeros _ 0 _).1]
          simp only [List.cons_append, List.nil_append, readSize, digit_hexChar (show n % 256 / 16 < 16 by omega), digit_hexChar (show n % 256 % 16 < 16 by omega)]
          congr 1
          omega
      · obtain ⟨D, hD, hl, hx, hr⟩ := ih fuel (n / 256) (hexChar (n % 256 / 16) :: hexChar (n % 256 % 16) :: tail) (by
          rw [Nat.pow_succ] at hn
          exact Nat.div_lt_of_lt_mul (by rw [Nat.mul_comm]; exact hn)) (by omega)
        refine ⟨D ++ [hexChar (n % 256 / 16), hexChar (n % 256 % 16)], ?_, by simp; omega, ?_, ?_⟩
        · rw [e3]
          unfold fill
          rw [if_neg (by omega)]
          dsimp only
          rw [show 2 * (k + 1) + 2 - 1 = 2 * (k + 1) + 1 by omega, show 2 * (k + 1) + 2 - 2 = 2 * (k + 1) by omega, hset, if_neg h0, hD]
          simp
        · intro c hc
          simp only [List.mem_append, List.mem_cons, List.not_mem_nil, or_false] at hc
          rcases hc with hc | rfl | rfl
          · exact hx c hc
          · rw [digit_hexChar (by omega)]; rfl
          · rw [digit_hexChar (by omega)]; rfl
        · intro r
          rw [List.append_assoc, hr]
          simp only [List.cons_append, List.nil_append, readSize, digit_hexChar (show n % 256 / 16 < 16 by omega), digit_hexChar (show n % 256 % 16 < 16 by omega)]
          congr 1
          omega

theorem readSize_drop (k : Nat) (l r : List Nat) (h : ∀ i, i < k → l[i]? = some 48) : readSize 0 (l.drop k ++ r) = readSize 0 (l ++ r) := by
  induction k generalizing l with
  | zero => rfl
  | succ k ih =>
    cases l with
    | nil => have := h 0 (by omega); simp at this
    | cons c l =>
      have hc : c = 48 := by have := h 0 (by omega); simpa using this
      subst hc
      rw [List.drop_succ_cons, ih l (fun i hi => by have := h (i + 1) (by omega); simpa using this), List.cons_append, (readSize_zeros 0 0 (l ++ r)).2 rfl]

/-- **C116.** The header of a chunk is its size in hexadecimal digits, at least one, and CR LF, for all sizes. -/
theorem C116_size (n : Nat) (hn : n < 18446744073709551616) : ∃ h, chunkHeader n = some h ∧ ∀ r, chunkSize (h ++ r) = some (n, r) := by
  obtain ⟨D, hD, hl, hx, hr⟩ := fill_spec 7 9 n [13, 10] (by simpa using hn) (by omega)
  have hD : fill 9 n 16 (List.replicate 16 48 ++ [13, 10]) = some (D ++ [13, 10]) := hD
  refine ⟨(D ++ [13, 10]).drop (min ((D ++ [13, 10]).findIdx (· ≠ 48)) ((D ++ [13, 10]).length - 3)), by simp only [chunkHeader, hD, Option.map_some], ?_⟩
  intro r
  generalize hk : min ((D ++ [13, 10]).findIdx (· ≠ 48)) ((D ++ [13, 10]).length - 3) = k
  have k1 : k ≤ (D ++ [13, 10]).findIdx (· ≠ 48) := by omega
  have k2 : k < D.length := by simp at hk; omega
  have hz : ∀ i, i < k → (D ++ [13, 10])[i]? = some 48 := by
    intro i hi
    have hlt : i < (D ++ [13, 10]).length := by simp; omega
    have := List.not_of_lt_findIdx (xs := D ++ [13, 10]) (p := (· ≠ 48)) (i := i) (by omega)
    rw [List.getElem?_eq_getElem hlt]
    simpa using this
  have hs : readSize 0 ((D ++ [13, 10]).drop k ++ r) = some (n, r) := by
    rw [readSize_drop k _ _ hz, List.append_assoc, hr]
    simp [readSize, digit]
  have hc : ∃ c t, (D ++ [13, 10]).drop k ++ r = c :: t ∧ (digit c).isSome = true := by
    rw [List.drop_append_of_le_length (by omega)]
    cases hd : D.drop k with
    | nil => have := congrArg List.length hd; simp at this; omega
    | cons c t =>
      refine ⟨c, t ++ [13, 10] ++ r, by simp, hx c ?_⟩
      exact List.mem_of_mem_drop (i := k) (by rw [hd]; simp)
  obtain ⟨c, t, hct, hdc⟩ := hc
  rw [hct] at hs ⊢
  simp only [chunkSize, hdc, if_true, hs]

/-- What `Write` sends for an item. -/
def enc (x : List Nat) : List Nat := (chunkHeader x.length).getD [] ++ x ++ [13, 10]

theorem dechunk_items (items : List (List Nat)) (hi : ∀ x ∈ items, x ≠ [] ∧ x.length < 18446744073709551616) (rest : List Nat) :
    ∀ fuel, items.length < fuel → dechunk fuel ((items.map enc).flatten ++ [48, 13, 10, 13, 10] ++ rest) = some (items.flatten, rest) := by
  induction items with
  | nil =>
    intro fuel hf
    cases fuel with
    | zero => simp at hf
    | succ fuel => simp [dechunk, chunkSize, readSize, digit]
  | cons x items ih =>
    intro fuel hf
    cases fuel with
    | zero => simp at hf
    | succ fuel =>
      have hx := hi x (by simp)
      obtain ⟨h, hh, hs⟩ := C116_size x.length hx.2
      have ih := ih (fun y hy => hi y (by simp [hy])) fuel (by simp at hf; omega)
      have e : ((x :: items).map enc).flatten ++ [48, 13, 10, 13, 10] ++ rest = h ++ (x ++ ([13, 10] ++ ((items.map enc).flatten ++ [48, 13, 10, 13, 10] ++ rest))) := by
        simp [enc, hh]
      rw [e]
      generalize hG : (items.map enc).flatten ++ [48, 13, 10, 13, 10] ++ rest = G at ih ⊢
      obtain ⟨m, hm⟩ : ∃ m, x.length = m + 1 := ⟨x.length - 1, by have := List.length_pos_iff.2 hx.1; omega⟩
      simp only [dechunk, hs, hm]
      have d1 : (x ++ ([13, 10] ++ G)).drop (m + 1) = [13, 10] ++ G := by rw [← hm]; simp
      have d2 : (x ++ ([13, 10] ++ G)).drop (m + 3) = G := by
        rw [show m + 3 = x.length + 2 by omega, ← List.drop_drop, List.drop_left]; rfl
      have d3 : (x ++ ([13, 10] ++ G)).take (m + 1) = x := by rw [← hm]; simp
      rw [d1, d2, d3, ih]
      simp

theorem enc_len (items : List (List Nat)) : items.length ≤ (items.map enc).flatten.length := by
  induction items with
  | nil => simp
  | cons x items ih => simp [enc] at ih ⊢; omega

/-! ## The writer -/

/-- What the header makes of the body. -/
def S.mode (s0 : S) : Option Nat :=
  if s0.ho then some 0 else match s0.clh with
    | none => none
    | some c => some (c.getD 0)

structure Inv (s0 s : S) (items : List (List Nat)) : Prop where
  clh : s.clh = s0.clh
  ho : s.ho = s0.ho
  good : ∀ x ∈ items, x ≠ [] ∧ x.length < 18446744073709551616
  written : s.written = items.flatten.length
  open_ : s.hdr = false → items = [] ∧ s.done = false ∧ ∀ m ∈ s.wire, m = .info
  shut : s.hdr = true → s.cl = s0.mode ∧ ∃ infos, (∀ m ∈ infos, m = Msg.info) ∧
    s.wire = infos ++ .header s0.clh.isNone s0.clh s0.ho ::
      (match s0.mode with
        | none => items.map (fun x => .body (enc x)) ++ (if s.done then [.body [48, 13, 10, 13, 10]] else [])
        | some _ => items.map .body)
  lim : ∀ n, s0.mode = some n → s.hdr = true → s.written ≤ n ∧ (s.done = true → s.written = n)

/-- A new writer of a response. -/
def S.fresh (s : S) : Prop := s.hdr = false ∧ s.done = false ∧ s.cl = some 0 ∧ s.written = 0 ∧ s.wire = []

theorem Inv.header {s0 s : S} {items : List (List Nat)} (ok : Nat → Bool) (v : Inv s0 s items) : Inv s0 (s.writeHeader ok).1 items := by
  unfold S.writeHeader
  by_cases hh : s.hdr = true
  · simpa [hh] using v
  · have hh : s.hdr = false := by simpa using hh
    obtain ⟨o1, o2, o3⟩ := v.open_ hh
    have w0 : s.written = 0 := by rw [v.written, o1]; rfl
    by_cases hs : s.status < 200
    · by_cases hk : ok s.sends = true
      · simp only [hh, hs, S.send, hk]
        refine ⟨v.clh, v.ho, v.good, v.written, ?_, ?_, ?_⟩
        · intro _
          refine ⟨o1, o2, ?_⟩
          intro m hm
          simp at hm
          rcases hm with hm | hm
          · exact o3 m hm
          · exact hm
        · intro h; simp at h
        · intro n _ h; simp at h
      · simp only [hh, hs, S.send, hk]
        refine ⟨v.clh, v.ho, v.good, v.written, ?_, ?_, ?_⟩
        · intro _
          exact ⟨o1, o2, by simpa using o3⟩
        · intro h; simp at h
        · intro n _ h; simp at h
    · by_cases hk : ok s.sends = true
      · simp only [hh, hs, S.send, hk]
        refine ⟨v.clh, v.ho, v.good, v.written, by simp, ?_, ?_⟩
        · intro _
          refine ⟨?_, s.wire, o3, ?_⟩
          · simp only [S.mode, v.clh, v.ho]
            rfl
          · simp only [v.clh, v.ho, o1]
            cases s0.clh <;> simp [S.mode] <;> split <;> simp [o2]
        · intro n _ _
          simp [w0, o2]
      · simp only [hh, hs, S.send, hk]
        refine ⟨v.clh, v.ho, v.good, v.written, ?_, ?_, ?_⟩
        · intro _
          exact ⟨o1, o2, by simpa using o3⟩
        · intro h; simp at h
        · intro n _ h; simp at h

theorem writeHeader_done (ok : Nat → Bool) (s : S) : (s.writeHeader ok).1.done = s.done := by
  unfold S.writeHeader S.send
  split
  · rfl
  · split
    · dsimp only; split <;> rfl
    · dsimp only; split <;> rfl

theorem Inv.ensure {s0 : S} {items : List (List Nat)} (ok : Nat → Bool) : ∀ (fuel : Nat) (s : S), Inv s0 s items → Inv s0 (s.ensure ok fuel).1 items ∧ ((s.ensure ok fuel).2 = .ok → (s.ensure ok fuel).1.hdr = true) ∧
    (s.ensure ok fuel).1.done = s.done := by
  intro fuel
  induction fuel with
  | zero => intro s v; exact ⟨v, by simp [S.ensure], rfl⟩
  | succ fuel ih =>
    intro s v
    unfold S.ensure
    by_cases hh : s.hdr = true
    · rw [if_pos hh]
      exact ⟨v, fun _ => hh, rfl⟩
    · rw [if_neg hh]
      have hv := v.header ok
      have hd := writeHeader_done ok s
      generalize s.writeHeader ok = p at hv hd
      obtain ⟨s1, r⟩ := p
      cases r with
      | ok =>
        have := ih s1 hv
        exact ⟨this.1, this.2.1, this.2.2.trans hd⟩
      | network => exact ⟨hv, by simp, hd⟩
      | length => exact ⟨hv, by simp, hd⟩
      | stuck => exact ⟨hv, by simp, hd⟩

theorem Inv.put {s0 s : S} {items : List (List Nat)} (ok : Nat → Bool) (v : Inv s0 s items) (hh : s.hdr = true) (hd : s.done = false) {x : List Nat} (hx : x ≠ []) (hl : x.length < 18446744073709551616) :
    Inv s0 (s.put ok x).1 (if (s.put ok x).2 = .ok then items ++ [x] else items) := by
  obtain ⟨q1, infos, q2, q3⟩ := v.shut hh
  have hg : ∀ y ∈ items ++ [x], y ≠ [] ∧ y.length < 18446744073709551616 := by
    intro y hy
    simp at hy
    rcases hy with hy | rfl
    · exact v.good y hy
    · exact ⟨hx, hl⟩
  have hfail : Inv s0 { s with sends := s.sends + 1 } items := ⟨v.clh, v.ho, v.good, v.written, v.open_, v.shut, v.lim⟩
  cases hm : s0.mode with
  | some n =>
    rw [hm] at q1 q3
    by_cases hn : n < s.written + x.length
    · have e : s.put ok x = (s, .length) := by simp [S.put, q1, hn]
      rw [e]; exact v
    · by_cases hk : ok s.sends = true
      · have e : s.put ok x = ({ s with sends := s.sends + 1, wire := s.wire ++ [.body x], written := s.written + x.length }, .ok) := by simp [S.put, S.sendBody, S.send, q1, hn, hk]
        rw [e]
        refine ⟨v.clh, v.ho, hg, by simp [v.written], by simp [hh], ?_, ?_⟩
        · intro _
          refine ⟨by simp [q1, hm], infos, q2, ?_⟩
          simp only [hm]
          simp [q3]
        · intro n' hn' _
          rw [hm] at hn'
          cases hn'
          simp [hd]; omega
      · have e : s.put ok x = ({ s with sends := s.sends + 1 }, .network) := by simp [S.put, S.sendBody, S.send, q1, hn, hk]
        rw [e]; exact hfail
  | none =>
    rw [hm] at q1 q3
    obtain ⟨h, hc, _⟩ := C116_size x.length hl
    by_cases hk : ok s.sends = true
    · have e : s.put ok x = ({ s with sends := s.sends + 1, wire := s.wire ++ [.body (enc x)], written := s.written + x.length }, .ok) := by simp [S.put, S.sendBody, S.send, q1, hc, hk, enc]
      rw [e]
      refine ⟨v.clh, v.ho, hg, by simp [v.written], by simp [hh], ?_, ?_⟩
      · intro _
        refine ⟨by simp [q1, hm], infos, q2, ?_⟩
        simp only [hm]
        simp [q3, hd]
      · intro n' hn' _
        rw [hm] at hn'; cases hn'
    · have e : s.put ok x = ({ s with sends := s.sends + 1 }, .network) := by simp [S.put, S.sendBody, S.send, q1, hc, hk]
      rw [e]; exact hfail

theorem Run.inv {ok : Nat → Bool} {s0 s : S} {items : List (List Nat)} (hf : s0.fresh) (h : Run ok s0 s items) : Inv s0 s items := by
  induction h with
  | init =>
    obtain ⟨f1, f2, f3, f4, f5⟩ := hf
    refine ⟨rfl, rfl, by simp, by simp [f4], fun _ => ⟨rfl, f2, by simp [f5]⟩, ?_, ?_⟩
    · intro h; rw [f1] at h; cases h
    · intro n _ h; rw [f1] at h; cases h
  | header _ ih => exact ih.header ok
  | @write s items _ x hx hl hd ih =>
    have he := Inv.ensure ok 3 s ih
    unfold S.write
    generalize s.ensure ok 3 = p at he
    obtain ⟨s1, r⟩ := p
    obtain ⟨v, hhdr, hdone⟩ := he
    cases r with
    | network => simpa using v
    | length => simpa using v
    | stuck => simpa using v
    | ok => exact Inv.put ok v (hhdr rfl) (hdone.trans hd) hx hl
  | @done s items _ hh ih =>
    by_cases hd : s.done = true
    · rw [show s.writeDone ok = (s, .ok) by simp [S.writeDone, hd]]; exact ih
    · have hd : s.done = false := by simpa using hd
      obtain ⟨q1, infos, q2, q3⟩ := ih.shut hh
      cases hm : s0.mode with
      | some n =>
        rw [hm] at q1 q3
        by_cases hn : s.written ≠ n
        · rw [show s.writeDone ok = ({ s with closed := true }, .length) by simp [S.writeDone, hd, q1, hn]]
          exact ⟨ih.clh, ih.ho, ih.good, ih.written, ih.open_, ih.shut, ih.lim⟩
        · rw [show s.writeDone ok = ({ s with done := true }, .ok) by simp [S.writeDone, hd, q1, hn]]
          refine ⟨ih.clh, ih.ho, ih.good, ih.written, by simp [hh], ?_, ?_⟩
          · intro _
            refine ⟨by simp [q1, hm], infos, q2, ?_⟩
            simp only [hm]
            simp [q3]
          · intro n' hn' _
            rw [hm] at hn'
            cases hn'
            have := (ih.lim n hm hh).1
            simp; omega
      | none =>
        rw [hm] at q1 q3
        by_cases hk : ok s.sends = true
        · rw [show s.writeDone ok = ({ s with sends := s.sends + 1, wire := s.wire ++ [.body [48, 13, 10, 13, 10]], done := true }, .ok) by simp [S.writeDone, S.send, hd, q1, hk]]
          refine ⟨ih.clh, ih.ho, ih.good, ih.written, by simp [hh], ?_, ?_⟩
          · intro _
            refine ⟨by simp [q1, hm], infos, q2, ?_⟩
            simp only [hm]
            simp [q3, hd]
          · intro n' hn' _
            rw [hm] at hn'; cases hn'
        · rw [show s.writeDone ok = ({ s with sends := s.sends + 1 }, .network) by simp [S.writeDone, S.send, hd, q1, hk]]
          exact ⟨ih.clh, ih.ho, ih.good, ih.written, ih.open_, ih.shut, ih.lim⟩

/-- **C116.** After `WriteDone` the response is any informational responses, one header, and a body that the receiver decodes, as the header says, to exactly the items whose `Write` succeeded, in order,
and to nothing more; with Content-Length it has that length. -/
theorem C116_body {ok : Nat → Bool} {s0 s : S} {items : List (List Nat)} (hf : s0.fresh) (h : Run ok s0 s items) (hh : s.hdr = true) (hd : s.done = true) :
    ∃ infos bodies, s.wire = infos ++ .header s0.clh.isNone s0.clh s0.ho :: bodies ∧ (∀ m ∈ infos, m = .info) ∧
      (s0.ho = true → (bodies.map Msg.bytes).flatten = [] ∧ items = []) ∧
      (s0.ho = false → s0.clh = none → decode (bodies.map Msg.bytes).flatten = some (items.flatten, [])) ∧
      (s0.ho = false → ∀ c, s0.clh = some c → (bodies.map Msg.bytes).flatten = items.flatten ∧ items.flatten.length = c.getD 0) := by
  have v := h.inv hf
  obtain ⟨q1, infos, q2, q3⟩ := v.shut hh
  refine ⟨infos, _, q3, q2, ?_, ?_, ?_⟩
  · intro hho
    have hm : s0.mode = some 0 := by simp [S.mode, hho]
    have := v.lim 0 hm hh
    have hw := v.written
    have hi : items = [] := by
      cases items with
      | nil => rfl
      | cons x l =>
        have := List.length_pos_iff.2 (v.good x (by simp)).1
        simp at hw; omega
    simp [hm, hi]
  · intro hho hc
    have hm : s0.mode = none := by simp [S.mode, hho, hc]
    simp only [hm, hd, if_true, List.map_append, List.map_map, List.flatten_append]
    have e : (items.map (Msg.bytes ∘ fun x => Msg.body (enc x))) = items.map enc := by
      apply List.map_congr_left; intro x _; rfl
    rw [e]
    have := dechunk_items items v.good [] (((items.map enc).flatten ++ [48, 13, 10, 13, 10]).length + 1) (by have := enc_len items; simp only [List.length_append]; omega)
    simpa [decode, Msg.bytes] using this
  · intro hho c hc
    have hm : s0.mode = some (c.getD 0) := by simp [S.mode, hho, hc]
    have hw := v.written
    have := (v.lim _ hm hh).2 hd
    simp only [hm, List.map_map]
    refine ⟨?_, by omega⟩
    have e : (items.map (Msg.bytes ∘ Msg.body)) = items := by
      conv => rhs; rw [← List.map_id items]
      apply List.map_congr_left; intro x _; rfl
    rw [e]

/-- **C116.** `Write` never loops for ever and never writes outside of a string. -/
theorem C116_ends (ok : Nat → Bool) (s : S) (x : List Nat) (hx : x.length < 18446744073709551616) : (s.write ok x).2 ≠ .stuck := by
  have h1 : ∀ s : S, (s.writeHeader ok).2 ≠ .stuck := by
    intro s
    unfold S.writeHeader S.send
    split
    · simp
    · split
      · dsimp only; split <;> simp
      · dsimp only; split <;> simp
  have h2 : ∀ s : S, 200 ≤ s.status → (s.writeHeader ok).2 = .ok → (s.writeHeader ok).1.hdr = true := by
    intro s hs
    unfold S.writeHeader S.send
    split
    · intro _; assumption
    · rw [if_neg (by omega)]
      dsimp only; split <;> simp
  have h3 : ∀ s : S, (s.writeHeader ok).2 = .ok → (s.writeHeader ok).1.hdr = true ∨ 200 ≤ (s.writeHeader ok).1.status := by
    intro s
    by_cases hs : 200 ≤ s.status
    · intro h; exact .inl (h2 s hs h)
    · unfold S.writeHeader S.send
      split
      · intro _; left; assumption
      · rw [if_pos (by omega)]
        dsimp only; split <;> simp
  have h4 : (s.ensure ok 3).2 ≠ .stuck := by
    unfold S.ensure
    by_cases hh : s.hdr = true
    · simp [hh]
    · simp only [hh]
      have a1 := h1 s
      have a3 := h3 s
      generalize s.writeHeader ok = p at a1 a3
      obtain ⟨s1, r⟩ := p
      cases r with
      | stuck => exact absurd rfl a1
      | network => simp
      | length => simp
      | ok =>
        simp only [Bool.false_eq_true, if_false]
        unfold S.ensure
        by_cases hh1 : s1.hdr = true
        · simp [hh1]
        · have hs1 : 200 ≤ s1.status := (a3 rfl).resolve_left hh1
          simp only [hh1]
          have b1 := h1 s1
          have b2 := h2 s1 hs1
          generalize s1.writeHeader ok = p at b1 b2
          obtain ⟨s2, r⟩ := p
          cases r with
          | stuck => exact absurd rfl b1
          | network => simp
          | length => simp
          | ok =>
            have : s2.hdr = true := b2 rfl
            simp [S.ensure, this]
  unfold S.write
  generalize s.ensure ok 3 = p at h4
  obtain ⟨s1, r⟩ := p
  cases r with
  | stuck => exact absurd rfl h4
  | network => simp
  | length => simp
  | ok =>
    obtain ⟨h, hc, _⟩ := C116_size x.length hx
    have hb : ∀ y k, (s1.sendBody ok y k).2 ≠ .stuck := by
      intro y k
      unfold S.sendBody S.send
      dsimp only; split <;> simp
    show (s1.put ok x).2 ≠ .stuck
    unfold S.put
    split
    · split
      · simp
      · exact hb _ _
    · rw [hc]; exact hb _ _

/-- A chunked response of two items, with an informational response before it. -/
example : ∃ s, Run (fun _ => true) { status := 100, clh := none, ho := false } s [[1, 2], [3]] ∧ s.hdr = true ∧ s.done = true :=
  ⟨_, ((Run.init.write [1, 2] (by simp) (by simp) rfl).write [3] (by simp) (by simp) rfl).done rfl, rfl, rfl⟩

/-! ## C117 -/

/-- An empty item ends a chunked body: all calls succeed, and the receiver takes the rest for the next response. -/
theorem C117_empty_partial : ∃ s : S, s = ((((({ status := 200, clh := none, ho := false } : S).write (fun _ => true) [1]).1.write (fun _ => true) []).1.write (fun _ => true) [2]).1.writeDone (fun _ => true)).1 ∧
    decode (s.wire.map Msg.bytes).flatten = some ([1], [49, 13, 10, 2, 13, 10, 48, 13, 10, 13, 10]) ∧ s.done = true := ⟨_, rfl, by decide, by decide⟩

/-- For every state after the header: `Write` of nothing sends the end of the body. -/
theorem C117_empty_all_partial (ok : Nat → Bool) (s : S) (hh : s.hdr = true) (hc : s.cl = none) (hk : ok s.sends = true) :
    (s.write ok []).2 = .ok ∧ (s.write ok []).1.wire = s.wire ++ [.body [48, 13, 10, 13, 10]] ∧ (s.write ok []).1.done = s.done := by
  have : chunkHeader 0 = some [48, 13, 10] := by decide
  simp [S.write, S.ensure, S.put, S.sendBody, hh, hc, this, S.send, hk]

/-- `Write` after `WriteDone` is not refused: the receiver takes the item for the next response. -/
theorem C117_after_done_partial : ∃ s : S, s = (((({ status := 200, clh := none, ho := false } : S).write (fun _ => true) [1]).1.writeDone (fun _ => true)).1.write (fun _ => true) [2]).1 ∧
    decode (s.wire.map Msg.bytes).flatten = some ([1], [49, 13, 10, 2, 13, 10]) ∧
    (((({ status := 200, clh := none, ho := false } : S).write (fun _ => true) [1]).1.writeDone (fun _ => true)).1.write (fun _ => true) [2]).2 = .ok := ⟨_, rfl, by decide, by decide⟩

/-- `WriteDone` before the header succeeds, and then the body is never ended, not even by `Close`. -/
theorem C117_early_done_partial : ∃ s : S, s = (((({ status := 200, clh := none, ho := false } : S).writeDone (fun _ => true)).1.write (fun _ => true) [1]).1.writeDone (fun _ => true)).1.close (fun _ => true) ∧
    s.wire = [.header true none false, .body [49, 13, 10, 1, 13, 10]] ∧ s.done = true ∧ decode (s.wire.map Msg.bytes).flatten = none := ⟨_, rfl, by decide, by decide, by decide⟩

end Verif.HttpStream
