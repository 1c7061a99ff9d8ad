import Verif.Redis.Bytes
/-!
# One item of a reply

`item` says what `ProcessItem` finds in a string of bytes.
-/

namespace Verif.Redis

theorem gather_spec (bs : List Bytes) : ∀ (p : Bytes) (n : Nat), n ≤ (p ++ bs.flatten).length →
    gather bs p n = .ok ((p ++ bs.flatten).take n) := by
  induction bs with
  | nil =>
    intro p n h
    rw [gather]
    simp only [List.flatten_nil, List.append_nil] at h ⊢
    rw [if_pos h]
  | cons b bs ih =>
    intro p n h
    rw [gather]
    split
    · rename_i hn
      rw [List.take_append_of_le_length hn]
    · rename_i hn
      rw [ih b (n - p.length) (by simp only [List.length_append, List.flatten_cons] at h ⊢; omega)]
      simp only [List.flatten_cons]
      have e : p.take n = p := List.take_of_length_le (by omega)
      rw [List.take_append (l₁ := p), e]

theorem convLoop_take (p : Bytes) (n : Nat) (v : Int) (h : n ≤ p.length) : convLoop p n v = convLoop (p.take n) n v := by
  induction n generalizing p v with
  | zero => cases p <;> rfl
  | succ n ih =>
    cases p with
    | nil => simp at h
    | cons a p =>
      simp only [List.take_succ_cons, convLoop]
      simp only [List.length_cons] at h
      rw [ih p _ (by omega)]

/-- The number in a line; no number at all is 0. -/
def conv (l : Bytes) : R Int := if l = [] then .ok 0 else convert l l.length

theorem convert_take {p l : Bytes} {r : Bytes} (h : p = l ++ 13 :: r ∨ (p.take l.length = l ∧ l ≠ [] ∧ l.length ≤ p.length)) :
    convert p l.length = conv l := by
  by_cases hl : l = []
  · subst hl
    rcases h with rfl | ⟨-, h, -⟩
    · simp [convert, conv, convLoop, signed]
    · exact absurd rfl h
  · have h2 : p.take l.length = l ∧ l.length ≤ p.length := by
      rcases h with rfl | ⟨h, -, h'⟩
      · simp
      · exact ⟨h, h'⟩
    obtain ⟨h2, h3⟩ := h2
    rw [conv, if_neg hl]
    cases l with
    | nil => exact absurd rfl hl
    | cons x l =>
      cases p with
      | nil => simp at h3
      | cons y p =>
        simp only [List.length_cons, List.take_succ_cons, List.cons.injEq] at h2 h3
        obtain ⟨rfl, h2⟩ := h2
        have e1 : convLoop p l.length 0 = convLoop l l.length 0 := by rw [convLoop_take p _ _ (by omega), h2]
        have e2 : convLoop (y :: p) (l.length + 1) 0 = convLoop (y :: l) (l.length + 1) 0 := by
          rw [convLoop_take (y :: p) _ _ (by simpa using h3)]
          simp only [List.take_succ_cons, h2]
        simp only [convert, List.length_cons, Nat.add_sub_cancel, e1, e2, Nat.add_one_ne_zero, if_false]

/-- A line with a number. -/
def number (s : Bytes) : R (Int × Bytes) :=
  match line s with
  | none => .less
  | some (l, r) => if 24 ≤ l.length then .bad else (conv l).bind fun i => .ok (i, r)

theorem readInteger_spec {c : Cur} (hc : c.At) :
    (line c.rest = none ∧ readInteger c = .less) ∨
    ∃ l r, line c.rest = some (l, r) ∧ ((24 ≤ l.length ∧ readInteger c = .bad) ∨
      (¬24 ≤ l.length ∧ ∃ p c', readInteger c = .ok (p, l.length, c') ∧ c'.rest = r ∧ convert p l.length = conv l)) := by
  obtain ⟨b, bs, hb, hp⟩ := id hc
  rcases tryVar_spec c.bs.length c.bs c.pos rfl hc with ⟨h1, h2⟩ | ⟨c', l, h1, h2⟩
  · left
    refine ⟨h1, ?_⟩
    simp only [readInteger, h2, bind, R.bind]
  · right
    refine ⟨l, c'.rest, h2, ?_⟩
    by_cases hl : 24 ≤ l.length
    · left
      refine ⟨hl, ?_⟩
      simp only [readInteger, h1, bind, R.bind, if_pos hl]
    · right
      refine ⟨hl, ?_⟩
      have hs : c.rest = l ++ 13 :: 10 :: c'.rest := line_split h2
      have hr : c.rest = b.drop c.pos ++ bs.flatten := by simp only [Cur.rest, hb]
      by_cases hlt : (b.drop c.pos).length < l.length
      · have hg : gather bs (b.drop c.pos) l.length = .ok l := by
          rw [gather_spec _ _ _ (by rw [← hr, hs]; simp), ← hr, hs]
          simp
        refine ⟨l, c', ?_, rfl, ?_⟩
        · simp only [readInteger, h1, bind, R.bind, if_neg hl]
          simp only [hb, if_pos hlt, hg]
        · exact convert_take (r := []) (.inr ⟨by simp, by intro e; simp [e] at hlt, Nat.le_refl _⟩)
      · refine ⟨b.drop c.pos, c', ?_, rfl, ?_⟩
        · simp only [readInteger, h1, bind, R.bind, if_neg hl]
          simp only [hb, if_neg hlt]
        · have hlt : l.length ≤ (b.drop c.pos).length := by omega
          have ht : (b.drop c.pos).take l.length = l := by
            have := congrArg (List.take l.length) (hr.symm.trans hs)
            rw [List.take_append_of_le_length hlt] at this
            simpa using this
          by_cases hle : l = []
          · subst hle
            simp only [List.nil_append] at hs
            cases hx : b.drop c.pos with
            | nil =>
              have := congrArg List.length hx
              simp only [List.length_drop, List.length_nil] at this
              omega
            | cons x y =>
              rw [hx, hs] at hr
              simp only [List.cons_append, List.cons.injEq] at hr
              rw [← hr.1]
              exact convert_take (r := y) (.inl rfl)
          · exact convert_take (r := []) (.inr ⟨ht, hle, hlt⟩)

/-- `x` reads from the string `s` what `y` says, and counts the bytes. Nothing undefined happens. -/
def Sim {α : Type} (s : Bytes) (x : R (α × Cur × Nat)) (y : R (α × Bytes)) : Prop :=
  (∃ a c n, x = .ok (a, c, n) ∧ y = .ok (a, c.rest) ∧ n + c.rest.length = s.length) ∨ (x = .less ∧ y = .less) ∨
    (x = .bad ∧ y = .bad) ∨ (x = .overflow ∧ y = .overflow)

theorem convLoop_cases (s : Bytes) (v : Int) : (∃ o, convLoop s s.length v = .ok o) ∨ convLoop s s.length v = .overflow := by
  induction s generalizing v with
  | nil => exact .inl ⟨_, rfl⟩
  | cons a s ih =>
    simp only [List.length_cons, convLoop]
    split
    · split
      · exact .inr rfl
      · split
        · exact .inr rfl
        · exact ih _
    · exact .inl ⟨_, rfl⟩

theorem conv_cases (l : Bytes) : (∃ i, conv l = .ok i) ∨ conv l = .overflow := by
  cases l with
  | nil => exact .inl ⟨0, rfl⟩
  | cons x l =>
    have h1 := convLoop_cases l 0
    have h2 := convLoop_cases (x :: l) 0
    simp only [List.length_cons] at h2
    simp only [conv, convert, List.length_cons, Nat.add_sub_cancel, Nat.add_one_ne_zero, if_false, reduceCtorEq]
    have h3 : ∀ (m : Bool) (r : R (Option Int)), ((∃ o, r = .ok o) ∨ r = .overflow) →
        (∃ i, signed m r = .ok i) ∨ signed m r = .overflow := by
      rintro m r (⟨o, rfl⟩ | rfl)
      · cases o
        · exact .inl ⟨_, rfl⟩
        · exact .inl ⟨_, rfl⟩
      · exact .inr rfl
    split
    · exact h3 _ _ h1
    · split
      · exact h3 _ _ h1
      · exact h3 _ _ h2

theorem processInteger_sim {c : Cur} (hc : c.At) : Sim c.rest (processInteger c) (number c.rest) := by
  rcases readInteger_spec hc with ⟨h1, h2⟩ | ⟨l, r, h1, h2⟩
  · right; left
    simp only [processInteger, number, h1, h2, bind, R.bind, and_self]
  · rcases h2 with ⟨hl, h2⟩ | ⟨hl, p, c', h2, h3, h4⟩
    · right; right; left
      simp only [processInteger, number, h1, h2, bind, R.bind, if_pos hl, and_self]
    · rcases conv_cases l with ⟨i, hi⟩ | hi
      · left
        refine ⟨i, c', l.length + 2, ?_, ?_, ?_⟩
        · simp only [processInteger, h2, bind, R.bind, h4, hi]
        · simp only [number, h1, if_neg hl, hi, R.bind, h3]
        · rw [line_split h1, h3]; simp; omega
      · right; right; right
        simp only [processInteger, number, h1, h2, bind, R.bind, if_neg hl, h4, hi, and_self]

theorem fillString_spec {c : Cur} (hc : c.At) {n : Nat} (h : n ≤ c.rest.length) : fillString c n = .ok (c.rest.take n) := by
  obtain ⟨b, bs, hb, hp⟩ := hc
  have hr : c.rest = b.drop c.pos ++ bs.flatten := by simp only [Cur.rest, hb]
  rw [fillString, hb, hr]
  rw [hr] at h
  simp only
  rw [if_neg (by omega)]
  split
  · rename_i hn
    rw [List.take_append_of_le_length hn]
  · exact gather_spec _ _ _ h

theorem processLine_sim {c : Cur} (hc : c.At) :
    Sim c.rest (processLine c) (match line c.rest with | none => .less | some x => .ok x) := by
  rcases tryVar_spec c.bs.length c.bs c.pos rfl hc with ⟨h1, h2⟩ | ⟨c', l, h1, h2⟩
  · right; left
    have h1 : line c.rest = none := h1
    simp only [processLine, h1, h2, bind, R.bind, and_self]
  · left
    have h2 : line c.rest = some (l, c'.rest) := h2
    have hs := line_split h2
    refine ⟨l, c', l.length + 2, ?_, by rw [h2], by rw [hs]; simp; omega⟩
    have : fillString c l.length = .ok l := by
      rw [fillString_spec hc (by rw [hs]; simp), hs]
      simp
    simp only [processLine, h1, bind, R.bind, this]

theorem fixedLoop_spec (bs : List Bytes) : ∀ pos left, (∀ b, bs.head? = some b → pos ≤ b.length) → 0 < left →
    (left ≤ (Cur.mk bs pos).rest.length ∧ ∃ c, fixedLoop bs pos left = .ok (some c) ∧ c.rest = (Cur.mk bs pos).rest.drop left) ∨
    ((Cur.mk bs pos).rest.length < left ∧ fixedLoop bs pos left = .ok none) := by
  induction bs with
  | nil =>
    intro pos left _ hl
    right
    exact ⟨by simpa [Cur.rest] using hl, rfl⟩
  | cons b bs ih =>
    intro pos left hpos hl
    have hpos := hpos b rfl
    simp only [fixedLoop]
    rw [if_neg (by omega), if_neg (by omega), rest_cons]
    simp only [List.length_append, List.length_drop]
    split
    · left
      refine ⟨by omega, _, rfl, ?_⟩
      rw [rest_cons, List.drop_append_of_le_length (by rw [List.length_drop]; omega), List.drop_drop]
    · split
      · left
        refine ⟨by omega, _, rfl, ?_⟩
        rw [rest_start, List.drop_append, List.drop_eq_nil_of_le (by rw [List.length_drop]; omega), List.length_drop]
        rename_i h
        rw [h, Nat.sub_self]; rfl
      · rcases ih 0 (left - (b.length - pos)) (by simp) (by omega) with ⟨h1, c, h2, h3⟩ | ⟨h1, h2⟩
        · left
          rw [rest_start] at h1 h3
          refine ⟨by omega, c, h2, ?_⟩
          have e : (b.drop pos).drop left = [] := List.drop_eq_nil_of_le (by rw [List.length_drop]; omega)
          rw [h3, List.drop_append, e, List.length_drop]; rfl
        · right
          rw [rest_start] at h1
          exact ⟨by omega, h2⟩

/-- A string that is preceded by its length. -/
def bulk (s : Bytes) : R (Val × Bytes) :=
  (number s).bind fun x =>
    if x.1 < 0 then .ok (.nil, x.2)
    else if x.2.length < x.1.toNat + 2 then .less
    else .ok (.str (x.2.take x.1.toNat), x.2.drop (x.1.toNat + 2))

theorem processBulk_sim {c : Cur} (hc : c.At) : Sim c.rest (processBulk c) (bulk c.rest) := by
  rcases readInteger_spec hc with ⟨h1, h2⟩ | ⟨l, r, h1, h2⟩
  · right; left
    simp only [processBulk, bulk, number, h1, h2, bind, R.bind, and_self]
  · rcases h2 with ⟨hl, h2⟩ | ⟨hl, p, c', h2, h3, h4⟩
    · right; right; left
      simp only [processBulk, bulk, number, h1, h2, bind, R.bind, if_pos hl, and_self]
    · rcases conv_cases l with ⟨i, hi⟩ | hi
      · have hs := line_split h1
        simp only [processBulk, h2, bind, R.bind, h4, hi, bulk, number, h1, if_neg hl]
        by_cases hneg : i < 0
        · left
          rw [if_pos hneg, if_pos hneg]
          exact ⟨_, _, _, rfl, by rw [h3], by rw [hs, h3]; simp; omega⟩
        · rw [if_neg hneg, if_neg hneg]
          cases hr : tryReadable c'.bs c'.pos with
          | none =>
            right; left
            have := tryReadable_none hr
            have : r = [] := by rw [← h3]; exact this
            subst this
            simp
          | some d =>
            obtain ⟨hd, hdr⟩ := tryReadable_some hr
            have hdr : d.rest = r := by rw [hdr, ← h3]
            simp only
            obtain ⟨b, bs, hb, hp⟩ := id hd
            rcases fixedLoop_spec d.bs d.pos (i.toNat + 2) (by rw [hb]; simp; omega) (by omega) with ⟨g1, c'', g2, g3⟩ | ⟨g1, g2⟩
            · have g1 : i.toNat + 2 ≤ d.rest.length := g1
              have g3 : c''.rest = d.rest.drop (i.toNat + 2) := g3
              rw [hdr] at g1 g3
              left
              rw [if_neg (by omega)]
              have hf : fillString d i.toNat = .ok (r.take i.toNat) := by rw [fillString_spec hd (by rw [hdr]; omega), hdr]
              simp only [g2, hf]
              refine ⟨_, _, _, rfl, by rw [g3], ?_⟩
              rw [hs, g3]
              simp only [List.length_drop, List.length_append, List.length_cons]
              omega
            · have g1 : d.rest.length < i.toNat + 2 := g1
              rw [hdr] at g1
              right; left
              rw [if_pos g1]
              simp only [g2, and_self]
      · right; right; right
        simp only [processBulk, bulk, number, h1, h2, bind, R.bind, if_neg hl, h4, hi, and_self]

/-- The beginning of an array. -/
def arrayHead (s : Bytes) : R (Item × Bytes) :=
  (number s).bind fun x =>
    if toInt32 x.1 = -1 then .ok (.leaf .nil, x.2)
    else if 0 < toInt32 x.1 then .ok (.array (toInt32 x.1), x.2)
    else .ok (.leaf (.array []), x.2)

/-- One item. `deep`: arrays are not allowed any more. -/
def item (deep : Bool) : Bytes → R (Item × Bytes)
  | [] => .less
  | t :: s =>
    if t = 45 ∨ t = 43 ∨ t = 58 ∨ t = 36 ∨ t = 42 then
      if s = [] then .less
      else if t = 45 then (match line s with | none => .less | some x => .ok (.leaf (.error x.1), x.2))
      else if t = 43 then (match line s with | none => .less | some x => .ok (.leaf (.status x.1), x.2))
      else if t = 58 then (number s).bind fun x => .ok (.leaf (.int x.1), x.2)
      else if t = 36 then (bulk s).bind fun x => .ok (.leaf x.1, x.2)
      else if deep then .bad
      else arrayHead s
    else .bad

theorem processType_spec (c : Cur) :
    (c.rest = [] ∧ processType c = .less) ∨ ∃ t s, c.rest = t :: s ∧
      ((¬(t = 45 ∨ t = 43 ∨ t = 58 ∨ t = 36 ∨ t = 42) ∧ processType c = .bad) ∨
       ((t = 45 ∨ t = 43 ∨ t = 58 ∨ t = 36 ∨ t = 42) ∧ ((s = [] ∧ processType c = .less) ∨
        (s ≠ [] ∧ ∃ c', processType c = .ok (t, c') ∧ c'.At ∧ c'.rest = s)))) := by
  cases hr : tryReadable c.bs c.pos with
  | none =>
    left
    exact ⟨tryReadable_none hr, by simp only [processType, hr]⟩
  | some d =>
    right
    obtain ⟨⟨b, bs, hb, hp⟩, hd⟩ := tryReadable_some hr
    have hd : d.rest = c.rest := hd
    obtain ⟨dbs, dpos⟩ := d
    have hb : dbs = b :: bs := hb
    have hp : dpos < b.length := hp
    subst hb
    have hbs : b.drop dpos = b[dpos] :: b.drop (dpos + 1) := List.drop_eq_getElem_cons hp
    refine ⟨b[dpos], b.drop (dpos + 1) ++ bs.flatten, by rw [← hd, rest_cons, hbs]; rfl, ?_⟩
    simp only [processType, hr, List.getElem?_eq_getElem hp]
    generalize b[dpos] = t
    by_cases ht : t = 45 ∨ t = 43 ∨ t = 58 ∨ t = 36 ∨ t = 42
    · right
      refine ⟨ht, ?_⟩
      rw [if_pos ht, ← rest_cons]
      cases hr2 : tryReadable (b :: bs) (dpos + 1) with
      | none => left; exact ⟨tryReadable_none hr2, rfl⟩
      | some d =>
        right
        obtain ⟨g1, g2⟩ := tryReadable_some hr2
        exact ⟨by rw [← g2]; exact g1.rest_ne, d, rfl, g1, g2⟩
    · left
      exact ⟨ht, by rw [if_neg ht]⟩

theorem Sim.wrap {α β : Type} {s : Bytes} {x : R (α × Cur × Nat)} {y : R (α × Bytes)} (h : Sim s x y) (t : UInt8) (f : α → β) :
    Sim (t :: s) (x.bind fun a => .ok (f a.1, a.2.1, a.2.2 + 1)) (y.bind fun a => .ok (f a.1, a.2)) := by
  rcases h with ⟨a, c, n, rfl, rfl, h3⟩ | ⟨rfl, rfl⟩ | ⟨rfl, rfl⟩ | ⟨rfl, rfl⟩
  · left
    exact ⟨f a, c, n + 1, rfl, rfl, by simp only [List.length_cons]; omega⟩
  · exact .inr (.inl ⟨rfl, rfl⟩)
  · exact .inr (.inr (.inl ⟨rfl, rfl⟩))
  · exact .inr (.inr (.inr ⟨rfl, rfl⟩))

theorem processArray_sim {c : Cur} (hc : c.At) (ridx : Nat) :
    Sim c.rest (processArray ridx c) (if ridx = 8 then .bad else arrayHead c.rest) := by
  simp only [processArray]
  split
  · exact .inr (.inr (.inl ⟨rfl, rfl⟩))
  · rcases processInteger_sim hc with ⟨a, c', n, h1, h2, h3⟩ | ⟨h1, h2⟩ | ⟨h1, h2⟩ | ⟨h1, h2⟩
    · left
      simp only [arrayHead, h1, h2, bind, R.bind]
      split
      · exact ⟨_, _, _, rfl, rfl, h3⟩
      · split
        · exact ⟨_, _, _, rfl, rfl, h3⟩
        · exact ⟨_, _, _, rfl, rfl, h3⟩
    · exact .inr (.inl (by simp only [arrayHead, h1, h2, bind, R.bind, and_self]))
    · exact .inr (.inr (.inl (by simp only [arrayHead, h1, h2, bind, R.bind, and_self])))
    · exact .inr (.inr (.inr (by simp only [arrayHead, h1, h2, bind, R.bind, and_self])))

theorem processItem_sim (ridx : Nat) (c : Cur) : Sim c.rest (processItem ridx c) (item (decide (ridx = 8)) c.rest) := by
  rcases processType_spec c with ⟨h1, h2⟩ | ⟨t, s, h1, h2⟩
  · exact .inr (.inl (by simp only [processItem, item, h1, h2, bind, R.bind, and_self]))
  · rcases h2 with ⟨ht, h2⟩ | ⟨ht, ⟨hs, h2⟩ | ⟨hs, c', h2, hat, h3⟩⟩
    · exact .inr (.inr (.inl (by simp only [processItem, item, h1, h2, bind, R.bind, if_neg ht, and_self])))
    · exact .inr (.inl (by simp only [processItem, item, h1, h2, bind, R.bind, if_pos ht, if_pos hs, and_self]))
    · rw [h1]
      simp only [processItem, item, h2, bind, R.bind, if_pos ht, if_neg hs]
      subst h3
      split
      · have := (processLine_sim hat).wrap t fun s => Item.leaf (.error s)
        revert this
        cases line c'.rest <;> exact id
      · split
        · have := (processLine_sim hat).wrap t fun s => Item.leaf (.status s)
          revert this
          cases line c'.rest <;> exact id
        · split
          · exact (processInteger_sim hat).wrap t fun i => Item.leaf (.int i)
          · split
            · exact (processBulk_sim hat).wrap t fun v => Item.leaf v
            · have := (processArray_sim hat ridx).wrap t id
              revert this
              by_cases h8 : ridx = 8
              · simp only [h8, if_true, decide_true]
                exact id
              · simp only [h8, if_false, decide_false]
                generalize arrayHead c'.rest = z
                cases z <;> exact id

/-- A serial number, 0 if there is none. -/
def serial : Bytes → R (Nat × Bytes)
  | [] => .less
  | t :: s =>
    if t = 64 then
      if s = [] then .less else (number s).bind fun x => .ok ((x.1 % 2 ^ 32).toNat, x.2)
    else .ok (0, t :: s)

theorem processSerialNo_sim (c : Cur) : Sim c.rest (processSerialNo c) (serial c.rest) := by
  cases hr : tryReadable c.bs c.pos with
  | none =>
    have : c.rest = [] := tryReadable_none hr
    exact .inr (.inl (by simp only [processSerialNo, hr, this, serial, and_self]))
  | some d =>
    obtain ⟨⟨b, bs, hb, hp⟩, hd⟩ := tryReadable_some hr
    have hd : d.rest = c.rest := hd
    obtain ⟨dbs, dpos⟩ := d
    have hb : dbs = b :: bs := hb
    have hp : dpos < b.length := hp
    subst hb
    have hbs : b.drop dpos = b[dpos] :: b.drop (dpos + 1) := List.drop_eq_getElem_cons hp
    have hrest : c.rest = b[dpos] :: (b.drop (dpos + 1) ++ bs.flatten) := by rw [← hd, rest_cons, hbs]; rfl
    simp only [processSerialNo, hr, List.getElem?_eq_getElem hp]
    rw [hrest]
    simp only [serial]
    by_cases ht : b[dpos] = 64
    · rw [if_pos ht, if_pos ht, ← rest_cons]
      cases hr2 : tryReadable (b :: bs) (dpos + 1) with
      | none => exact .inr (.inl ⟨rfl, by rw [if_pos (tryReadable_none hr2)]⟩)
      | some e =>
        obtain ⟨g1, g2⟩ := tryReadable_some hr2
        rw [if_neg (by rw [← g2]; exact g1.rest_ne), ← g2]
        simp only
        rcases readInteger_spec g1 with ⟨h1, h2⟩ | ⟨l, r, h1, h2⟩
        · exact .inr (.inl (by simp only [number, h1, h2, bind, R.bind, and_self]))
        · rcases h2 with ⟨hl, h2⟩ | ⟨hl, p, c', h2, h3, h4⟩
          · exact .inr (.inr (.inl (by simp only [number, h1, h2, bind, R.bind, if_pos hl, and_self])))
          · rcases conv_cases l with ⟨i, hi⟩ | hi
            · left
              refine ⟨(i % 2 ^ 32).toNat, c', l.length + 3, ?_, ?_, ?_⟩
              · simp only [h2, bind, R.bind, h4, hi]
              · simp only [number, h1, if_neg hl, hi, R.bind, h3]
              · simp only [List.length_cons]; rw [line_split h1, h3]; simp; omega
            · exact .inr (.inr (.inr (by simp only [number, h1, h2, bind, R.bind, if_neg hl, h4, hi, and_self])))
    · rw [if_neg ht, if_neg ht]
      left
      refine ⟨0, _, 0, rfl, ?_, ?_⟩
      · rw [rest_cons, hbs]; rfl
      · rw [rest_cons, hbs]; simp only [List.length_append, List.length_cons]; omega

end Verif.Redis
