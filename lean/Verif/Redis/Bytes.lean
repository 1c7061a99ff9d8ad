import Verif.Redis.Reader
/-!
# What the reader's functions do, in terms of the bytes that are left

Nothing here depends on where blocks begin and end.
-/

namespace Verif.Redis

/-- The bytes from the cursor on. -/
def Cur.rest (c : Cur) : Bytes :=
  match c.bs with
  | [] => []
  | b :: bs => b.drop c.pos ++ bs.flatten

/-- The cursor is at a byte. -/
def Cur.At (c : Cur) : Prop := ∃ b bs, c.bs = b :: bs ∧ c.pos < b.length

/-- The first line, and what comes after it. -/
def line : Bytes → Option (Bytes × Bytes)
  | a :: b :: t => if a = 13 ∧ b = 10 then some ([], t) else (line (b :: t)).map fun x => (a :: x.1, x.2)
  | _ => none

theorem line_split {s l r : Bytes} (h : line s = some (l, r)) : s = l ++ 13 :: 10 :: r := by
  induction s generalizing l r with
  | nil => simp [line] at h
  | cons a s ih =>
    cases s with
    | nil => simp [line] at h
    | cons b t =>
      simp only [line] at h
      split at h
      · rename_i hab
        cases h
        rw [hab.1, hab.2]; rfl
      · simp only [Option.map_eq_some_iff, Prod.mk.injEq] at h
        obtain ⟨⟨l', r'⟩, h1, h2, h3⟩ := h
        rw [← h2, ← h3, ih h1]; rfl

/-- A piece without carriage return. -/
theorem line_skip {x : Bytes} (hx : ∀ a ∈ x, a ≠ 13) (u : Bytes) : line (x ++ u) = (line u).map fun y => (x ++ y.1, y.2) := by
  induction x with
  | nil =>
    simp only [List.nil_append]
    cases line u <;> rfl
  | cons a x ih =>
    have ha : a ≠ 13 := hx a (List.mem_cons_self ..)
    have ih := ih fun b hb => hx b (List.mem_cons_of_mem _ hb)
    rw [List.cons_append]
    cases hxu : x ++ u with
    | nil =>
      obtain ⟨rfl, rfl⟩ := List.append_eq_nil_iff.1 hxu
      simp [line]
    | cons b t =>
      rw [line, if_neg (fun h => ha h.1), ← hxu, ih]
      cases line u <;> rfl

theorem memchr_none {s : Bytes} {n : Nat} (h : memchr s n = none) : ∀ a ∈ s.take n, a ≠ 13 := by
  simp only [memchr, List.findIdx?_eq_none_iff] at h
  intro a ha e
  have := h a ha
  simp [e] at this

theorem memchr_some {s : Bytes} {n k : Nat} (h : memchr s n = some k) :
    k < n ∧ k < s.length ∧ (∀ a ∈ s.take k, a ≠ 13) ∧ s[k]? = some 13 := by
  simp only [memchr, List.findIdx?_eq_some_iff_getElem] at h
  obtain ⟨h1, h2, h3⟩ := h
  have hk : k < n ∧ k < s.length := by simp only [List.length_take] at h1; omega
  refine ⟨hk.1, hk.2, fun a ha e => ?_, ?_⟩
  · obtain ⟨i, hi, he⟩ := List.getElem_of_mem ha
    simp only [List.length_take] at hi
    have := h3 i (by omega)
    rw [List.getElem_take] at this he
    rw [he, e] at this
    simp at this
  · rw [List.getElem_take] at h2
    rw [List.getElem?_eq_getElem hk.2]
    simpa using h2

theorem seekLoop_spec (s : Bytes) (len : Nat) : ∀ p, p + len + 1 = s.length →
    seekLoop s p len = .ok ((line (s.drop p)).map fun x => p + x.1.length) := by
  induction len using Nat.strongRecOn with
  | ind len ih =>
    intro p hp
    rw [seekLoop]
    have hl : (s.drop p).length = len + 1 := by rw [List.length_drop]; omega
    split
    · rename_i hm
      have := memchr_none hm
      have hs : s.drop p = (s.drop p).take len ++ (s.drop p).drop len := (List.take_append_drop _ _).symm
      have hone : ∃ z, (s.drop p).drop len = [z] := by
        have : ((s.drop p).drop len).length = 1 := by rw [List.length_drop, hl]; omega
        exact List.length_eq_one_iff.1 this
      obtain ⟨z, hz⟩ := hone
      rw [hs, hz, line_skip this]
      simp [line]
    · rename_i k hm
      obtain ⟨h1, h2, h3, h4⟩ := memchr_some hm
      have hget : s[p + k + 1]? = (s.drop p)[k + 1]? := by rw [List.getElem?_drop]; congr 1
      have hk1 : k + 1 < (s.drop p).length := by omega
      have hsplit : s.drop p = (s.drop p).take k ++ 13 :: (s.drop p)[k + 1] :: (s.drop p).drop (k + 2) := by
        have e1 : (s.drop p).drop k = 13 :: (s.drop p).drop (k + 1) := by
          rw [List.drop_eq_getElem_cons h2]
          rw [List.getElem?_eq_getElem h2] at h4
          rw [Option.some.inj h4]
        have e2 : (s.drop p).drop (k + 1) = (s.drop p)[k + 1] :: (s.drop p).drop (k + 2) := List.drop_eq_getElem_cons hk1
        rw [← e2, ← e1, List.take_append_drop]
      obtain ⟨x, y, z, hsplit, hx, hxk, hy1, hyz⟩ : ∃ x y z, s.drop p = x ++ 13 :: y :: z ∧ (∀ a ∈ x, a ≠ 13) ∧ x.length = k ∧
          s[p + k + 1]? = some y ∧ s.drop (p + k + 1) = y :: z := by
        have ht : ((s.drop p).take k).length = k := by rw [List.length_take]; omega
        refine ⟨_, _, _, hsplit, h3, ht, ?_, ?_⟩
        · rw [hget, List.getElem?_eq_getElem hk1]
        · have : s.drop (p + k + 1) = (s.drop p).drop (k + 1) := by rw [List.drop_drop]; congr 1
          rw [this, List.drop_eq_getElem_cons hk1]
      rw [hy1]
      simp only
      split
      · rename_i hy
        rw [hsplit, line_skip hx]
        simp only [line, hy, and_self, if_true, Option.map_some, List.append_nil, hxk]
      · rename_i hy
        rw [ih (len - (k + 1)) (by omega) (p + k + 1) (by omega), hyz, hsplit, line_skip hx]
        have hyl : line (13 :: y :: z) = (line (y :: z)).map fun x => (13 :: x.1, x.2) := by
          rw [line, if_neg (fun h => hy h.2)]
        rw [hyl]
        cases line (y :: z) with
        | none => rfl
        | some w =>
          simp only [Option.map_some, List.length_append, List.length_cons, hxk]
          congr 2
          omega

theorem seekNewLine_spec (s : Bytes) : seekNewLine s = .ok ((line s).map fun x => x.1.length) := by
  rw [seekNewLine]
  split
  · rename_i h
    have : line s = none := by
      match s, h with
      | [], _ => rfl
      | [a], _ => rfl
      | _ :: _ :: _, h => simp only [List.length_cons] at h; omega
    rw [this]; rfl
  · rw [seekLoop_spec s _ 0 (by omega)]
    simp

/-- A piece that contains no line and is not empty. -/
theorem line_append {x : Bytes} (hx : line x = none) {y : UInt8} (hl : x.getLast? = some y) (z : UInt8) (u : Bytes) :
    line (x ++ z :: u) = if y = 13 ∧ z = 10 then some (x.dropLast, u) else (line (z :: u)).map fun w => (x ++ w.1, w.2) := by
  induction x with
  | nil => simp at hl
  | cons a x ih =>
    cases x with
    | nil =>
      simp only [List.getLast?_singleton, Option.some.injEq] at hl
      subst hl
      simp only [List.cons_append, List.nil_append, line, List.dropLast_singleton]
    | cons b x =>
      simp only [line] at hx
      split at hx
      · simp at hx
      · rename_i hab
        simp only [Option.map_eq_none_iff] at hx
        have ih := ih hx (by rwa [List.getLast?_cons_cons] at hl)
        simp only [List.cons_append] at ih ⊢
        rw [line, if_neg hab, ih]
        split
        · simp
        · cases line (z :: u) <;> rfl

/-- A piece that contains the end of a line. -/
theorem line_append_some {x l r : Bytes} (hx : line x = some (l, r)) (u : Bytes) : line (x ++ u) = some (l, r ++ u) := by
  induction x generalizing l r with
  | nil => simp [line] at hx
  | cons a x ih =>
    cases x with
    | nil => simp [line] at hx
    | cons b t =>
      simp only [line] at hx
      simp only [List.cons_append, line]
      split at hx
      · rename_i hab
        cases hx
        rw [if_pos hab]
      · rename_i hab
        simp only [Option.map_eq_some_iff, Prod.mk.injEq] at hx
        obtain ⟨⟨l', r'⟩, h1, h2, h3⟩ := hx
        have := ih h1
        rw [List.cons_append] at this
        rw [if_neg hab, this, ← h2, ← h3]; rfl

theorem tryReadable_none {bs : List Bytes} {pos : Nat} (h : tryReadable bs pos = none) : (Cur.mk bs pos).rest = [] := by
  induction bs generalizing pos with
  | nil => rfl
  | cons b bs ih =>
    simp only [tryReadable] at h
    split at h
    · simp at h
    · rename_i hp
      have := ih h
      simp only [Cur.rest]
      rw [List.drop_eq_nil_of_le (by omega), List.nil_append]
      cases bs with
      | nil => rfl
      | cons c cs => simpa [Cur.rest] using this

theorem tryReadable_some {bs : List Bytes} {pos : Nat} {c : Cur} (h : tryReadable bs pos = some c) :
    c.At ∧ c.rest = (Cur.mk bs pos).rest := by
  induction bs generalizing pos with
  | nil => simp [tryReadable] at h
  | cons b bs ih =>
    simp only [tryReadable] at h
    split at h
    · rename_i hp
      cases h
      exact ⟨⟨b, bs, rfl, hp⟩, rfl⟩
    · obtain ⟨h1, h2⟩ := ih h
      refine ⟨h1, ?_⟩
      rw [h2]
      simp only [Cur.rest]
      rw [List.drop_eq_nil_of_le (by omega), List.nil_append]
      cases bs with
      | nil => rfl
      | cons c cs => simp

theorem Cur.At.rest_ne {c : Cur} (h : c.At) : c.rest ≠ [] := by
  obtain ⟨b, bs, hb, hp⟩ := h
  simp only [Cur.rest, hb]
  intro e
  have := congrArg List.length e
  simp only [List.length_append, List.length_drop, List.length_nil] at this
  omega

theorem tryReadable_iff {bs : List Bytes} {pos : Nat} (h : (Cur.mk bs pos).rest ≠ []) : ∃ c, tryReadable bs pos = some c := by
  cases hr : tryReadable bs pos with
  | none => exact absurd (tryReadable_none hr) h
  | some c => exact ⟨c, rfl⟩

theorem rest_cons (b : Bytes) (bs : List Bytes) (p : Nat) : (Cur.mk (b :: bs) p).rest = b.drop p ++ bs.flatten := rfl

theorem rest_start (bs : List Bytes) : (Cur.mk bs 0).rest = bs.flatten := by
  cases bs with
  | nil => rfl
  | cons b bs => simp [Cur.rest]

/-- A step of the cursor inside a block, which may leave it. -/
theorem rest_advance (b : Bytes) (bs : List Bytes) (p : Nat) :
    (if b.length ≤ p then Cur.mk bs 0 else Cur.mk (b :: bs) p).rest = b.drop p ++ bs.flatten := by
  split
  · rename_i h
    rw [rest_start, List.drop_eq_nil_of_le h, List.nil_append]
  · rfl

theorem tryVar_spec (n : Nat) : ∀ bs0 pos, bs0.length = n → (Cur.mk bs0 pos).At →
    (line (Cur.mk bs0 pos).rest = none ∧ tryVar bs0 pos = .ok none) ∨
    ∃ c l, tryVar bs0 pos = .ok (some (c, l.length)) ∧ line (Cur.mk bs0 pos).rest = some (l, c.rest) := by
  induction n using Nat.strongRecOn with
  | ind n ih =>
    intro bs0 pos hn hat
    obtain ⟨b, bs, hb, hp⟩ := hat
    have hb : bs0 = b :: bs := hb
    subst hb
    have hp : pos < b.length := hp
    rw [tryVar]
    rw [if_neg (by omega), seekNewLine_spec, rest_cons]
    cases hs : line (b.drop pos) with
    | some x =>
      obtain ⟨l, r⟩ := x
      right
      simp only [Option.map_some]
      refine ⟨_, l, rfl, ?_⟩
      rw [line_append_some hs, rest_advance]
      have h1 := line_split hs
      have h2 : b.drop (pos + (l.length + 2)) = r := by
        rw [← List.drop_drop, h1]
        simp
      rw [h2]
    | none =>
      simp only [Option.map_none]
      split
      · rename_i hr
        left
        have := tryReadable_none hr
        rw [rest_start] at this
        rw [this, List.append_nil]
        exact ⟨hs, rfl⟩
      · rename_i q hr
        obtain ⟨⟨x, xs, hx, -⟩, -⟩ := tryReadable_some hr
        simp at hx
      · rename_i c cs q hr
        obtain ⟨⟨x, xs, hx, hq⟩, hrest⟩ := tryReadable_some hr
        have hlen := tryReadable_length hr
        simp only [List.cons.injEq] at hx hq hlen
        obtain ⟨rfl, rfl⟩ := hx
        have hq0 : q = 0 := by
          have : ∀ (bs : List Bytes) c q, tryReadable bs 0 = some ⟨c, q⟩ → q = 0 := by
            intro bs
            induction bs with
            | nil => intro c q h; simp [tryReadable] at h
            | cons b bs ih =>
              intro c q h
              simp only [tryReadable] at h
              split at h
              · simp only [Option.some.injEq, Cur.mk.injEq] at h
                exact h.2.symm
              · exact ih c q h
          exact this bs _ q hr
        subst hq0
        rw [rest_start, rest_start] at hrest
        rw [← hrest]
        have hne : b.drop pos ≠ [] := by
          intro e
          have := congrArg List.length e
          simp only [List.length_drop, List.length_nil] at this
          omega
        obtain ⟨y, hy⟩ : ∃ y, (b.drop pos).getLast? = some y := ⟨_, List.getLast?_eq_some_getLast hne⟩
        cases c with
        | nil => simp at hq
        | cons z c =>
          rw [hy]
          simp only [List.head?_cons, List.flatten_cons, List.cons_append]
          rw [line_append hs hy]
          split
          · rename_i hyz
            right
            refine ⟨_, (b.drop pos).dropLast, by rw [List.length_dropLast, List.length_drop], ?_⟩
            have e := rest_advance (z :: c) cs 1
            have e2 : (if (z :: c).length = 1 then Cur.mk cs 0 else Cur.mk ((z :: c) :: cs) 1) =
                (if (z :: c).length ≤ 1 then Cur.mk cs 0 else Cur.mk ((z :: c) :: cs) 1) := by
              simp only [List.length_cons]
              by_cases h : c.length = 0
              · simp [h]
              · rw [if_neg (by omega), if_neg (by omega)]
            rw [e2, e]
            rfl
          · rename_i hyz
            split
            · rename_i h2
              obtain ⟨h2, h3, h4⟩ := h2
              right
              cases c with
              | nil => simp at h2
              | cons w c =>
                simp only [List.getElem?_cons_succ, List.getElem?_cons_zero, Option.some.injEq] at h4
                subst h3 h4
                refine ⟨_, b.drop pos, by rw [List.length_drop], ?_⟩
                have e := rest_advance (13 :: 10 :: c) cs 2
                have e2 : (if (13 :: 10 :: c : Bytes).length = 2 then Cur.mk cs 0 else Cur.mk ((13 :: 10 :: c) :: cs) 2) =
                    (if (13 :: 10 :: c : Bytes).length ≤ 2 then Cur.mk cs 0 else Cur.mk ((13 :: 10 :: c) :: cs) 2) := by
                  simp only [List.length_cons]
                  by_cases h : c.length = 0
                  · simp [h]
                  · rw [if_neg (by omega), if_neg (by omega)]
                rw [e2, e]
                simp [line]
            · rcases ih _ (by simp only [List.length_cons] at hn hlen ⊢; omega) ((z :: c) :: cs) 0 rfl ⟨_, _, rfl, by simp⟩ with ⟨h1, h2⟩ | ⟨c', l, h1, h2⟩
              · left
                rw [h2]
                rw [rest_start] at h1
                simp only [List.flatten_cons, List.cons_append] at h1
                rw [h1]
                exact ⟨rfl, rfl⟩
              · right
                rw [h1]
                rw [rest_start] at h2
                simp only [List.flatten_cons, List.cons_append] at h2
                refine ⟨c', b.drop pos ++ l, ?_, ?_⟩
                · simp only [List.length_append, List.length_drop]
                  rw [Nat.add_comm]
                · rw [h2]; rfl

end Verif.Redis
