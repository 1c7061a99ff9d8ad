import Verif.Container.BoundedQueueSpec
/-!
# C24: `BoundedQueue` is a double-ended queue

The proof relates a queue to its list of items: slot `j` holds the item whose distance from `start_` around the
ring is its position in the list.
-/

namespace Verif.Container.BQ

variable {T : Type}

/-- Distance of slot `j` from `s` around a ring of `c` slots. -/
def rk (c s j : Nat) : Nat := if s ≤ j then j - s else j + c - s

structure Rep (c : Nat) (q : Q T) (l : List T) : Prop where
  cap : q.cap.toNat = c
  pos : 0 < c
  small : c ≤ 2 ^ 31
  len : q.count.toNat = l.length
  le : l.length ≤ c
  st : q.start.toNat < c
  slots : ∀ j < c, q.items j = l[rk c q.start.toNat j]?

theorem modLoop_eq (fuel : Nat) (off cap : UInt32) (h : off.toNat < 2 * cap.toNat) (hf : 2 ≤ fuel) :
    ∃ r, modLoop fuel off cap = some r ∧
      r.toNat = (if off.toNat < cap.toNat then off.toNat else off.toNat - cap.toNat) := by
  obtain ⟨f, rfl⟩ : ∃ f, fuel = f + 2 := ⟨fuel - 2, by omega⟩
  by_cases hlt : off.toNat < cap.toNat
  · refine ⟨off, ?_, by simp [hlt]⟩
    have : ¬ off ≥ cap := by rw [ge_iff_le, UInt32.le_iff_toNat_le]; omega
    simp [modLoop, this]
  · have hge : off ≥ cap := by rw [ge_iff_le, UInt32.le_iff_toNat_le]; omega
    have hs : (off - cap).toNat = off.toNat - cap.toNat := UInt32.toNat_sub_of_le _ _ hge
    refine ⟨off - cap, ?_, by simp [hlt, hs]⟩
    have h2 : ¬ off - cap ≥ cap := by rw [ge_iff_le, UInt32.le_iff_toNat_le]; omega
    simp [modLoop, hge, h2]

theorem mod_eq (off cap : UInt32) (h : off.toNat < 2 * cap.toNat) :
    ∃ r, mod off cap = some r ∧
      r.toNat = (if off.toNat < cap.toNat then off.toNat else off.toNat - cap.toNat) := by
  by_cases h0 : off.toNat = 0
  · refine ⟨off, ?_, by simp [h0]⟩
    have : ¬ off ≥ cap := by rw [ge_iff_le, UInt32.le_iff_toNat_le]; omega
    simp [mod, modLoop, this]
  · exact modLoop_eq _ _ _ h (by omega)

theorem Rep.init {cap : UInt32} (h : 0 < cap.toNat) (hs : cap.toNat ≤ 2 ^ 31) :
    Rep cap.toNat (init cap : Q T) [] :=
  ⟨rfl, h, hs, rfl, Nat.zero_le _, h, fun _ _ => by simp [BQ.init]⟩

namespace Rep

variable {c : Nat} {q : Q T} {l : List T}

/-- The slot of position `i`. -/
theorem slot (h : Rep c q l) {off : UInt32} {i : Nat} (hi : i < c) (ho : off.toNat = q.start.toNat + i) :
    ∃ r, mod off q.cap = some r ∧ r.toNat < c ∧ r < q.cap ∧ rk c q.start.toNat r.toNat = i := by
  have := h.st; have := h.cap
  obtain ⟨r, hr, e⟩ := mod_eq off q.cap (by omega)
  have hlt : r.toNat < c := by split at e <;> omega
  refine ⟨r, hr, hlt, ?_, ?_⟩
  · rw [UInt32.lt_iff_toNat_lt]; omega
  · unfold rk; split at e <;> split <;> omega

theorem rk_inj {c s j k : Nat} (hs : s < c) (hj : j < c) (hk : k < c) (e : rk c s j = rk c s k) : j = k := by
  unfold rk at e; split at e <;> split at e <;> omega

theorem rk_lt {c s j : Nat} (hs : s < c) (hj : j < c) : rk c s j < c := by
  unfold rk; split <;> omega

theorem add_toNat (h : Rep c q l) {n : UInt32} (hn : n.toNat ≤ c) :
    (q.start + n).toNat = q.start.toNat + n.toNat := by
  have := h.st; have := h.small
  rw [UInt32.toNat_add]; omega

theorem lt_iff (h : Rep c q l) : q.count < q.cap ↔ l.length < c := by
  rw [UInt32.lt_iff_toNat_lt, h.cap, h.len]

theorem ne_iff (h : Rep c q l) : q.count ≠ 0 ↔ l ≠ [] := by
  rw [Ne, ← UInt32.toNat_inj, h.len]; simp

theorem count_zero {q : Q T} (h : Rep c q []) : q.count = 0 := UInt32.toNat_inj.1 h.len

theorem inc (h : Rep c q l) (hl : l.length < c) : (q.count + 1).toNat = l.length + 1 := by
  have := h.small; have := h.len
  rw [UInt32.toNat_add, h.len]; simp; omega

theorem dec (h : Rep c q l) (hl : l ≠ []) : (q.count - 1).toNat = l.length - 1 := by
  have : 0 < l.length := List.length_pos_iff.2 hl
  rw [UInt32.toNat_sub_of_le, h.len]; · rfl
  rw [UInt32.le_iff_toNat_le, h.len]; exact this

/-- Adding at the bottom. -/
theorem append (h : Rep c q l) (hl : l.length < c) (x : T) :
    ∃ i q', mod (q.start + q.count) q.cap = some i ∧ q.construct i x = some q' ∧
      Rep c { q' with count := q'.count + 1 } (l ++ [x]) := by
  obtain ⟨i, hm, hi, hic, hk⟩ := h.slot hl (h.add_toNat (by rw [h.len]; exact h.le) |>.trans (by rw [h.len]))
  have hn : q.items i.toNat = none := by rw [h.slots _ hi, hk]; simp
  refine ⟨i, _, hm, by simp only [Q.construct, hn, hic]; rfl, ?_⟩
  refine ⟨h.cap, h.pos, h.small, by simp only [h.inc hl, List.length_append, List.length_singleton],
    by simp only [List.length_append, List.length_singleton]; omega, h.st, fun j hj => ?_⟩
  simp only [setItem]
  split
  · next e => rw [e, hk]; simp
  · next ne =>
    have : rk c q.start.toNat j ≠ l.length := fun e => ne (rk_inj h.st hj hi (e.trans hk.symm))
    rw [h.slots j hj, List.getElem?_append]
    split
    · rfl
    · rw [List.getElem?_eq_none (by omega), List.getElem?_eq_none (by simp; omega)]

/-- The next slot after the first. -/
theorem next (h : Rep c q l) : ∃ s, mod (q.start + 1) q.cap = some s ∧ s.toNat < c ∧
    (∀ j < c, rk c s.toNat j = if j = q.start.toNat then c - 1 else rk c q.start.toNat j - 1) := by
  have := h.st; have hc := h.cap
  have e1 : (q.start + 1).toNat = q.start.toNat + 1 := h.add_toNat (n := 1) (by have := h.pos; exact this)
  obtain ⟨r, hr, e⟩ := mod_eq (q.start + 1) q.cap (by omega)
  refine ⟨r, hr, by split at e <;> omega, fun j hj => ?_⟩
  rw [e1] at e
  unfold rk
  by_cases h1 : q.start.toNat + 1 < q.cap.toNat
  · simp only [h1, if_true] at e
    repeat' split
    all_goals omega
  · simp only [h1, if_false] at e
    repeat' split
    all_goals omega

theorem first (_ : Rep c q l) : rk c q.start.toNat q.start.toNat = 0 := by simp [rk]

theorem start_lt (h : Rep c q l) : q.start < q.cap := by rw [UInt32.lt_iff_toNat_lt, h.cap]; exact h.st

end Rep

open Rep

variable {c : Nat} {q : Q T} {l : List T}

theorem push_ok (h : Rep c q l) (x : T) :
    ∃ q', step q (.push x) = some ((spec c l (.push x)).1, q') ∧ Rep c q' (spec c l (.push x)).2 := by
  by_cases hl : l.length < c
  · obtain ⟨i, q', hm, hc, hr⟩ := h.append hl x
    exact ⟨_, by simp [step, push, h.lt_iff, hl, hm, hc, spec]; rfl, by simpa [spec, hl] using hr⟩
  · exact ⟨q, by simp [step, push, h.lt_iff, hl, spec], by simpa [spec, hl] using h⟩

theorem elimPush_ok (h : Rep c q l) (x : T) :
    ∃ q', step q (.elimPush x) = some ((spec c l (.elimPush x)).1, q') ∧ Rep c q' (spec c l (.elimPush x)).2 := by
  by_cases hl : l.length < c
  · obtain ⟨i, q', hm, hc, hr⟩ := h.append hl x
    exact ⟨_, by simp [step, elimPush, h.lt_iff, hl, hm, hc, spec]; rfl, by simpa [spec, hl] using hr⟩
  · have hfull : l.length = c := by have := h.le; omega
    obtain ⟨s, hm, hs, hk⟩ := h.next
    have hsome : q.items q.start.toNat = some (l[0]'(by have := h.pos; omega)) := by
      rw [h.slots _ h.st, h.first]; exact List.getElem?_eq_getElem _
    have ha : q.assign q.start x = some { q with items := setItem q.items q.start.toNat (some x) } := by
      simp [Q.assign, h.start_lt, hsome]
    refine ⟨_, by simp [step, elimPush, h.lt_iff, hl, ha, hm, spec]; rfl, ?_⟩
    simp only [spec, hl, if_false]
    refine ⟨h.cap, h.pos, h.small, ?_, ?_, hs, fun j hj => ?_⟩
    · show q.count.toNat = _
      have := h.len; have := h.pos
      simp; omega
    · have := h.pos; simp; omega
    · have := h.pos
      show setItem q.items q.start.toNat (some x) j = _
      rw [hk j hj]
      simp only [setItem]
      split
      · rw [List.getElem?_append_right (by simp; omega)]; simp [hfull]
      · next ne =>
        have h0 : rk c q.start.toNat j ≠ 0 := fun e => ne (rk_inj h.st hj h.st (e.trans h.first.symm))
        have h1 := rk_lt h.st hj
        rw [h.slots j hj, List.getElem?_append_left (by simp; omega), List.getElem?_tail]
        congr 1; omega

theorem pushTop_ok (h : Rep c q l) (x : T) :
    ∃ q', step q (.pushTop x) = some ((spec c l (.pushTop x)).1, q') ∧ Rep c q' (spec c l (.pushTop x)).2 := by
  by_cases hl : l.length < c
  · have hst := h.st
    have hcap := h.cap
    have hpos := h.pos
    obtain ⟨s, hs, hse⟩ : ∃ s : UInt32, s = (if q.start ≠ 0 then q.start - 1 else q.cap - 1) ∧
        s.toNat = if q.start.toNat = 0 then c - 1 else q.start.toNat - 1 := by
      refine ⟨_, rfl, ?_⟩
      by_cases h0 : q.start = 0
      · have : (q.cap - 1).toNat = q.cap.toNat - 1 := UInt32.toNat_sub_of_le _ _ (by
          rw [UInt32.le_iff_toNat_le]; simp; omega)
        simp [h0, this, hcap]
      · have h0' : q.start.toNat ≠ 0 := fun e => h0 (UInt32.toNat_inj.1 (by simpa using e))
        have : (q.start - 1).toNat = q.start.toNat - 1 := UInt32.toNat_sub_of_le _ _ (by
          rw [UInt32.le_iff_toNat_le]; simp; omega)
        simp [h0, h0', this]
    have hslt : s.toNat < c := by split at hse <;> omega
    have hk : rk c q.start.toNat s.toNat = c - 1 := by
      unfold rk; split at hse <;> split <;> omega
    have hn : q.items s.toNat = none := by rw [h.slots _ hslt, hk, List.getElem?_eq_none (by omega)]
    have hlt : s < q.cap := by rw [UInt32.lt_iff_toNat_lt]; omega
    have e : pushTop q x = some (true, { q with
        start := s, count := q.count + 1, items := setItem q.items s.toNat (some x) }) := by
      have : q.count < q.cap := h.lt_iff.2 hl
      simp only [pushTop, this, if_true, ← hs]
      simp [Q.construct, hlt, hn]
    refine ⟨_, by simp [step, e, spec, hl]; rfl, ?_⟩
    simp only [spec, hl, if_true]
    refine ⟨hcap, hpos, h.small, by simp [h.inc hl], by simp; omega, hslt, fun j hj => ?_⟩
    show setItem q.items s.toNat (some x) j = (x :: l)[rk c s.toNat j]?
    simp only [setItem]
    split
    · next e => subst e; simp [rk]
    · next ne =>
      have : rk c s.toNat j = rk c q.start.toNat j + 1 := by
        unfold rk; split at hse <;> repeat' split
        all_goals omega
      rw [this, List.getElem?_cons_succ, h.slots j hj]
  · exact ⟨q, by simp [step, pushTop, h.lt_iff, hl, spec], by simpa [spec, hl] using h⟩

theorem pop_ok (h : Rep c q l) :
    ∃ q', step q .pop = some ((spec c l .pop).1, q') ∧ Rep c q' (spec c l .pop).2 := by
  cases l with
  | nil => exact ⟨q, by simp [step, pop, h.count_zero, spec], h⟩
  | cons x l =>
    obtain ⟨s, hm, hs, hk⟩ := h.next
    have hx : q.items q.start.toNat = some x := by rw [h.slots _ h.st, h.first]; rfl
    have hle := h.le
    simp only [List.length_cons] at hle
    refine ⟨{ q with count := q.count - 1, start := s, items := setItem q.items q.start.toNat none }, ?_, ?_⟩
    · simp [step, pop, h.ne_iff.2 (by simp), Q.read, Q.destroy, h.start_lt, hx, hm, spec]
    · refine ⟨h.cap, h.pos, h.small, by simpa [spec] using h.dec (by simp), by simp [spec]; omega, hs, fun j hj => ?_⟩
      show setItem q.items q.start.toNat none j = l[rk c s.toNat j]?
      rw [hk j hj]
      simp only [setItem]
      split
      · rw [List.getElem?_eq_none (by omega)]
      · next ne =>
        have h0 : rk c q.start.toNat j ≠ 0 := fun e => ne (rk_inj h.st hj h.st (e.trans h.first.symm))
        obtain ⟨k, hk⟩ := Nat.exists_eq_succ_of_ne_zero h0
        rw [h.slots j hj, hk]; rfl

theorem popBottom_ok (h : Rep c q l) :
    ∃ q', step q .popBottom = some ((spec c l .popBottom).1, q') ∧ Rep c q' (spec c l .popBottom).2 := by
  by_cases hn : l = []
  · subst hn
    exact ⟨q, by simp [step, popBottom, h.count_zero, spec], h⟩
  · have hlen : 0 < l.length := List.length_pos_iff.2 hn
    have hle := h.le
    obtain ⟨i, hm, hi, hic, hk⟩ := h.slot (off := q.start + (q.count - 1)) (i := l.length - 1) (by omega)
      (by rw [h.add_toNat (by rw [h.dec hn]; omega), h.dec hn])
    have hx : q.items i.toNat = some (l.getLast hn) := by
      rw [h.slots _ hi, hk, List.getLast_eq_getElem]; exact List.getElem?_eq_getElem _
    refine ⟨{ q with count := q.count - 1, items := setItem q.items i.toNat none }, ?_, ?_⟩
    · simp [step, popBottom, h.ne_iff.2 hn, Q.read, Q.destroy, hic, hx, hm, spec, List.getLast?_eq_some_getLast hn]
    · refine ⟨h.cap, h.pos, h.small, by simpa [spec] using h.dec hn, by simp [spec]; omega, h.st, fun j hj => ?_⟩
      show setItem q.items i.toNat none j = l.dropLast[rk c q.start.toNat j]?
      simp only [setItem]
      rw [List.getElem?_dropLast]
      split
      · next e => subst e; rw [if_neg (by omega)]
      · next ne =>
        have : rk c q.start.toNat j ≠ l.length - 1 := fun e => ne (rk_inj h.st hj hi (e.trans hk.symm))
        rw [h.slots j hj]
        split
        · rfl
        · rw [List.getElem?_eq_none (by omega)]

/-- `Clear` halfway: the first `n` items are destroyed. -/
theorem clearLoop_ok (h : Rep c q l) (f : Nat) :
    ∀ (i : UInt32) (q1 : Q T), i.toNat + f = l.length → q1.cap = q.cap → q1.start = q.start →
      (∀ j < c, q1.items j = if rk c q.start.toNat j < i.toNat then none else l[rk c q.start.toNat j]?) →
      ∃ q2, clearLoop f i q1 = some q2 ∧ q2.cap = q.cap ∧ ∀ j < c, q2.items j = none := by
  induction f with
  | zero =>
    intro i q1 hi hc hs hit
    refine ⟨q1, rfl, hc, fun j hj => ?_⟩
    rw [hit j hj]; split
    · rfl
    · exact List.getElem?_eq_none (by omega)
  | succ f ih =>
    intro i q1 hi hc hs hit
    have hle := h.le
    obtain ⟨r, hm, hr, hrc, hk⟩ := h.slot (off := q.start + i) (i := i.toNat) (by omega) (h.add_toNat (by omega))
    have hx : q1.items r.toNat = some (l[i.toNat]'(by omega)) := by
      rw [hit _ hr, hk, if_neg (by omega)]; exact List.getElem?_eq_getElem _
    have hi1 : (i + 1).toNat = i.toNat + 1 := by
      have := h.small; rw [UInt32.toNat_add]; simp; omega
    obtain ⟨q2, h2, h3⟩ := ih (i + 1) { q1 with items := setItem q1.items r.toNat none } (by omega) hc hs (by
      intro j hj
      simp only [setItem, hi1]
      split
      · next e => subst e; rw [if_pos (by omega)]
      · next ne =>
        have : rk c q.start.toNat j ≠ i.toNat := fun e => ne (rk_inj h.st hj hr (e.trans hk.symm))
        rw [hit j hj]
        split
        · rw [if_pos (by omega)]
        · rw [if_neg (by omega)])
    refine ⟨q2, ?_, h3⟩
    rw [← hs, ← hc] at hm
    rw [← hc] at hrc
    simp [clearLoop, hm, Q.destroy, hrc, hx, h2]

theorem clear_ok (h : Rep c q l) :
    ∃ q', step q .clear = some ((spec c l .clear).1, q') ∧ Rep c q' (spec c l .clear).2 := by
  obtain ⟨q2, e, hc, hi⟩ := clearLoop_ok h q.count.toNat 0 q (by simp [h.len]) rfl rfl (by
    intro j hj; simp [h.slots j hj])
  refine ⟨_, by simp [step, clear, e, spec]; rfl, ?_⟩
  exact ⟨by show q2.cap.toNat = c; rw [hc, h.cap], h.pos, h.small, rfl, Nat.zero_le _, h.pos,
    fun j hj => by show q2.items j = _; rw [hi j hj]; rfl⟩

theorem read_ok (h : Rep c q l) {off : UInt32} {i : Nat} (hi : i < l.length)
    (ho : off.toNat = q.start.toNat + i) :
    ∃ j, mod off q.cap = some j ∧ q.read j = some l[i] := by
  obtain ⟨r, hm, hr, hrc, hk⟩ := h.slot (Nat.lt_of_lt_of_le hi h.le) ho
  refine ⟨r, hm, ?_⟩
  simp only [Q.read, hrc, if_true]
  rw [h.slots _ hr, hk]; exact List.getElem?_eq_getElem _

theorem top_ok (h : Rep c q l) (i : Nat) : top q i = some l[i]? := by
  unfold top
  split
  · next hi =>
    rw [h.len] at hi
    have := h.le; have := h.st; have := h.small
    obtain ⟨j, hm, hr⟩ := read_ok (off := UInt32.ofNat (q.start.toNat + i)) h hi (by simp; omega)
    rw [hm]
    simp [hr, hi]
  · next hi => rw [h.len] at hi; simp; omega

theorem bottom_ok (h : Rep c q l) (i : Nat) : bottom q i = some l.reverse[i]? := by
  unfold bottom
  split
  · next hi =>
    rw [h.len] at hi
    have hle := h.le; have hst := h.st; have hsm := h.small
    have h1 : (q.start + q.count).toNat = q.start.toNat + l.length := by
      rw [h.add_toNat (by rw [h.len]; exact hle), h.len]
    have h2 : (UInt32.ofNat i).toNat = i := by simp; omega
    have h3 : (q.start + q.count - UInt32.ofNat i).toNat = q.start.toNat + l.length - i := by
      rw [UInt32.toNat_sub_of_le _ _ (by rw [UInt32.le_iff_toNat_le]; omega), h1, h2]
    have h4 : (q.start + q.count - UInt32.ofNat i - 1).toNat = q.start.toNat + (l.length - 1 - i) := by
      rw [UInt32.toNat_sub_of_le _ _ (by rw [UInt32.le_iff_toNat_le, h3]; simp; omega), h3]; simp; omega
    obtain ⟨j, hm, hr⟩ := read_ok h (i := l.length - 1 - i) (by omega) h4
    simp [hm, hr, hi]
  · next hi => rw [h.len] at hi; simp; omega

theorem top0_ok (h : Rep c q l) : top0 q = some l.head? := by
  unfold top0
  cases l with
  | nil => simp [h.count_zero]
  | cons x l =>
    have hx : q.items q.start.toNat = some x := by rw [h.slots _ h.st, h.first]; rfl
    simp [h.ne_iff.2 (by simp), Q.read, h.start_lt, hx]

theorem bottom0_ok (h : Rep c q l) : bottom0 q = some l.getLast? := by
  unfold bottom0
  by_cases hn : l = []
  · subst hn; simp [h.count_zero]
  · have hlen : 0 < l.length := List.length_pos_iff.2 hn
    have h1 : (q.start + q.count).toNat = q.start.toNat + l.length := by
      rw [h.add_toNat (by rw [h.len]; exact h.le), h.len]
    obtain ⟨j, hm, hr⟩ := read_ok h (i := l.length - 1) (off := q.start + q.count - 1) (by omega) (by
      rw [UInt32.toNat_sub_of_le _ _ (by rw [UInt32.le_iff_toNat_le, h1]; simp; omega), h1]; simp; omega)
    simp [h.ne_iff.2 hn, hm, hr, List.getLast?_eq_some_getLast hn, List.getLast_eq_getElem]

theorem step_ok (h : Rep c q l) (o : Op T) :
    ∃ q', step q o = some ((spec c l o).1, q') ∧ Rep c q' (spec c l o).2 := by
  cases o with
  | push x => exact push_ok h x
  | elimPush x => exact elimPush_ok h x
  | pushTop x => exact pushTop_ok h x
  | pop => exact pop_ok h
  | popBottom => exact popBottom_ok h
  | clear => exact clear_ok h
  | top i => exact ⟨q, by simp [step, top_ok h, spec], h⟩
  | bottom i => exact ⟨q, by simp [step, bottom_ok h, spec], h⟩
  | top0 => exact ⟨q, by simp [step, top0_ok h, spec], h⟩
  | bottom0 => exact ⟨q, by simp [step, bottom0_ok h, spec], h⟩
  | size => exact ⟨q, by simp [step, h.len, spec], h⟩
  | empty =>
    refine ⟨q, ?_, h⟩
    have : (q.count == 0) = l.isEmpty := by
      rw [Bool.eq_iff_iff, beq_iff_eq, List.isEmpty_iff]; exact ⟨fun e => Classical.byContradiction fun n => h.ne_iff.2 n e, fun e => by subst e; exact h.count_zero⟩
    simp [step, this, spec]
  | full =>
    refine ⟨q, ?_, h⟩
    have : (q.cap == q.count) = (l.length == c) := by
      rw [Bool.eq_iff_iff, beq_iff_eq, beq_iff_eq, ← UInt32.toNat_inj, h.cap, h.len]; exact eq_comm
    simp [step, this, spec]

theorem run_ok (os : List (Op T)) : ∀ {q : Q T} {l : List T}, Rep c q l →
    ∃ q', run q os = some ((specRun c l os).1, q') ∧ Rep c q' (specRun c l os).2 := by
  induction os with
  | nil => intro q l h; exact ⟨q, rfl, h⟩
  | cons o os ih =>
    intro q l h
    obtain ⟨q1, e1, h1⟩ := step_ok h o
    obtain ⟨q2, e2, h2⟩ := ih h1
    exact ⟨q2, by simp [run, e1, e2, specRun], h2⟩

/-- **C24.** Every sequence of operations on a queue of capacity 1 to 2³¹ is defined and returns what a list of at
most that many items returns. -/
theorem C24_deque (cap : UInt32) (h : 0 < cap.toNat) (hs : cap.toNat ≤ 2 ^ 31) (os : List (Op T)) :
    ∃ q', run (init cap) os = some ((specRun cap.toNat [] os).1, q') :=
  let ⟨q', e, _⟩ := run_ok os (Rep.init h hs); ⟨q', e⟩

/-- **C24.** The list never holds more than the capacity. -/
theorem C24_bounded (cap : Nat) (h0 : 0 < cap) (os : List (Op T)) : ∀ l : List T, l.length ≤ cap →
    (specRun cap l os).2.length ≤ cap := by
  induction os with
  | nil => intro l h; exact h
  | cons o os ih =>
    intro l h
    refine ih _ ?_
    cases o <;> simp only [spec] <;> (try split) <;> (try simp only [List.length_append, List.length_cons,
      List.length_nil, List.length_tail, List.length_dropLast]) <;> omega

/-- **C24.** After `Clear` (also run by the destructor) no live object is left. -/
theorem C24_clear_destroys_all (cap : UInt32) (h : 0 < cap.toNat) (hs : cap.toNat ≤ 2 ^ 31) (os : List (Op T)) :
    ∃ rs q', run (init cap) (os ++ [.clear]) = some (rs, q') ∧ ∀ j < cap.toNat, q'.items j = none := by
  obtain ⟨q', e, hr⟩ := run_ok (os ++ [.clear]) (Rep.init (T := T) h hs)
  have hl : ∀ (os : List (Op T)) l, (specRun cap.toNat l (os ++ [.clear])).2 = [] := by
    intro os; induction os with
    | nil => intro l; rfl
    | cons o os ih => intro l; exact ih _
  refine ⟨_, q', e, fun j hj => ?_⟩
  rw [hr.slots j hj, hl]; rfl

/-- Non-vacuity: wrap-around, both ends, elimination. -/
example : (run (init 3 : Q Nat)
    [.push 1, .push 2, .pop, .push 3, .push 4, .push 5, .elimPush 6, .pushTop 0, .popBottom, .pushTop 9, .top 1,
     .bottom 0, .full]).map Prod.fst =
    some [.bool true, .bool true, .item (some 1), .bool true, .bool true, .bool false, .unit, .bool false,
      .item (some 6), .bool true, .item (some 3), .item (some 4), .bool true] := by decide +kernel

/-- Capacity 0: `ElimPush` writes outside the storage. -/
theorem C24_capacity_zero (x : T) : run (init 0 : Q T) [.elimPush x] = none := by
  simp [run, step, elimPush, init, Q.assign]

/-- Above 2³¹ the 32-bit sum `start_ + count_` wraps: with capacity 2³² - 1 the second `Push` after a `PushTop`
lands on the live object in slot 0. -/
theorem C24_capacity_large (a b d : T) :
    run (init 0xFFFFFFFF : Q T) [.pushTop a, .push b, .push d] = none ∧
    (specRun 0xFFFFFFFF [] [.pushTop a, .push b, .push d]).1 = [.bool true, .bool true, .bool true] := by
  have h1 : mod 0xFFFFFFFF 0xFFFFFFFF = some 0 := by
    obtain ⟨r, e, hr⟩ := mod_eq 0xFFFFFFFF 0xFFFFFFFF (by decide)
    rw [e, UInt32.toNat_inj.1 (show r.toNat = (0 : UInt32).toNat by simpa using hr)]
  have h2 : mod 0 0xFFFFFFFF = some 0 := by
    obtain ⟨r, e, hr⟩ := mod_eq 0 0xFFFFFFFF (by decide)
    rw [e, UInt32.toNat_inj.1 (show r.toNat = (0 : UInt32).toNat by simpa using hr)]
  constructor
  · have e1 : (0xFFFFFFFE : UInt32) + 1 = 0xFFFFFFFF := by decide
    have e2 : (0xFFFFFFFE : UInt32) + 2 = 0 := by decide
    have e3 : (0xFFFFFFFF : UInt32) - 1 = 0xFFFFFFFE := by decide
    have e4 : (0 : UInt32) < 0xFFFFFFFF := by decide
    have e5 : (1 : UInt32) < 0xFFFFFFFF := by decide
    have e6 : (2 : UInt32) < 0xFFFFFFFF := by decide
    have e7 : (0xFFFFFFFE : UInt32) < 0xFFFFFFFF := by decide
    have e8 : (0 : Nat) ≠ (0xFFFFFFFE : UInt32).toNat := by decide
    generalize (0xFFFFFFFF : UInt32) = c at *
    generalize (0xFFFFFFFE : UInt32) = d at *
    have s1 : step (init c) (.pushTop a) =
        some (.bool true, ⟨0 + 1, c, d, setItem (fun _ => none) d.toNat (some a)⟩) := by
      simp [step, pushTop, init, Q.construct, e3, e4, e7]
    have s2 : step ⟨0 + 1, c, d, setItem (fun _ => none) d.toNat (some a)⟩ (.push b) = some (.bool true,
        ⟨1 + 1, c, d, setItem (setItem (fun _ => none) d.toNat (some a)) 0 (some b)⟩) := by
      simp [step, push, Q.construct, e1, e4, e5, h1, setItem, e8]
    simp only [run, s1, s2, Option.bind_eq_bind, Option.bind_some]
    simp [step, push, Q.construct, e2, e6, h2, setItem]
  · simp [specRun, spec]

end Verif.Container.BQ
