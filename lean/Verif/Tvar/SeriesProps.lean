import Verif.Tvar.Series

/-! C149: series; C150: the mutex of a series -/

namespace Verif.Tvar.Series

variable {T : Type}

/-- A ring after the values `h`. -/
structure Holds (z : T) (n : Nat) (h : List T) (r : Ring T) : Prop where
  pos : r.pos = h.length % n
  new : ∀ i, i < n → ∀ v, h.reverse[i]? = some v → r.arr ((h.length - 1 - i) % n) = v
  old : ∀ j, h.length ≤ j → j < n → r.arr j = z

theorem Holds.put {z : T} {n : Nat} {h : List T} {r : Ring T} (hn : 0 < n) (hr : Holds z n h r) (v : T) : Holds z n (h ++ [v]) (r.put n v).1 := by
  have hl := Nat.mod_lt h.length hn
  have hp := hr.pos
  refine ⟨?_, ?_, ?_⟩
  · simp only [Ring.put, List.length_append, List.length_cons, List.length_nil]
    have e : (h.length + (0 + 1)) % n = (h.length % n + 1) % n := by rw [Nat.mod_add_mod]
    rw [e, hp]
    split
    · rw [show h.length % n + 1 = n by omega, Nat.mod_self]
    · rw [Nat.mod_eq_of_lt (a := h.length % n + 1) (by omega)]
  · intro i hi w hw
    simp only [Ring.put, List.length_append, List.length_cons, List.length_nil, upd_apply]
    rw [List.reverse_append] at hw
    cases i with
    | zero =>
      have : v = w := by simpa using hw
      rw [show h.length + (0 + 1) - 1 - 0 = h.length by omega, hp, if_pos rfl, this]
    | succ i =>
      have hw' : h.reverse[i]? = some w := by simpa using hw
      have hil : i < h.length := by
        have := (List.getElem?_eq_some_iff.mp hw').1
        simpa using this
      rw [show h.length + (0 + 1) - 1 - (i + 1) = h.length - 1 - i by omega, if_neg, hr.new i (by omega) w hw']
      intro c
      rw [hp] at c
      have := Nat.sub_mod_eq_zero_of_mod_eq c.symm
      rw [show h.length - (h.length - 1 - i) = i + 1 by omega, Nat.mod_eq_of_lt (by omega)] at this
      omega
  · intro j hj hjn
    simp only [List.length_append, List.length_cons, List.length_nil] at hj
    simp only [Ring.put, upd_apply]
    rw [hp, Nat.mod_eq_of_lt (by omega), if_neg (by omega)]
    exact hr.old j (by omega) hjn

theorem Holds.wraps {z : T} {n : Nat} {h : List T} {r : Ring T} (hn : 0 < n) (hr : Holds z n h r) (v : T) : (r.put n v).2 = decide ((h.length + 1) % n = 0) := by
  have hl := Nat.mod_lt h.length hn
  simp only [Ring.put, hr.pos]
  have e : (h.length + 1) % n = (h.length % n + 1) % n := by rw [Nat.mod_add_mod]
  rw [e]
  by_cases c : h.length % n + 1 ≥ n
  · rw [show h.length % n + 1 = n by omega, Nat.mod_self]; simp
  · rw [Nat.mod_eq_of_lt (a := h.length % n + 1) (by omega)]; simp; omega

/-- What `GetSeries` reads of it. -/
theorem Holds.get {z : T} {n : Nat} {h : List T} {r : Ring T} (hn : 0 < n) (hr : Holds z n h r) : r.get n = latest z n h := by
  apply List.ext_getElem?
  intro i
  simp only [Ring.get, latest, List.getElem?_map, List.getElem?_take]
  by_cases hi : i < n
  · rw [List.getElem?_range hi, if_pos hi, Option.map_some]
    by_cases hl : i < h.length
    · rw [List.getElem?_append_left (by simpa using hl), List.getElem?_eq_getElem (by simpa using hl)]
      congr 1
      rw [← hr.new i hi _ (List.getElem?_eq_getElem (by simpa using hl))]
      congr 1
      rw [hr.pos, show h.length % n + (n - 1) - i = h.length % n + (n - 1 - i) by omega, Nat.mod_add_mod, show h.length + (n - 1 - i) = h.length - 1 - i + n by omega, Nat.add_mod_right]
    · rw [List.getElem?_append_right (by simp; omega), List.getElem?_replicate, if_pos (by simp; omega)]
      congr 1
      rw [hr.pos, Nat.mod_eq_of_lt (a := h.length) (by omega), Nat.mod_eq_of_lt (by omega)]
      exact hr.old _ (by omega) (by omega)
  · rw [if_neg hi, List.getElem?_eq_none (by simpa using hi)]; rfl

theorem foldl_range (op : T → T → T) (f : Nat → T) : ∀ (l : List T) (k : Nat) (a : T), (∀ i v, l[i]? = some v → f (k + i) = v) → (List.range' k l.length).foldl (fun t i => op t (f i)) a = l.foldl op a
  | [], _, _, _ => rfl
  | v :: l, k, a, h => by
    rw [List.length_cons, List.range'_succ, List.foldl_cons, List.foldl_cons, foldl_range op f l (k + 1) _ (fun i w hw => by rw [← h (i + 1) w (by simpa using hw)]; congr 1; omega)]
    congr 1
    rw [← h 0 v rfl]; rfl

/-- All values of a full ring. -/
theorem Holds.sum {z : T} {n : Nat} {h : List T} {r : Ring T} (op : T → T → T) (div : Nat → T → T) (hn : 0 < n) (hr : Holds z n h r) (h0 : h.length % n = 0) (h1 : n ≤ h.length) :
    whole op div n (h.drop (h.length - n)) = some (r.sum op div n) := by
  have hget : ∀ j w, (h.drop (h.length - n))[j]? = some w → r.arr j = w := by
    intro j w hw
    rw [List.getElem?_drop] at hw
    have hj : h.length - n + j < h.length := (List.getElem?_eq_some_iff.mp hw).1
    have := hr.new (n - 1 - j) (by omega) w (by
      rw [List.getElem?_reverse (by omega)]
      rw [show h.length - 1 - (n - 1 - j) = h.length - n + j by omega]
      exact hw)
    rw [show h.length - 1 - (n - 1 - j) = h.length - n + j by omega] at this
    have e : (h.length - n + j) % n = j := by
      rw [Nat.add_mod, show (h.length - n) % n = 0 from by rw [← Nat.mod_eq_sub_mod h1]; exact h0, Nat.zero_add, Nat.mod_mod, Nat.mod_eq_of_lt (by omega)]
    rwa [e] at this
  have hlen : (h.drop (h.length - n)).length = n := by rw [List.length_drop]; omega
  generalize h.drop (h.length - n) = l at *
  cases l with
  | nil => simp at hlen; omega
  | cons a l =>
    simp only [whole, Ring.sum]
    have ha : r.arr 0 = a := hget 0 a rfl
    have hll : l.length = n - 1 := by simp at hlen; omega
    rw [ha, ← hll]
    congr 2
    rw [List.range_eq_range']
    exact (foldl_range op (fun i => r.arr (i + 1)) l 0 a (fun i v hv => by
      have := hget (i + 1) v (by simpa using hv)
      simpa using this)).symm

theorem filterMap_congr {f g : Nat → Option T} : ∀ {l : List Nat}, (∀ k, k ∈ l → f k = g k) → l.filterMap f = l.filterMap g
  | [], _ => rfl
  | a :: l, h => by rw [List.filterMap_cons, List.filterMap_cons, h a (by simp), filterMap_congr (fun k hk => h k (by simp [hk]))]

/-- A value more: either the blocks are the same, or there is one more. -/
theorem blocks_snoc (op : T → T → T) (div : Nat → T → T) {n : Nat} (hn : 0 < n) (h : List T) (v : T) :
    blocks op div n (h ++ [v]) = blocks op div n h ++ (if (h.length + 1) % n = 0 then (whole op div n ((h ++ [v]).drop (h.length + 1 - n))).toList else []) := by
  have hold : ∀ k, k ∈ List.range (h.length / n) → whole op div n (((h ++ [v]).drop (k * n)).take n) = whole op div n ((h.drop (k * n)).take n) := by
    intro k hk
    have hk := List.mem_range.mp hk
    have h1 : (k + 1) * n ≤ h.length := by
      have := Nat.mul_le_mul_right n hk
      exact Nat.le_trans this (Nat.div_mul_le_self _ _)
    rw [Nat.add_mul, Nat.one_mul] at h1
    rw [List.drop_append_of_le_length (by omega), List.take_append_of_le_length (by rw [List.length_drop]; omega)]
  have hd := Nat.div_add_mod (h.length + 1) n
  have hd' := Nat.div_add_mod h.length n
  by_cases hz : (h.length + 1) % n = 0
  · rw [if_pos hz]
    have e : (h.length + 1) / n = h.length / n + 1 := by rw [Nat.succ_div, if_pos (Nat.dvd_of_mod_eq_zero hz)]
    have e2 : h.length / n * n = h.length + 1 - n := by
      rw [e, hz, Nat.mul_add, Nat.mul_comm] at hd; omega
    simp only [blocks, List.length_append, List.length_cons, List.length_nil, Nat.zero_add, e, List.range_succ, List.filterMap_append]
    congr 1
    · exact filterMap_congr hold
    · simp only [List.filterMap_cons, List.filterMap_nil, e2]
      rw [List.take_of_length_le (by rw [List.length_drop]; simp; omega)]
      cases whole op div n (List.drop (h.length + 1 - n) (h ++ [v])) <;> rfl
  · rw [if_neg hz, List.append_nil]
    have e : (h.length + 1) / n = h.length / n := by rw [Nat.succ_div, if_neg (fun c => hz (Nat.mod_eq_zero_of_dvd c))]; rfl
    simp only [blocks, List.length_append, List.length_cons, List.length_nil, Nat.zero_add, e]
    exact filterMap_congr hold

/-- One level and the values for the next one. -/
theorem level {z : T} {n : Nat} {h : List T} {r : Ring T} (op : T → T → T) (div : Nat → T → T) (hn : 0 < n) (hr : Holds z n h r) (v : T) :
    Holds z n (h ++ [v]) (r.put n v).1 ∧ blocks op div n (h ++ [v]) = blocks op div n h ++ (if (r.put n v).2 = true then [(r.put n v).1.sum op div n] else []) := by
  have h1 := hr.put hn v
  refine ⟨h1, ?_⟩
  rw [blocks_snoc op div hn, hr.wraps hn]
  congr 1
  by_cases c : (h.length + 1) % n = 0
  · have := h1.sum op div hn (by simpa using c) (by
      have := Nat.le_of_dvd (by omega) (Nat.dvd_of_mod_eq_zero c)
      simpa using this)
    simp only [List.length_append, List.length_cons, List.length_nil, Nat.zero_add] at this
    simp [c, this]
  · simp [c]

theorem Holds.init (z : T) (n : Nat) : Holds z n [] ⟨0, fun _ => z⟩ := ⟨by simp, by simp, by simp⟩

/-- The values of minutes, hours and days. -/
def minutes (op : T → T → T) (div : Nat → T → T) (h : List T) : List T := blocks op div 60 h
def hours (op : T → T → T) (div : Nat → T → T) (h : List T) : List T := blocks op div 60 (minutes op div h)
def days (op : T → T → T) (div : Nat → T → T) (h : List T) : List T := blocks op div 24 (hours op div h)

theorem all (z : T) (op : T → T → T) (div : Nat → T → T) (h : List T) :
    ∀ (s : S T) (g : List T), Holds z 60 g s.sec → Holds z 60 (minutes op div g) s.min → Holds z 24 (hours op div g) s.hour → Holds z 30 (days op div g) s.day →
      Holds z 60 (g ++ h) (h.foldl (fun s v => s.put op div v) s).sec ∧ Holds z 60 (minutes op div (g ++ h)) (h.foldl (fun s v => s.put op div v) s).min ∧
        Holds z 24 (hours op div (g ++ h)) (h.foldl (fun s v => s.put op div v) s).hour ∧ Holds z 30 (days op div (g ++ h)) (h.foldl (fun s v => s.put op div v) s).day := by
  induction h with
  | nil => intro s g h1 h2 h3 h4; simp only [List.append_nil, List.foldl_nil]; exact ⟨h1, h2, h3, h4⟩
  | cons v h ih =>
    intro s g h1 h2 h3 h4
    rw [List.foldl_cons, show g ++ v :: h = (g ++ [v]) ++ h by simp]
    have key : Holds z 60 (g ++ [v]) (s.put op div v).sec ∧ Holds z 60 (minutes op div (g ++ [v])) (s.put op div v).min ∧ Holds z 24 (hours op div (g ++ [v])) (s.put op div v).hour ∧ Holds z 30 (days op div (g ++ [v])) (s.put op div v).day := by
      obtain ⟨a1, a2⟩ := level op div (by decide) h1 v
      simp only [days, hours, minutes, a2, S.put] at *
      by_cases c1 : (s.sec.put 60 v).2 = true
      · simp only [c1, if_true]
        generalize (s.sec.put 60 v).1.sum op div 60 = m
        obtain ⟨b1, b2⟩ := level op div (by decide) h2 m
        simp only [b2, S.putMin]
        by_cases c2 : (s.min.put 60 m).2 = true
        · simp only [c2, if_true]
          generalize (s.min.put 60 m).1.sum op div 60 = u
          obtain ⟨d1, d2⟩ := level op div (by decide) h3 u
          simp only [d2, S.putHour]
          by_cases c3 : (s.hour.put 24 u).2 = true
          · simp only [c3, if_true, S.putDay]
            exact ⟨a1, b1, d1, h4.put (by decide) _⟩
          · simp only [c3, Bool.false_eq_true, if_false, List.append_nil]
            exact ⟨a1, b1, d1, h4⟩
        · simp only [c2, Bool.false_eq_true, if_false, List.append_nil]
          exact ⟨a1, b1, h3, h4⟩
      · simp only [c1, Bool.false_eq_true, if_false, List.append_nil]
        exact ⟨a1, h2, h3, h4⟩
    exact ih _ _ key.1 key.2.1 key.2.2.1 key.2.2.2

/-- After any sequence of values: `latest_sec` are the last 60, the newest first; `latest_min` are those of the last 60 complete minutes, each of its 60 seconds in turn; and so on for 24 hours and 30 days. -/
theorem C149_series (z : T) (op : T → T → T) (div : Nat → T → T) (h : List T) :
    let s : S T := h.foldl (fun s v => s.put op div v) (S.init z)
    s.sec.get 60 = latest z 60 h ∧ s.min.get 60 = latest z 60 (minutes op div h) ∧ s.hour.get 24 = latest z 24 (hours op div h) ∧ s.day.get 30 = latest z 30 (days op div h) := by
  have e : ∀ n, blocks op div n ([] : List T) = [] := fun n => by simp [blocks]
  have := all z op div h (.init z) [] (Holds.init z 60) (by simp only [minutes, e]; exact Holds.init z 60) (by simp only [hours, minutes, e]; exact Holds.init z 24) (by simp only [days, hours, minutes, e]; exact Holds.init z 30)
  simp only [List.nil_append] at this
  exact ⟨this.1.get (by decide), this.2.1.get (by decide), this.2.2.1.get (by decide), this.2.2.2.get (by decide)⟩

/-- There are as many minutes as have gone by. -/
theorem C149_minutes (op : T → T → T) (div : Nat → T → T) (n : Nat) (hn : 0 < n) (h : List T) : (blocks op div n h).length = h.length / n ∧ ∀ k, k < h.length / n → ∃ v, whole op div n ((h.drop (k * n)).take n) = some v ∧ (blocks op div n h)[k]? = some v := by
  have hw : ∀ k, k < h.length / n → ∃ v, whole op div n ((h.drop (k * n)).take n) = some v := by
    intro k hk
    have h1 : (k + 1) * n ≤ h.length := Nat.le_trans (Nat.mul_le_mul_right n hk) (Nat.div_mul_le_self _ _)
    rw [Nat.add_mul, Nat.one_mul] at h1
    cases e : (h.drop (k * n)).take n with
    | nil => have := congrArg List.length e; simp at this; omega
    | cons a l => exact ⟨_, rfl⟩
  have aux : ∀ m, m ≤ h.length / n → ((List.range m).filterMap (fun k => whole op div n ((h.drop (k * n)).take n))).length = m := by
    intro m
    induction m with
    | zero => simp
    | succ m ih =>
      intro hm
      obtain ⟨v, hv⟩ := hw m (by omega)
      rw [List.range_succ, List.filterMap_append, List.length_append, ih (by omega)]
      simp [hv]
  refine ⟨aux _ (Nat.le_refl _), fun k hk => ?_⟩
  obtain ⟨v, hv⟩ := hw k hk
  refine ⟨v, hv, ?_⟩
  have e : List.range (h.length / n) = List.range k ++ (k :: (List.range' (k + 1) (h.length / n - k - 1))) := by
    rw [List.range_eq_range', List.range_eq_range', ← List.range'_succ, show h.length / n - k - 1 + 1 = h.length / n - k by omega]
    have := List.range'_append (s := 0) (m := k) (n := h.length / n - k) (step := 1)
    simp at this
    rw [this, show k + (h.length / n - k) = h.length / n by omega]
  rw [blocks, e, List.filterMap_append, List.getElem?_append_right (by rw [aux k (by omega)]; omega), aux k (by omega), List.filterMap_cons, hv]
  simp

example : latest 0 4 [1, 2, 3] = [3, 2, 1, 0] ∧ blocks (· + ·) (fun n x => x / n) 2 [1, 3, 5, 7, 9] = [2, 6] := by decide

/-! ## The mutex -/

theorem inv {s : M} (h : Reach s) : (∀ i, s.wk i = .reads → s.owner = some i → False) := by
  induction h with
  | init => simp
  | step h hs ih => cases hs <;> simp only [upd_apply] at * <;> grind

/-- Each call of `GetSeries` unlocks the mutex without owning it. -/
theorem C150_unlock_partial {s s' : M} (h : Reach s) (i : Nat) (hi : s.wk i = .reads) (hs : Step s s') (he : s'.wk i = .idle) : s'.bad = true := by
  have := inv h i hi
  cases hs <;> simp only [upd_apply] at * <;> grind

/-- If that just unlocks it, then two threads append at the same time. -/
theorem C150_both_partial : ∃ s, Reach s ∧ s.wk 1 = .writes ∧ s.wk 2 = .writes := by
  have h := Reach.init
  have h := h.step (.get 0 rfl rfl)
  have h := h.step (.unlock 0 rfl)
  have h := h.step (.append 1 rfl rfl)
  have h := h.step (.ret 0 rfl)
  have h := h.step (.append 2 rfl rfl)
  exact ⟨_, h, rfl, rfl⟩

/-- While `GetSeries` reads the values, another thread may write them. -/
theorem C150_race_partial : ∃ s, Reach s ∧ s.wk 0 = .reads ∧ s.wk 1 = .writes := by
  have h := Reach.init
  have h := h.step (.get 0 rfl rfl)
  have h := h.step (.unlock 0 rfl)
  have h := h.step (.append 1 rfl rfl)
  exact ⟨_, h, rfl, rfl⟩

end Verif.Tvar.Series
