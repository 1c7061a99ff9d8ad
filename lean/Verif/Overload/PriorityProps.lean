import Verif.Overload.Priority

/-!
# C104, C105: priorities of requests under overload

The specification of a shift is `pos`: how many of the samples lie below a threshold, samples of one priority being spread evenly over the unit interval above it.
-/

namespace Verif.Overload

/-- The number of samples below `x`. -/
def pos : List Nat → Rat → Rat
  | [], _ => 0
  | c :: cs, x => if x ≤ 1 then x * c else c + pos cs (x - 1)

/-- Every priority has a sample. -/
def Full (cs : List Nat) : Prop := ∀ c ∈ cs, 1 ≤ c

theorem pos_zero (cs : List Nat) : pos cs 0 = 0 := by
  cases cs with
  | nil => rfl
  | cons c cs => unfold pos; rw [if_pos (by decide)]; grind

theorem div_mul_self {a : Rat} {c : Nat} (h : 1 ≤ c) : a / c * c = a := by
  have : (c : Rat) ≠ 0 := by
    have := Rat.natCast_lt_natCast.mpr (show 0 < c by omega)
    grind
  grind

theorem div_nonneg' {a : Rat} {c : Nat} (h : 1 ≤ c) (ha : 0 ≤ a) : 0 ≤ a / c := by
  have hc := Rat.natCast_lt_natCast.mpr (show 0 < c by omega)
  have h1 := div_mul_self (a := a) h
  by_cases hx : 0 ≤ a / (c : Rat)
  · exact hx
  · exfalso
    have h2 : (0 : Rat) < -(a / c) * c := Rat.mul_pos (by grind) (by grind)
    grind

theorem div_le_one' {a : Rat} {c : Nat} (h : 1 ≤ c) (ha : a ≤ c) : a / c ≤ 1 := by
  have := div_nonneg' (a := (c : Rat) - a) h (by grind)
  have h1 := div_mul_self (a := (c : Rat)) h
  have hc := Rat.natCast_lt_natCast.mpr (show 0 < c by omega)
  have h2 : ((c : Rat) - a) / c = 1 - a / c := by grind
  grind

theorem pos_cons_add {c : Nat} {cs : List Nat} {y : Rat} (hy : 0 ≤ y) : pos (c :: cs) (1 + y) = c + pos cs y := by
  show (if 1 + y ≤ 1 then (1 + y) * (c : Rat) else c + pos cs (1 + y - 1)) = _
  by_cases h : y = 0
  · rw [h, if_pos (by grind), pos_zero]; grind
  · rw [if_neg (by grind)]
    have : 1 + y - 1 = y := by grind
    rw [this]

theorem pos_add {cs : List Nat} {p : Nat} {y : Rat} (hp : p ≤ cs.length) (hy : 0 ≤ y) : pos cs (p + y) = ((cs.take p).sum : Nat) + pos (cs.drop p) y := by
  induction p generalizing cs with
  | zero =>
    have : ((0 : Nat) : Rat) + y = y := by grind
    rw [this, List.take_zero, List.drop_zero]
    have : (([] : List Nat).sum : Rat) = 0 := by decide
    grind
  | succ p ih =>
    cases cs with
    | nil => simp at hp
    | cons c cs =>
      have hp' : p ≤ cs.length := by simpa using hp
      have h1 : ((p + 1 : Nat) : Rat) + y = 1 + (p + y) := by grind
      have h2 : (0 : Rat) ≤ p := by grind
      rw [h1, pos_cons_add (by grind), ih hp', List.take_succ_cons, List.drop_succ_cons, List.sum_cons]
      grind

theorem pos_mono {cs : List Nat} {x y : Rat} (hx : 0 ≤ x) (h : x ≤ y) : pos cs x ≤ pos cs y := by
  induction cs generalizing x y with
  | nil => exact Rat.le_refl
  | cons c cs ih =>
    have hc : (0 : Rat) ≤ c := by grind
    have nn : ∀ z : Rat, 0 ≤ z → 0 ≤ pos cs z := by
      intro z hz
      have := ih (x := 0) (y := z) Rat.le_refl hz
      rwa [pos_zero] at this
    unfold pos
    split
    · split
      · exact Rat.mul_le_mul_of_nonneg_right h hc
      · rename_i h1 h2
        have h3 := Rat.mul_le_mul_of_nonneg_right h1 hc
        have := nn (y - 1) (by grind)
        grind
    · rw [if_neg (by grind)]
      have := ih (x := x - 1) (y := y - 1) (by grind) (by grind)
      grind

theorem pos_end (cs : List Nat) : pos cs cs.length = cs.sum := by
  have := pos_add (cs := cs) (p := cs.length) (y := 0) (Nat.le_refl _) Rat.le_refl
  rw [List.take_length, pos_zero] at this
  have h : (cs.length : Rat) + 0 = cs.length := by grind
  rw [h] at this
  grind

theorem up_spec {cs : List Nat} (hf : Full cs) (hn : cs ≠ []) {p delta : Nat} (hd : 1 ≤ delta) :
    ∃ y : Rat, up cs p delta = some (p + y) ∧ 0 ≤ y ∧ y ≤ cs.length ∧ pos cs y = ((min delta cs.sum : Nat) : Rat) := by
  induction cs generalizing p delta with
  | nil => exact absurd rfl hn
  | cons c cs ih =>
    have hc : 1 ≤ c := hf c List.mem_cons_self
    unfold up
    by_cases h : delta ≤ c
    · rw [if_pos h]
      have h1 := div_nonneg' (a := (delta : Rat)) hc (by grind)
      have h2 := div_le_one' (a := (delta : Rat)) hc (Rat.natCast_le_natCast.mpr h)
      refine ⟨(delta : Rat) / c, rfl, h1, ?_, ?_⟩
      · have : (1 : Rat) ≤ ((c :: cs).length : Nat) := Rat.natCast_le_natCast.mpr (show 1 ≤ (c :: cs).length by simp)
        grind
      · unfold pos
        rw [if_pos h2, div_mul_self hc, Nat.min_eq_left (by rw [List.sum_cons]; omega)]
    · rw [if_neg h]
      cases cs with
      | nil =>
        refine ⟨1, rfl, by decide, by simp, ?_⟩
        unfold pos
        rw [if_pos (by decide), Nat.min_eq_right (by simp; omega)]
        simp
      | cons c' cs' =>
        obtain ⟨y, h1, h2, h3, h4⟩ := ih (fun x hx => hf x (List.mem_cons_of_mem _ hx)) (by simp) (p := p + 1) (delta := delta - c) (by omega)
        refine ⟨1 + y, ?_, by grind, ?_, ?_⟩
        · simp only [List.isEmpty_cons, Bool.false_eq_true, if_false]
          rw [h1]
          congr 1
          grind
        · rw [List.length_cons]
          grind
        · rw [pos_cons_add h2, h4, List.sum_cons (a := c)]
          have : min delta (c + (c' :: cs').sum) = c + min (delta - c) (c' :: cs').sum := by omega
          rw [this]
          grind

theorem down_spec {cs : List Nat} (hf : Full cs) {p delta : Nat} (hp : p < cs.length) (hd : 1 ≤ delta) :
    ∃ y : Rat, down cs p delta = some y ∧ 0 ≤ y ∧ y ≤ p + 1 ∧ pos cs y = (((cs.take (p + 1)).sum - delta : Nat) : Rat) := by
  have cast : ∀ {a b : Nat}, b ≤ a → ((a - b : Nat) : Rat) = a - b := by
    intro a b h
    have : ((a - b + b : Nat) : Rat) = a := by rw [Nat.sub_add_cancel h]
    grind
  have tk : ∀ (p : Nat) (hp : p < cs.length), (cs.take (p + 1)).sum = (cs.take p).sum + cs[p] := by
    intro p hp
    rw [List.take_succ_eq_append_getElem hp, List.sum_append]; simp
  have here : ∀ (p c : Nat) (hp : p < cs.length), cs[p] = c → delta ≤ c → pos cs (p + ((c - delta : Nat) : Rat) / c) = (((cs.take (p + 1)).sum - delta : Nat) : Rat) := by
    intro p c hp he hle
    have hc : 1 ≤ c := by rw [← he]; exact hf _ (List.getElem_mem hp)
    have h1 := div_nonneg' (a := ((c - delta : Nat) : Rat)) hc (by grind)
    have h2 := div_le_one' (a := ((c - delta : Nat) : Rat)) hc (Rat.natCast_le_natCast.mpr (by omega))
    rw [pos_add (by omega) h1, List.drop_eq_getElem_cons hp, he]
    unfold pos
    rw [if_pos h2, div_mul_self hc, tk p hp, he]
    have : (cs.take p).sum + c - delta = (cs.take p).sum + (c - delta) := by omega
    rw [this]
    grind
  induction p generalizing delta with
  | zero =>
    unfold down
    rw [List.getElem?_eq_getElem hp]
    dsimp only
    have hc : 1 ≤ cs[0] := hf _ (List.getElem_mem hp)
    split
    · rename_i hle
      refine ⟨_, rfl, div_nonneg' hc (by grind), ?_, ?_⟩
      · have := div_le_one' (a := ((cs[0] - delta : Nat) : Rat)) hc (Rat.natCast_le_natCast.mpr (by omega))
        grind
      · have := here 0 cs[0] hp rfl hle
        have e : ((0 : Nat) : Rat) + ((cs[0] - delta : Nat) : Rat) / (cs[0] : Nat) = ((cs[0] - delta : Nat) : Rat) / (cs[0] : Nat) := by grind
        rwa [e] at this
    · refine ⟨0, rfl, Rat.le_refl, by grind, ?_⟩
      rw [pos_zero, tk 0 hp]
      have : (cs.take 0).sum + cs[0] - delta = 0 := by simp; omega
      rw [this]
      rfl
  | succ p ih =>
    unfold down
    rw [List.getElem?_eq_getElem hp]
    dsimp only
    have hc : 1 ≤ cs[p + 1] := hf _ (List.getElem_mem hp)
    split
    · rename_i hle
      have h2 := div_le_one' (a := ((cs[p + 1] - delta : Nat) : Rat)) hc (Rat.natCast_le_natCast.mpr (by omega))
      have h1 := div_nonneg' (a := ((cs[p + 1] - delta : Nat) : Rat)) hc (by grind)
      have hpp : (0 : Rat) ≤ p := by grind
      refine ⟨_, rfl, by grind, by grind, ?_⟩
      have := here (p + 1) cs[p + 1] hp rfl hle
      have e : ((p + 1 : Nat) : Rat) = p + 1 := by grind
      rwa [e] at this
    · rename_i hlt
      have here' : ∀ (p' c : Nat) (hp : p' < cs.length), cs[p'] = c → delta - cs[p + 1] ≤ c →
          pos cs (p' + ((c - (delta - cs[p + 1]) : Nat) : Rat) / c) = (((cs.take (p' + 1)).sum - (delta - cs[p + 1]) : Nat) : Rat) := by
        intro p' c hp' he hle
        have hc : 1 ≤ c := by rw [← he]; exact hf _ (List.getElem_mem hp')
        have h1 := div_nonneg' (a := ((c - (delta - cs[p + 1]) : Nat) : Rat)) hc (by grind)
        have h2 := div_le_one' (a := ((c - (delta - cs[p + 1]) : Nat) : Rat)) hc (Rat.natCast_le_natCast.mpr (by omega))
        rw [pos_add (by omega) h1, List.drop_eq_getElem_cons hp', he]
        unfold pos
        rw [if_pos h2, div_mul_self hc, tk p' hp', he]
        have : (cs.take p').sum + c - (delta - cs[p + 1]) = (cs.take p').sum + (c - (delta - cs[p + 1])) := by omega
        rw [this]
        grind
      obtain ⟨y, h1, h2, h3, h4⟩ := ih (delta := delta - cs[p + 1]) (by omega) (by omega) here'
      refine ⟨y, h1, h2, by grind, ?_⟩
      rw [h4, tk (p + 1) hp]
      congr 1
      omega

theorem round_spec {x : Rat} (h : 0 ≤ x) : x - 1 / 2 ≤ (round x : Rat) ∧ (round x : Rat) ≤ x + 1 / 2 := by
  unfold round
  have h0 : (0 : Int) ≤ (x + 1 / 2).floor := Rat.le_floor_iff.mpr (by grind)
  have h1 := Rat.floor_le (x + 1 / 2)
  have h2 : x + 1 / 2 < ((x + 1 / 2).floor : Rat) + 1 := by
    by_cases hh : x + 1 / 2 < ((x + 1 / 2).floor : Rat) + 1
    · exact hh
    · exfalso
      have := Rat.le_floor_iff.mpr (show (((x + 1 / 2).floor + 1 : Int) : Rat) ≤ x + 1 / 2 by grind)
      omega
  have e : (((x + 1 / 2).floor.toNat : Nat) : Rat) = ((x + 1 / 2).floor : Rat) := by
    have : (((x + 1 / 2).floor.toNat : Int) : Rat) = ((x + 1 / 2).floor : Rat) := by rw [Int.toNat_of_nonneg h0]
    rw [← this]; rfl
  rw [e]
  grind

theorem floor_spec {x : Rat} (h : 0 ≤ x) : (x.floor.toNat : Rat) ≤ x ∧ x < (x.floor.toNat : Rat) + 1 := by
  have h0 : (0 : Int) ≤ x.floor := Rat.le_floor_iff.mpr (by grind)
  have h1 := Rat.floor_le x
  have h2 : x < (x.floor : Rat) + 1 := by
    by_cases hh : x < (x.floor : Rat) + 1
    · exact hh
    · exfalso
      have := Rat.le_floor_iff.mpr (show ((x.floor + 1 : Int) : Rat) ≤ x by grind)
      omega
  have e : ((x.floor.toNat : Nat) : Rat) = (x.floor : Rat) := by
    have : ((x.floor.toNat : Int) : Rat) = (x.floor : Rat) := by rw [Int.toNat_of_nonneg h0]
    rw [← this]; rfl
  rw [e]
  exact ⟨h1, h2⟩

/-- How far a threshold moves: the given share of the samples, at least one. -/
def dist (cs : List Nat) (s : Rat) : Nat := if round (cs.sum * absR s) = 0 then 1 else round (cs.sum * absR s)

theorem one_le_dist (cs : List Nat) (s : Rat) : 1 ≤ dist cs s := by unfold dist; split <;> omega

/-- **C104a.** A threshold in range moves by the given share of the samples, up to the rounding of its own place, and stays in range. -/
theorem C104_shift {cs : List Nat} (hf : Full cs) (hn : cs ≠ []) {x s : Rat} (hx : 0 ≤ x) (hx' : x ≤ cs.length) (hs : s ≠ 0) :
    ∃ r e : Rat, shift cs x s = some r ∧ 0 ≤ r ∧ r ≤ cs.length ∧ -(1 / 2) ≤ e ∧ e ≤ 1 / 2 ∧
      (0 < s → pos cs r = min (pos cs x + e + dist cs s) cs.sum) ∧ (s < 0 → pos cs r = max (pos cs x + e - dist cs s) 0) := by
  have hlen : 0 < cs.length := List.length_pos_iff.2 hn
  -- the place of the threshold
  obtain ⟨p, f, hp, hpf, hpe, hfe⟩ : ∃ (p : Nat) (f : Rat), p < cs.length ∧ (x = p + f ∧ 0 ≤ f ∧ f ≤ 1) ∧
      (if cs.length ≤ x.floor.toNat then cs.length - 1 else x.floor.toNat) = p ∧ (if cs.length ≤ x.floor.toNat then (1 : Rat) else x - x.floor.toNat) = f := by
    obtain ⟨f1, f2⟩ := floor_spec hx
    by_cases h : cs.length ≤ x.floor.toNat
    · refine ⟨cs.length - 1, 1, by omega, ⟨?_, by decide, by decide⟩, if_pos h, if_pos h⟩
      have := Rat.natCast_le_natCast.mpr h
      have e : ((cs.length - 1 + 1 : Nat) : Rat) = cs.length := by rw [Nat.sub_add_cancel hlen]
      grind
    · exact ⟨x.floor.toNat, x - x.floor.toNat, by omega, ⟨by grind, by grind, by grind⟩, if_neg h, if_neg h⟩
  obtain ⟨hxe, hf0, hf1⟩ := hpf
  have hc : 1 ≤ cs[p] := hf _ (List.getElem_mem hp)
  have hcr : (0 : Rat) ≤ (cs[p] : Nat) := by grind
  have hposx : pos cs x = ((cs.take p).sum : Nat) + f * (cs[p] : Nat) := by
    rw [hxe, pos_add (by omega) hf0, List.drop_eq_getElem_cons hp]
    unfold pos
    rw [if_pos hf1]
  have htk : (cs.take (p + 1)).sum = (cs.take p).sum + cs[p] := by rw [List.take_succ_eq_append_getElem hp, List.sum_append]; simp
  have hsum : cs.sum = (cs.take p).sum + (cs.drop p).sum := by
    rw [← List.sum_append, List.take_append_drop]
  have hunf : shift cs x s = if 0 < s then up (cs.drop p) p (dist cs s + round (f * (cs[p] : Nat))) else down cs p (dist cs s + round ((1 - f) * (cs[p] : Nat))) := by
    unfold shift
    rw [if_neg hs]
    dsimp only
    rw [hpe, hfe, List.getElem?_eq_getElem hp]
    rfl
  have hd := one_le_dist cs s
  have cast : ∀ {a b : Nat}, b ≤ a → ((a - b : Nat) : Rat) = a - b := by
    intro a b h
    have : ((a - b + b : Nat) : Rat) = a := by rw [Nat.sub_add_cancel h]
    grind
  by_cases hs0 : 0 < s
  · rw [hunf, if_pos hs0]
    obtain ⟨y, h1, h2, h3, h4⟩ := up_spec (cs := cs.drop p) (fun c hcm => hf c (List.mem_of_mem_drop hcm)) (by intro e; have := congrArg List.length e; simp at this; omega)
      (p := p) (delta := dist cs s + round (f * (cs[p] : Nat))) (by omega)
    obtain ⟨r1, r2⟩ := round_spec (Rat.mul_nonneg hf0 hcr)
    have hp0 : (0 : Rat) ≤ p := by grind
    refine ⟨p + y, (round (f * (cs[p] : Nat)) : Rat) - f * (cs[p] : Nat), h1, by grind, ?_, by grind, by grind, fun _ => ?_, fun h => by grind⟩
    · rw [List.length_drop] at h3
      rw [cast (by omega)] at h3
      grind
    · rw [pos_add (by omega) h2, h4, hposx]
      by_cases hm : dist cs s + round (f * (cs[p] : Nat)) ≤ (cs.drop p).sum
      · rw [Nat.min_eq_left hm]
        have := Rat.natCast_le_natCast.mpr hm
        rw [show (cs.sum : Rat) = ((cs.take p).sum : Nat) + ((cs.drop p).sum : Nat) by rw [hsum]; grind]
        grind
      · rw [Nat.min_eq_right (by omega)]
        have := Rat.natCast_lt_natCast.mpr (Nat.lt_of_not_le hm)
        rw [show (cs.sum : Rat) = ((cs.take p).sum : Nat) + ((cs.drop p).sum : Nat) by rw [hsum]; grind]
        grind
  · have hs1 : s < 0 := by grind
    rw [hunf, if_neg hs0]
    obtain ⟨y, h1, h2, h3, h4⟩ := down_spec hf hp (delta := dist cs s + round ((1 - f) * (cs[p] : Nat))) (by omega)
    obtain ⟨r1, r2⟩ := round_spec (Rat.mul_nonneg (show (0 : Rat) ≤ 1 - f by grind) hcr)
    have hpl := Rat.natCast_le_natCast.mpr (show p + 1 ≤ cs.length from hp)
    refine ⟨y, (1 - f) * (cs[p] : Nat) - (round ((1 - f) * (cs[p] : Nat)) : Rat), h1, h2, by grind, by grind, by grind, fun h => absurd h hs0, fun _ => ?_⟩
    rw [h4, hposx, htk]
    by_cases hm : dist cs s + round ((1 - f) * (cs[p] : Nat)) ≤ (cs.take p).sum + cs[p]
    · rw [cast hm]
      have := Rat.natCast_le_natCast.mpr hm
      grind
    · rw [show (cs.take p).sum + cs[p] - (dist cs s + round ((1 - f) * (cs[p] : Nat))) = 0 by omega]
      have := Rat.natCast_lt_natCast.mpr (Nat.lt_of_not_le hm)
      grind

/-- **C104b.** A threshold that is to rise rises or is at the top, one that is to sink sinks or is at the bottom. -/
theorem C104_moves {cs : List Nat} (hf : Full cs) (hn : cs ≠ []) {x s r : Rat} (hx : 0 ≤ x) (hx' : x ≤ cs.length) (hr : shift cs x s = some r) :
    (0 < s → x < r ∨ r = cs.length) ∧ (s < 0 → r < x ∨ r = 0) := by
  by_cases hs : s = 0
  · constructor <;> intro h <;> grind
  obtain ⟨r', e, h1, h2, h3, h4, h5, h6, h7⟩ := C104_shift hf hn hx hx' hs
  rw [hr] at h1
  cases h1
  have hd : (1 : Rat) ≤ dist cs s := Rat.natCast_le_natCast.mpr (one_le_dist cs s)
  have strict : ∀ {cs : List Nat} {a b : Rat}, Full cs → 0 ≤ a → a < b → b ≤ cs.length → pos cs a < pos cs b := by
    intro cs
    induction cs with
    | nil => intro a b _ h1 h2 h3; simp at h3; grind
    | cons c cs ih =>
      intro a b hf h1 h2 h3
      have hc : (0 : Rat) < c := Rat.natCast_lt_natCast.mpr (hf c List.mem_cons_self)
      have hf' : Full cs := fun x hx => hf x (List.mem_cons_of_mem _ hx)
      have hl : ((c :: cs).length : Rat) = cs.length + 1 := by rw [List.length_cons]; grind
      unfold pos
      by_cases hb : b ≤ 1
      · rw [if_pos (by grind), if_pos hb]
        have := Rat.mul_pos (show 0 < b - a by grind) hc
        grind
      · rw [if_neg hb]
        by_cases ha : a ≤ 1
        · rw [if_pos ha]
          have h8 := Rat.mul_le_mul_of_nonneg_right ha (show (0 : Rat) ≤ c by grind)
          have := ih hf' (a := 0) (b := b - 1) Rat.le_refl (by grind) (by grind)
          rw [pos_zero] at this
          grind
        · rw [if_neg ha]
          have := ih hf' (a := a - 1) (b := b - 1) (by grind) (by grind) (by grind)
          grind
  constructor
  · intro h
    have h6 := h6 h
    by_cases hlt : x < r
    · exact .inl hlt
    · right
      have hm := pos_mono (cs := cs) h2 (show r ≤ x by grind)
      by_cases hre : r = cs.length
      · exact hre
      · have := strict hf h2 (show r < cs.length by grind) Rat.le_refl
        rw [pos_end] at this
        grind
  · intro h
    have h7 := h7 h
    by_cases hlt : r < x
    · exact .inl hlt
    · right
      have hm := pos_mono (cs := cs) hx (show x ≤ r by grind)
      by_cases hre : r = 0
      · exact hre
      · have := strict hf Rat.le_refl (show 0 < r by grind) h3
        rw [pos_zero] at this
        grind

example : shift [1, 4, 5] (5 / 4) (1 / 10) = some (3 / 2) ∧ shift [1, 4, 5] (5 / 4) (-(1 / 2)) = some 0 ∧ shift [1, 4, 5] 2 (1 / 1) = some 3 := by decide +kernel

/-! ## The adapter -/

structure Inv (c : Cfg) (a : A) : Prop where
  low : 0 ≤ a.lower
  mid : a.lower ≤ a.upper
  high : a.upper ≤ (c.max : Rat) + 1
  len : a.hs.length = c.num
  idx : a.idx < c.num
  shape : ∀ h ∈ a.hs, h.length = c.max + 1 ∧ Full h

theorem clamp_le (c : Cfg) (p : Int) : clamp c p ≤ c.max := by unfold clamp; omega

theorem bump_length (h : List Nat) (p : Nat) : (bump h p).length = h.length := by
  induction h generalizing p with
  | nil => rfl
  | cons c cs ih => cases p <;> simp [bump, ih]

theorem bump_full {h : List Nat} (hf : Full h) (p : Nat) : Full (bump h p) := by
  induction h generalizing p with
  | nil => exact hf
  | cons c cs ih =>
    have h1 := hf c List.mem_cons_self
    have h2 : Full cs := fun x hx => hf x (List.mem_cons_of_mem _ hx)
    intro x hx
    cases p with
    | zero =>
      rcases List.mem_cons.1 hx with e | e
      · omega
      · exact h2 x e
    | succ p =>
      rcases List.mem_cons.1 hx with e | e
      · omega
      · exact ih h2 p x e

theorem full_replicate (n : Nat) : Full (List.replicate n 1) := by
  intro x hx
  rw [(List.mem_replicate.1 hx).2]
  exact Nat.le_refl _

theorem Inv.init {c : Cfg} (hn : 0 < c.num) : Inv c (.init c) := by
  refine ⟨Rat.le_refl, ?_, Rat.le_refl, by simp [A.init], hn, ?_⟩
  · show (0 : Rat) ≤ (c.max : Rat) + 1
    have : (0 : Rat) ≤ c.max := by grind
    grind
  · intro h hh
    rw [(List.mem_replicate.1 hh).2]
    exact ⟨by simp, full_replicate _⟩

theorem shift_range {c : Cfg} {h : List Nat} (hh : h.length = c.max + 1 ∧ Full h) {x s : Rat} (hx : 0 ≤ x) (hx' : x ≤ (c.max : Rat) + 1) :
    ∃ r, shift h x s = some r ∧ 0 ≤ r ∧ r ≤ (c.max : Rat) + 1 := by
  have hl : ((h.length : Nat) : Rat) = (c.max : Rat) + 1 := by rw [hh.1]; grind
  by_cases hs : s = 0
  · exact ⟨x, by unfold shift; rw [if_pos hs], hx, hx'⟩
  · obtain ⟨r, e, h1, h2, h3, -⟩ := C104_shift hh.2 (by intro e; rw [e] at hh; simp at hh) hx (by rw [hl]; exact hx') hs
    exact ⟨r, h1, h2, by rw [← hl]; exact h3⟩

theorem Inv.expire {c : Cfg} {a : A} (h : Inv c a) : ∃ a', a.expire c = some a' ∧ Inv c a' := by
  unfold A.expire
  have hi : a.idx < a.hs.length := by rw [h.len]; exact h.idx
  rw [List.getElem?_eq_getElem hi]
  dsimp only
  have hsh := h.shape _ (List.getElem_mem hi)
  split
  · exact ⟨a, rfl, h⟩
  · obtain ⟨u, hu, hu0, hu1⟩ := shift_range hsh (s := if a.must = 0 || c.ratio < (a.ok : Rat) / a.must then -c.ustep else c.ustep) (show (0 : Rat) ≤ a.upper by have := h.low; have := h.mid; grind) h.high
    obtain ⟨l, hl, hl0, hl1⟩ := shift_range hsh (s := if a.may = 0 || (1 : Rat) / 2 < (a.ok : Rat) / a.may then -c.lstep else c.lstep) h.low (show a.lower ≤ (c.max : Rat) + 1 by have := h.mid; have := h.high; grind)
    rw [hu, hl]
    refine ⟨_, rfl, ?_, ?_, hu1, ?_, ?_, ?_⟩
    · show 0 ≤ (if u < l then u else l)
      split <;> assumption
    · show (if u < l then u else l) ≤ u
      split
      · exact Rat.le_refl
      · grind
    · show (a.hs.set _ _).length = _
      rw [List.length_set]; exact h.len
    · show (a.idx + 1) % a.hs.length < c.num
      rw [h.len]; exact Nat.mod_lt _ (by have := h.idx; omega)
    · intro x hx
      rcases List.mem_or_eq_of_mem_set hx with hx | hx
      · exact h.shape x hx
      · rw [hx]; exact ⟨by rw [List.length_replicate]; exact hsh.1, full_replicate _⟩

theorem Reach.inv {c : Cfg} (hn : 0 < c.num) {a : A} (h : Reach c a) : Inv c a := by
  induction h with
  | init => exact .init hn
  | step _ hs ih =>
    cases hs with
    | apply p u ans =>
      unfold A.apply
      split
      · exact ⟨ih.low, ih.mid, ih.high, ih.len, ih.idx, ih.shape⟩
      · split
        · exact ⟨ih.low, ih.mid, ih.high, ih.len, ih.idx, ih.shape⟩
        · exact ⟨ih.low, ih.mid, ih.high, ih.len, ih.idx, ih.shape⟩
    | sample p =>
      unfold A.sample
      split
      · exact ⟨ih.low, ih.mid, ih.high, ih.len, ih.idx, ih.shape⟩
      · refine ⟨ih.low, ih.mid, ih.high, by simp [ih.len], ih.idx, ?_⟩
        intro h hh
        obtain ⟨h', hh', rfl⟩ := List.mem_map.1 hh
        exact ⟨by rw [bump_length]; exact (ih.shape h' hh').1, bump_full (ih.shape h' hh').2 _⟩
    | expire he =>
      obtain ⟨a', h1, h2⟩ := ih.expire
      rw [he] at h1
      cases h1
      exact h2

/-- **C104c.** The thresholds stay in order and in range, whatever is sampled and answered. -/
theorem C104_thresholds {c : Cfg} (hn : 0 < c.num) {a : A} (h : Reach c a) : 0 ≤ a.lower ∧ a.lower ≤ a.upper ∧ a.upper ≤ (c.max : Rat) + 1 :=
  ⟨(h.inv hn).low, (h.inv hn).mid, (h.inv hn).high⟩

/-- **C104d.** No counter outside of the histograms is read: every update of the thresholds has a result. -/
theorem C104_update {c : Cfg} (hn : 0 < c.num) {a : A} (h : Reach c a) : ∃ a', a.expire c = some a' :=
  let ⟨a', h1, _⟩ := (h.inv hn).expire
  ⟨a', h1⟩

/-- **C104e.** A request is refused for its priority only if it is below the lower threshold, whatever the random number; otherwise the algorithm decides. -/
theorem C104_request {c : Cfg} (a : A) (p : Int) {u : Rat} (hu : 0 ≤ u) (ans : Bool) :
    ((a.apply (clamp c p) u ans).2 = .lower → (clamp c p : Rat) < a.lower) ∧
    ((a.apply (clamp c p) u ans).2 ≠ .lower → (a.apply (clamp c p) u ans).2 = if ans then .ok else .overload) ∧
    ((clamp c p : Rat) + 1 ≤ a.lower → u < 1 → (a.apply (clamp c p) u ans).2 = .lower) := by
  unfold A.apply
  split
  · exact ⟨fun _ => by grind, fun h => absurd rfl h, fun _ _ => rfl⟩
  · split
    · refine ⟨?_, fun _ => rfl, fun h1 h2 => by grind⟩
      intro h; cases ans <;> cases h
    · refine ⟨?_, fun _ => rfl, fun h1 h2 => by grind⟩
      intro h; cases ans <;> cases h

/-- **C104f.** With the same random number a request of a higher priority is not refused for its priority if one of a lower priority is not. -/
theorem C104_monotone {c : Cfg} (a : A) {p p' : Int} (hp : p ≤ p') (u : Rat) (ans ans' : Bool) (h : (a.apply (clamp c p) u ans).2 ≠ .lower) : (a.apply (clamp c p') u ans').2 ≠ .lower := by
  have hc : (clamp c p : Rat) ≤ clamp c p' := Rat.natCast_le_natCast.mpr (by unfold clamp; omega)
  unfold A.apply at h ⊢
  by_cases h1 : (clamp c p : Rat) + u < a.lower
  · rw [if_pos h1] at h; exact absurd rfl h
  · rw [if_neg (by grind)]
    split <;> (intro e; cases ans' <;> cases e)

/-- The priorities that are refused in a state, for some random number. -/
example : (A.apply ⟨3 / 2, 2, [], 0, 0, 0, 0, 0, false⟩ 1 (1 / 4) true).2 = .lower ∧ (A.apply ⟨3 / 2, 2, [], 0, 0, 0, 0, 0, false⟩ 1 (3 / 4) true).2 = .ok := by decide +kernel

/-! ## Refutations -/

/-- **C105a.** Whatever priority is set, 255 is sent. -/
theorem C105_set_partial (p : Int) : getPriority (setPriority p) = 255 := by
  have : max (min p 0) 255 = (255 : Int) := by omega
  unfold setPriority
  rw [this]
  rfl

/-- A request that passes and whose call fails: the windows are not touched (`OnError` has no effect here). -/
def failing (c : Cfg) (a : A) : A := ((a.apply (clamp c 0) 0 true).1).sample (clamp c 0)

theorem bump_sum {h : List Nat} (hn : h ≠ []) : (bump h 0).sum = h.sum + 1 := by
  cases h with
  | nil => exact absurd rfl hn
  | cons c cs => simp [bump]; omega

def fails (c : Cfg) : Nat → A
  | 0 => .init c
  | n + 1 => failing c (fails c n)

theorem fails_spec {c : Cfg} {n : Nat} (hn : n + c.max + 1 ≤ 2 ^ 31 - 1) :
    (Reach c (fails c n) ∧ ((fails c n).lower = 0 ∧ (fails c n).upper = (c.max : Rat) + 1)) ∧ (fails c n).crash = false ∧ (fails c n).hs.length = c.num ∧ ∀ h ∈ (fails c n).hs, h.length = c.max + 1 ∧ h.sum = n + c.max + 1 := by
  induction n with
  | zero =>
    refine ⟨⟨.init, rfl, rfl⟩, rfl, by simp [fails, A.init], ?_⟩
    intro h hh
    rw [(List.mem_replicate.1 hh).2]
    exact ⟨by simp, by simp⟩
  | succ n ih =>
    obtain ⟨⟨h1, hlu⟩, h2, h3, h4⟩ := ih (by omega)
    have hr := (h1.step (.apply 0 0 true)).step (.sample 0)
    have ha : ((fails c n).apply (clamp c 0) 0 true).1.hs = (fails c n).hs ∧ ((fails c n).apply (clamp c 0) 0 true).1.crash = false := by
      unfold A.apply; split
      · exact ⟨rfl, h2⟩
      · split <;> exact ⟨rfl, h2⟩
    have hs : fails c (n + 1) = { ((fails c n).apply (clamp c 0) 0 true).1 with hs := (fails c n).hs.map fun h => bump h 0 } := by
      show A.sample _ _ = _
      unfold A.sample
      rw [if_neg]
      · rw [ha.1, show clamp c 0 = 0 by unfold clamp; omega]
      · rw [ha.1]
        intro hx
        obtain ⟨h, hh, hx⟩ := List.any_eq_true.1 hx
        obtain ⟨g1, g2⟩ := h4 h hh
        have : clamp c 0 = 0 := by unfold clamp; omega
        rw [this, g1, g2] at hx
        simp at hx
        omega
    refine ⟨⟨hr, ?_⟩, ?_, ?_, ?_⟩
    · rw [hs]
      show ((fails c n).apply (clamp c 0) 0 true).1.lower = 0 ∧ ((fails c n).apply (clamp c 0) 0 true).1.upper = _
      unfold A.apply
      split
      · exact hlu
      · split <;> exact hlu
    · rw [hs]; exact ha.2
    · rw [hs]; simp [h3]
    · rw [hs]
      intro h hh
      obtain ⟨h', hh', rfl⟩ := List.mem_map.1 hh
      obtain ⟨g1, g2⟩ := h4 h' hh'
      refine ⟨by rw [bump_length]; exact g1, ?_⟩
      rw [bump_sum (by intro e; rw [e] at g1; simp at g1), g2]
      omega

/-- **C105b.** If all calls pass and then fail, the histograms are never reset (only requests that are refused and calls that succeed can make the window expire), and after less than 2³¹ requests
the check in `Sample` ends the process. -/
theorem C105_overflow_partial (c : Cfg) (hn : 0 < c.num) (hm : c.max + 1 ≤ 2 ^ 31 - 1) :
    ∃ n < 2 ^ 31, Reach c (fails c n) ∧ (fails c n).crash = true ∧ ∀ k < n, ((fails c k).apply (clamp c 0) 0 true).2 = .ok := by
  have hb : 2 ^ 31 - 1 - (c.max + 1) + c.max + 1 = 2 ^ 31 - 1 := by omega
  obtain ⟨⟨h1, -⟩, h2, h3, h4⟩ := fails_spec (c := c) (n := 2 ^ 31 - 1 - (c.max + 1)) (by omega)
  refine ⟨2 ^ 31 - 1 - (c.max + 1) + 1, by omega, (h1.step (.apply 0 0 true)).step (.sample 0), ?_, ?_⟩
  rotate_left
  · intro k hk
    obtain ⟨⟨-, g1, g2⟩, -⟩ := fails_spec (c := c) (n := k) (by omega)
    have : (0 : Rat) ≤ c.max := by grind
    unfold A.apply
    rw [g1, g2, show clamp c 0 = 0 by unfold clamp; omega, if_neg (by grind), if_neg (by grind)]
    rfl
  generalize 2 ^ 31 - 1 - (c.max + 1) = N at *
  have ha : ((fails c N).apply (clamp c 0) 0 true).1.hs = (fails c N).hs := by
    unfold A.apply; split
    · rfl
    · split <;> rfl
  show (A.sample _ _).crash = true
  unfold A.sample
  rw [if_pos]
  rw [ha]
  obtain ⟨h, hh⟩ := List.exists_mem_of_length_pos (show 0 < (fails c N).hs.length by omega)
  refine List.any_eq_true.2 ⟨h, hh, ?_⟩
  rw [(h4 h hh).2, hb]
  simp

/-- The default steps. -/
def dflt : Cfg := ⟨0, 1 / 50, 1 / 100, 1 / 10, 3⟩

/-- **C105c.** Both thresholds can reach the top: then every request is refused for its priority, also those of the highest. -/
theorem C105_blackout_partial : ∃ a, Reach dflt a ∧ ∀ (p : Int) (u : Rat) (ans : Bool), 0 ≤ u → u < 1 → (a.apply (clamp dflt p) u ans).2 = .lower := by
  have h := (Reach.init (c := dflt)).step (.apply 0 (9 / 10) false)
  have h := h.step (.sample 0)
  have h := h.step (.expire (Option.some_get (by decide +kernel)).symm)
  have h := h.step (.apply 0 (3 / 4) true)
  have h := h.step (.sample 0)
  have h := h.step (.apply 0 (1 / 2) false)
  have h := h.step (.expire (Option.some_get (by decide +kernel)).symm)
  refine ⟨_, h, ?_⟩
  intro p u ans h0 h1
  refine (C104_request _ p h0 ans).2.2 ?_ h1
  have : clamp dflt p = 0 := by have := clamp_le dflt p; exact Nat.le_zero.1 this
  rw [this]
  decide +kernel

end Verif.Overload
