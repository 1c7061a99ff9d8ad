import Verif.Text.HelperProps

/-! C143: `Join`, `Replace`, `Trim`, comparison and numbers. -/

namespace Verif.Text.Helper

theorem C143_ends (s p : Bytes) : (startsWith s p = true ↔ p <+: s) ∧ (endsWith s p = true ↔ p <:+ s) := by
  simp only [startsWith, endsWith, Bool.and_eq_true, decide_eq_true_eq, beq_iff_eq]
  refine ⟨⟨fun h => h.2 ▸ List.take_prefix _ _, fun h => ⟨h.length_le, (List.prefix_iff_eq_take.mp h).symm⟩⟩, ⟨fun h => h.2 ▸ List.drop_suffix _ _, fun h => ⟨h.length_le, (List.suffix_iff_eq_drop.mp h).symm⟩⟩⟩

theorem Cut.ne {d s : Bytes} {ps : List Bytes} (h : Cut d s ps) : ps ≠ [] := by cases h <;> simp

theorem mix_zero {a b p : Bytes} {ps : List Bytes} (h : ps ≠ []) : mix a b 0 (p :: ps) = p ++ (b ++ mix a b 0 ps) := by
  cases ps with
  | nil => exact absurd rfl h
  | cons q qs => rw [mix]; simp

theorem mix_succ {a b p : Bytes} {n : Nat} {ps : List Bytes} (h : ps ≠ []) : mix a b (n + 1) (p :: ps) = p ++ (a ++ mix a b n ps) := by
  cases ps with
  | nil => exact absurd rfl h
  | cons q qs => rw [mix]; simp

/-! ## `Join` -/

theorem wrap_id {n : Int} (h : 0 ≤ n) (h' : n < 2 ^ 31) : wrap n = n := by
  unfold wrap; omega

/-- The length of the parts and a delimiter for each. -/
def total (d : Bytes) : List Bytes → Nat
  | [] => 0
  | p :: ps => p.length + d.length + total d ps

theorem fold_total (d : Bytes) : ∀ (ps : List Bytes) (n : Nat), n + total d ps < 2 ^ 31 →
    ps.foldl (fun n e => wrap (n + (e.length : Int) + (d.length : Int))) (n : Int) = ((n + total d ps : Nat) : Int)
  | [], n, _ => by simp [total]
  | p :: ps, n, h => by
    simp only [total] at h
    rw [List.foldl_cons, wrap_id (by omega) (by omega)]
    have := fold_total d ps (n + p.length + d.length) (by omega)
    simp only [Int.natCast_add] at this ⊢
    rw [this, total]
    simp only [Int.natCast_add]
    omega

theorem fold_mix (d : Bytes) : ∀ (ps : List Bytes) (r : Bytes), ps.foldl (fun r e => r ++ d ++ e) r = mix d d 0 (r :: ps)
  | [], r => rfl
  | p :: ps, r => by
    rw [List.foldl_cons, fold_mix d ps]
    cases ps with
    | nil => simp [mix]
    | cons q qs => rw [mix_zero (ps := q :: qs) (by simp), mix_zero (p := r) (ps := p :: q :: qs) (by simp), mix_zero (p := p) (by simp)]; simp

/-- `Join`: the parts with the delimiter between them, if all that is less than 2 GiB. -/
theorem C143_join (ps : List Bytes) (d : Bytes) (h : total d ps < 2 ^ 31) : join ps d = some (mix d d 0 ps) := by
  have e := fold_total d ps 0 (by simpa using h)
  simp only [Nat.zero_add, Int.natCast_zero] at e
  rw [join]
  simp only [e]
  cases ps with
  | nil => simp [total, mix]
  | cons p r =>
    have et : total d (p :: r) = p.length + d.length + total d r := rfl
    rw [et] at h
    by_cases h0 : p.length + d.length + total d r = 0
    · have h1 : p = [] := List.length_eq_zero_iff.mp (by omega)
      have h2 : d = [] := List.length_eq_zero_iff.mp (by omega)
      have h3 : total d r = 0 := by omega
      rw [if_pos (by omega), h1, h2]
      clear h0 h e h1 et
      subst h2
      congr 1
      induction r with
      | nil => rfl
      | cons q qs ih =>
        simp only [total, List.length_nil, Nat.add_zero] at h3
        have : q = [] := List.length_eq_zero_iff.mp (by omega)
        subst this
        rw [mix]
        · simp only [List.nil_append]; exact ih (by simpa using h3)
        · simp
    · rw [if_neg (by omega), if_neg (by rw [wrap_id] <;> omega)]
      simp only [List.tail_cons, List.headD_cons]
      rw [fold_mix]

/-- What was split, with empty parts, is joined to what it was. -/
theorem C143_round (s d : Bytes) (hs : s ≠ []) (hd : d ≠ []) : ∃ ps, split s d true = some ps ∧ (total d ps < 2 ^ 31 → join ps d = some s) := by
  obtain ⟨ps, h1, -, -, h4, -⟩ := C143_split s d hs hd
  exact ⟨ps, h4, fun h => by rw [C143_join ps d h, h1.mix]⟩

example : join [[97], [], [98]] [44, 32] = some [97, 44, 32, 44, 32, 98] := by decide

/-! ## `Replace` -/

theorem find_none_cut {d s : Bytes} (h : find d s = none) : Cut d s [s] := .whole ((find_spec d s).2 h)

theorem replaceLoop_eq (a b : Bytes) (ha : a ≠ []) : ∀ (n : Nat) (pre s : Bytes) (ps : List Bytes), Cut a s ps →
    replaceLoop a b n (pre ++ s) ((find a s).map (· + pre.length)) = pre ++ mix b a n ps := by
  intro n
  induction n with
  | zero =>
    intro pre s ps h
    have e : mix b a 0 ps = s := by
      clear ha
      induction h with
      | whole => rfl
      | @part p r qs _ hr ih =>
        cases qs with
        | nil => cases hr
        | cons q qs => rw [mix, ih]; simp
    rw [e]
    cases find a s <;> rfl
  | succ n ih =>
    intro pre s ps h
    cases hf : find a s with
    | none =>
      have := h.unique (find_none_cut hf)
      subst this
      rfl
    | some k =>
      obtain ⟨h1, h2⟩ := find_cut hf
      have h3 := ((find_spec a s).1 k hf).2
      -- the rest
      obtain ⟨qs, hq⟩ : ∃ qs, Cut a (s.drop (k + a.length)) qs := ⟨_, splitLoop_cut a ha _ _ (Nat.le_refl _)⟩
      have hc : Cut a s (s.take k :: qs) := by
        have := Cut.part (d := a) (p := s.take k) (r := s.drop (k + a.length)) (ps := qs) (by rw [h2, ← h1]; exact h3) hq
        rwa [← h1] at this
      have := h.unique hc
      subst this
      have e1 : (pre ++ s).take (k + pre.length) = pre ++ s.take k := by
        rw [List.take_append, Nat.add_sub_cancel, List.take_of_length_le (by omega)]
      have e2 : (pre ++ s).drop (k + pre.length + a.length) = s.drop (k + a.length) := by
        rw [List.drop_append, List.drop_of_length_le (by omega)]
        simp only [List.nil_append]
        congr 1; omega
      have e3 : (pre ++ s.take k ++ b ++ s.drop (k + a.length)).drop (k + pre.length + b.length) = s.drop (k + a.length) := by
        rw [List.drop_append, List.drop_of_length_le (by simp; omega)]
        simp only [List.nil_append, List.length_append, h2]
        rw [show k + pre.length + b.length - (pre.length + k + b.length) = 0 from by omega]
        rfl
      simp only [Option.map_some, replaceLoop, e1, e2, e3]
      have := ih (pre ++ s.take k ++ b) (s.drop (k + a.length)) qs hq
      simp only [List.length_append, h2] at this
      rw [show k + pre.length + b.length = pre.length + k + b.length from by omega, this]
      rw [mix_succ hq.ne]
      simp [List.append_assoc]

/-- `Replace`: the string cut at `from`, with `to` in place of the first `count` cuts and the others as they were; what was put in is not searched. -/
theorem C143_replace (s a b : Bytes) (n : Nat) (ha : a ≠ []) : ∃ ps, Cut a s ps ∧ (∀ qs, Cut a s qs → qs = ps) ∧ replace s a b n = some (mix b a n ps) := by
  have h := splitLoop_cut a ha s.length s (Nat.le_refl _)
  refine ⟨_, h, fun qs hq => hq.unique h, ?_⟩
  rw [replace, if_neg ha]
  have := replaceLoop_eq a b ha n [] s _ h
  simp only [List.nil_append, List.length_nil, Nat.add_zero, Option.map_id_fun', id_eq] at this
  rw [this]

example : replace [120, 120, 120] [120] [120, 121] 2 = some [120, 121, 120, 121, 120] := by decide

end Verif.Text.Helper
