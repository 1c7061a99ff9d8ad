import Verif.Text.Helper

/-! C143: the helpers for strings. -/

namespace Verif.Text.Helper

theorem find_spec (p s : Bytes) :
    (∀ k, find p s = some k → p <+: s.drop k ∧ ∀ j, j < k → ¬ p <+: s.drop j) ∧ (find p s = none → ¬ p <:+: s) := by
  induction s with
  | nil =>
    by_cases e : p = []
    · subst e; simp [find]
    · simp [find, e]
  | cons c r ih =>
    by_cases hp : p.isPrefixOf (c :: r) = true
    · rw [find, if_pos hp]
      refine ⟨fun k hk => ?_, by simp⟩
      cases hk
      exact ⟨List.isPrefixOf_iff_prefix.mp hp, by simp⟩
    · rw [find, if_neg hp]
      have hp' : ¬ p <+: c :: r := fun h => hp (List.isPrefixOf_iff_prefix.mpr h)
      refine ⟨fun k hk => ?_, fun hn => ?_⟩
      · cases e : find p r with
        | none => simp [e] at hk
        | some j =>
          simp [e] at hk
          subst hk
          obtain ⟨h1, h2⟩ := ih.1 j e
          refine ⟨by simpa using h1, fun i hi => ?_⟩
          cases i with
          | zero => simpa using hp'
          | succ i => simpa using h2 i (by omega)
      · have hr := ih.2 (by simpa using hn)
        intro h
        rcases List.infix_cons_iff.mp h with h | h
        · exact hp' h
        · exact hr h

/-- Cut at the place that was found. -/
theorem find_cut {p s : Bytes} {k : Nat} (h : find p s = some k) : s = s.take k ++ (p ++ s.drop (k + p.length)) ∧ (s.take k).length = k := by
  have h1 := ((find_spec p s).1 k h).1
  have h2 := find_le h
  obtain ⟨t, ht⟩ := h1
  have e : s.drop (k + p.length) = t := by
    rw [← List.drop_drop, ← ht]; simp
  refine ⟨?_, by simp; omega⟩
  rw [e, ht, List.take_append_drop]

theorem nil_cut {d : Bytes} (hd : d ≠ []) : Cut d [] [[]] := .whole (by simpa using hd)

theorem splitLoop_cut (d : Bytes) (hd : d ≠ []) : ∀ (n : Nat) (s : Bytes), s.length ≤ n → Cut d s (splitLoop d hd true s) := by
  intro n
  induction n with
  | zero =>
    intro s hs
    have : s = [] := List.length_eq_zero_iff.mp (by omega)
    subst this
    rw [splitLoop]
    split
    · exact nil_cut hd
    · next k hk => have h1 := find_le hk; have h2 := List.length_pos_iff.mpr hd; simp at h1; simp [h1] at h2
  | succ n ih =>
    intro s hs
    rw [splitLoop]
    split
    · next h => exact .whole ((find_spec d s).2 h)
    · next k hk =>
      obtain ⟨h1, h2⟩ := find_cut hk
      have h3 := ((find_spec d s).1 k hk).2
      have h4 := List.length_pos_iff.mpr hd
      have h5 := find_le hk
      simp only [or_true, if_true, List.singleton_append]
      have key : ∀ ps, Cut d (s.drop (k + d.length)) ps → Cut d s (s.take k :: ps) := by
        intro ps hps
        have := Cut.part (d := d) (p := s.take k) (r := s.drop (k + d.length)) (ps := ps) (by rw [h2, ← h1]; exact h3) hps
        rwa [← h1] at this
      split
      · next he => exact key _ (he ▸ nil_cut hd)
      · exact key _ (ih _ (by simp; omega))

theorem splitLoop_drop (d : Bytes) (hd : d ≠ []) : ∀ (n : Nat) (s : Bytes), s.length ≤ n → s ≠ [] → splitLoop d hd false s = (splitLoop d hd true s).filter (· ≠ []) := by
  intro n
  induction n with
  | zero => intro s hs hne; exact absurd (List.length_eq_zero_iff.mp (by omega)) hne
  | succ n ih =>
    intro s hs hne
    rw [splitLoop, splitLoop]
    split
    · simp [hne]
    · next k hk =>
      have h2 := (find_cut hk).2
      have h4 := List.length_pos_iff.mpr hd
      have hk0 : k = 0 ↔ s.take k = [] := by rw [← List.length_eq_zero_iff, h2]
      by_cases he : s.drop (k + d.length) = []
      · simp only [he, if_true]
        by_cases h0 : k = 0
        · simp [h0]
        · have : s.take k ≠ [] := fun c => h0 (hk0.2 c)
          simp only [h0, ne_eq, not_false_eq_true, Bool.false_eq_true, or_false, or_true, if_true]
          generalize s.take k = a at *
          simp [this]
      · simp only [he, if_false]
        rw [ih _ (by simp; omega) he]
        by_cases h0 : k = 0
        · simp [h0]
        · have : s.take k ≠ [] := fun c => h0 (hk0.2 c)
          simp only [h0, ne_eq, not_false_eq_true, Bool.false_eq_true, or_false, or_true, if_true]
          generalize s.take k = a at *
          simp [this]

/-- There is one way to cut. -/
theorem Cut.unique {d s : Bytes} {ps qs : List Bytes} (h : Cut d s ps) (h' : Cut d s qs) : ps = qs := by
  induction h generalizing qs with
  | whole hw =>
    cases h' with
    | whole => rfl
    | @part p r ps _ _ => exact absurd ⟨p, r, by simp⟩ hw
  | @part p r ps hp hr ih =>
    generalize hs : p ++ (d ++ r) = s at *
    cases h' with
    | whole hw => exact absurd ⟨p, r, by simp [← hs]⟩ hw
    | @part p' r' ps' hp' hr' =>
      have e : p.length = p'.length := by
        rcases Nat.lt_trichotomy p.length p'.length with hlt | he | hlt
        · refine absurd ?_ (hp' p.length hlt)
          rw [← hs]; simp
        · exact he
        · refine absurd ?_ (hp p'.length hlt)
          simp
      obtain ⟨rfl, h2⟩ := List.append_inj hs e
      have := List.append_cancel_left h2
      subst this
      rw [ih hr']

theorem Cut.mix {d s : Bytes} {ps : List Bytes} (h : Cut d s ps) : mix d d 0 ps = s := by
  induction h with
  | whole => rfl
  | @part p r ps _ hr ih =>
    cases ps with
    | nil => cases hr
    | cons q qs => rw [Helper.mix, ih]; simp

theorem Cut.free {d s : Bytes} {ps : List Bytes} (h : Cut d s ps) : ∀ p, p ∈ ps → ¬ d <:+: p := by
  induction h with
  | whole hw => intro p hp; simp at hp; subst hp; exact hw
  | @part p r ps hp hr ih =>
    intro q hq
    rcases List.mem_cons.mp hq with rfl | hq
    · rintro ⟨a, b, hab⟩
      by_cases hd : d = []
      · subst hd
        -- nothing can be cut at the empty string
        cases hr with
        | whole hw => exact hw (by simp)
        | @part p' r' ps' h1 h2 => exact ih p' (by simp) (by simp)
      · have hl := congrArg List.length hab
        have := List.length_pos_iff.mpr hd
        simp at hl
        refine hp a.length (by omega) ?_
        rw [← hab]
        simp
    · exact ih q hq

/-- `Split`, with empty parts: the string cut at the delimiter from the left, in the one way there is; none of the parts contains the delimiter. Without them: the same without the empty ones. -/
theorem C143_split (s d : Bytes) (hs : s ≠ []) (hd : d ≠ []) :
    ∃ ps, Cut d s ps ∧ (∀ qs, Cut d s qs → qs = ps) ∧ (∀ p, p ∈ ps → ¬ d <:+: p) ∧ split s d true = some ps ∧ split s d false = some (ps.filter (· ≠ [])) := by
  have h := splitLoop_cut d hd s.length s (Nat.le_refl _)
  refine ⟨_, h, fun qs hq => hq.unique h, h.free, ?_, ?_⟩
  · simp [split, hs, hd]
  · simp only [split, hs, hd, dite_false, if_false]
    rw [splitLoop_drop d hd s.length s (Nat.le_refl _) hs]

theorem cut_char {c : UInt8} {s : Bytes} {ps : List Bytes} (h : Cut [c] s ps) : ps.length = s.count c + 1 ∧ ps.flatten = s.filter (· ≠ c) := by
  have nc : ∀ p : Bytes, ¬ [c] <:+: p → p.count c = 0 ∧ p.filter (· ≠ c) = p := by
    intro p hp
    have : c ∉ p := fun hm => hp (by obtain ⟨a, b, rfl⟩ := List.append_of_mem hm; exact ⟨a, b, by simp⟩)
    refine ⟨List.count_eq_zero.mpr this, List.filter_eq_self.mpr (fun x hx => ?_)⟩
    simp; rintro rfl; exact this hx
  have hf := h.free
  induction h with
  | whole hw => have := nc _ hw; rw [this.1]; simpa using this.2.symm
  | @part p r ps hp hr ih =>
    obtain ⟨h1, h2⟩ := ih (fun q hq => hf q (by simp [hq]))
    obtain ⟨h3, h4⟩ := nc p (hf p (by simp))
    constructor
    · simp [h1, h3]
    · rw [List.flatten_cons, h2, List.filter_append, h4]; simp

/-- By a character: one part more than there are delimiters; and the parts are all the rest, in order. -/
theorem C143_char (s : Bytes) (c : UInt8) (keep : Bool) (hs : s ≠ []) :
    ∃ ps, split s [c] keep = some ps ∧ ps.flatten = s.filter (· ≠ c) ∧ (∀ p, p ∈ ps → c ∉ p) ∧ (keep = true → ps.length = s.count c + 1) ∧ (keep = false → [] ∉ ps) := by
  obtain ⟨ps, h1, -, h3, h4, h5⟩ := C143_split s [c] hs (by simp)
  obtain ⟨h6, h7⟩ := cut_char h1
  have hc : ∀ p, p ∈ ps → c ∉ p := fun p hp hm => h3 p hp (by obtain ⟨a, b, rfl⟩ := List.append_of_mem hm; exact ⟨a, b, by simp⟩)
  cases keep with
  | true => exact ⟨ps, h4, h7, hc, fun _ => h6, by simp⟩
  | false =>
    refine ⟨_, h5, ?_, fun p hp => hc p (List.mem_filter.mp hp).1, by simp, fun _ h => by simp at h⟩
    rw [← h7]
    clear h1 h3 h4 h5 h6 h7 hc
    induction ps with
    | nil => rfl
    | cons a r ih =>
      by_cases ha : a = []
      · simp [ha]; simpa using ih
      · simp [ha]; simpa using ih

example : split [97, 44, 44, 98, 44] [44] true = some [[97], [], [98], []] ∧ split [97, 44, 44, 98, 44] [44] false = some [[97], [98]] := by
  constructor <;> simp [split, splitLoop, find, List.isPrefixOf]

end Verif.Text.Helper
