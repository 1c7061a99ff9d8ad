import Verif.Tvar.Window

/-! C148: windows -/

namespace Verif.Tvar.Window

variable {T : Type}

/-- The state after a history. -/
def S.after (x : Sample T) (ops : List (Op T)) : S T := ops.foldl S.op (.init x)

theorem after_snoc (x : Sample T) (ops : List (Op T)) (o : Op T) : S.after x (ops ++ [o]) = (S.after x ops).op o := by simp [S.after]

theorem hist_take (x y : Sample T) (ops : List (Op T)) : hist x (ops ++ [.take y]) = hist x ops ++ [y] := by simp [hist]

theorem hist_set (x : Sample T) (w : Int) (ops : List (Op T)) : hist x (ops ++ [.set w]) = hist x ops := by simp [hist]

/-- Induction from the end. -/
theorem snoc_ind {α : Type} {m : List α → Prop} (h0 : m []) (h1 : ∀ l a, m l → m (l ++ [a])) (l : List α) : m l := by
  have : ∀ r : List α, m r.reverse := fun r => by
    induction r with
    | nil => exact h0
    | cons a r ih => rw [List.reverse_cons]; exact h1 _ _ ih
  simpa using this l.reverse

/-- What is kept are the last samples. -/
theorem keeps (x : Sample T) (ops : List (Op T)) :
    (∃ k, (S.after x ops).q = (hist x ops).drop k) ∧ 1 ≤ (S.after x ops).q.length ∧ (S.after x ops).q.length ≤ (S.after x ops).cap ∧ 1 ≤ (S.after x ops).window := by
  induction ops using snoc_ind with
  | h0 => exact ⟨⟨0, by simp [S.after, S.init, S.take, hist]⟩, by simp [S.after, S.init, S.take]⟩
  | h1 l a ih =>
    obtain ⟨⟨k, hk⟩, h1, h2, h3⟩ := ih
    rw [after_snoc]
    generalize S.after x l = s at *
    cases a with
    | set w =>
      rw [hist_set]
      simp only [S.op, S.setWindow]
      split
      · exact ⟨⟨k, hk⟩, h1, h2, h3⟩
      · refine ⟨⟨k, hk⟩, h1, h2, ?_⟩
        simp only []
        split <;> omega
    | take y =>
      rw [hist_take]
      have hkl : k < (hist x l).length := by
        have := congrArg List.length hk
        simp at this
        omega
      simp only [S.op, S.take]
      generalize hc : (if s.window + 1 > s.cap then max (s.cap * 2) (s.window + 1) else s.cap) = cap
      have hcap : s.cap ≤ cap ∧ s.window + 1 ≤ cap := by subst hc; split <;> omega
      split
      · next hl =>
        refine ⟨⟨k, ?_⟩, by simp, by simp; omega, h3⟩
        rw [hk, List.drop_append_of_le_length (by omega)]
      · next hl =>
        refine ⟨⟨k + 1, ?_⟩, by simp, by simp; omega, h3⟩
        rw [hk, List.tail_drop, List.drop_append_of_le_length (by omega)]

/-- With a window of at least `w`, there are `w + 1` samples after enough of them. -/
theorem grows (x : Sample T) (pre ops : List (Op T)) (w : Nat) (hw : w ≤ (S.after x pre).window) :
    min (w + 1) ((hist x (pre ++ ops)).length - (hist x pre).length + 1) ≤ (S.after x (pre ++ ops)).q.length ∧ w ≤ (S.after x (pre ++ ops)).window ∧ (hist x pre).length ≤ (hist x (pre ++ ops)).length := by
  induction ops using snoc_ind with
  | h0 => have := (keeps x pre).2.1; simp; omega
  | h1 l a ih =>
    obtain ⟨h1, h2, h3⟩ := ih
    rw [← List.append_assoc, after_snoc]
    have kp := keeps x (pre ++ l)
    generalize S.after x (pre ++ l) = s at *
    cases a with
    | set v =>
      rw [hist_set]
      simp only [S.op, S.setWindow]
      split
      · exact ⟨h1, h2, h3⟩
      · refine ⟨h1, ?_, h3⟩
        simp only []
        split <;> omega
    | take y =>
      rw [hist_take]
      simp only [S.op, S.take]
      generalize hc : (if s.window + 1 > s.cap then max (s.cap * 2) (s.window + 1) else s.cap) = cap
      have hcap : s.cap ≤ cap ∧ s.window + 1 ≤ cap := by subst hc; split <;> omega
      split
      · refine ⟨by simp; omega, h2, by simp; omega⟩
      · refine ⟨by simp; omega, h2, by simp; omega⟩

theorem loop_eq (op : T → T → T) (q : List (Sample T)) (o : Nat) (ho : o < q.length) :
    ∀ (d i fuel : Nat) (r : T), i + d = o → d < fuel → loop op q o fuel i r = some (((q.reverse.drop i).take d).foldl (fun a e => op a e.data) r) := by
  intro d
  induction d with
  | zero =>
    intro i fuel r hi hf
    obtain ⟨f, rfl⟩ : ∃ f, fuel = f + 1 := ⟨fuel - 1, by omega⟩
    simp [loop, show i = o by omega]
  | succ d ih =>
    intro i fuel r hi hf
    obtain ⟨f, rfl⟩ : ∃ f, fuel = f + 1 := ⟨fuel - 1, by omega⟩
    have hl : i < q.reverse.length := by simp; omega
    have hb : bottom q i = some q.reverse[i] := by
      rw [bottom, if_pos (by omega), List.getElem_reverse, List.getElem?_eq_getElem]
    rw [loop, if_neg (by omega), hb]
    simp only []
    rw [ih (i + 1) f _ (by omega) (by omega)]
    rw [List.drop_eq_getElem_cons hl, List.take_succ_cons, List.foldl_cons]

/-- The value of a window of `w` seconds: for some `m` from 1 to `w`, the difference between the last sample and the one `m` before it, or without an inverse all of the last `m` samples together. -/
def Spans (op : T → T → T) (inv : Option (T → T → T)) (h : List (Sample T)) (m : Nat) (r : Sample T) : Prop :=
  ∃ latest rest oldest, h.reverse = latest :: rest ∧ h.reverse[m]? = some oldest ∧ r.time = latest.time - oldest.time ∧
    match inv with
    | some f => r.data = f latest.data oldest.data
    | none => r.data = (rest.take (m - 1)).foldl (fun a e => op a e.data) latest.data

/-- `GetValue` of a window: nothing for a window that is not positive, or when there is but one sample. Otherwise the samples of the last `w` seconds count, or all since the window has got its size, if that is not so long ago. No assertion fails. -/
theorem C148_window (op : T → T → T) (inv : Option (T → T → T)) (x : Sample T) (pre ops : List (Op T)) (w : Int) (hw : w.toNat ≤ (S.after x pre).window) :
    ((S.after x (pre ++ ops)).get op inv w = .no ∧ (w ≤ 0 ∨ (S.after x (pre ++ ops)).q.length = 1)) ∨
      ∃ m r, (S.after x (pre ++ ops)).get op inv w = .yes r ∧ Spans op inv (hist x (pre ++ ops)) m r ∧ 1 ≤ m ∧ (m : Int) ≤ w ∧
        min w.toNat ((hist x (pre ++ ops)).length - (hist x pre).length) ≤ m := by
  obtain ⟨⟨k, hk⟩, h1, -, -⟩ := keeps x (pre ++ ops)
  obtain ⟨g1, -, g3⟩ := grows x pre ops w.toNat hw
  generalize S.after x (pre ++ ops) = s at *
  generalize hist x (pre ++ ops) = h at *
  simp only [S.get]
  by_cases hw0 : w ≤ 0
  · exact .inl ⟨by rw [if_pos hw0], .inl hw0⟩
  rw [if_neg hw0]
  by_cases hl : s.q.length ≤ 1
  · exact .inl ⟨by rw [if_pos hl], .inr (by omega)⟩
  rw [if_neg hl]
  right
  generalize hm : (if w.toNat < s.q.length then w.toNat else s.q.length - 1) = m
  have hm1 : 1 ≤ m ∧ (m : Int) ≤ w ∧ m < s.q.length := by subst hm; split <;> omega
  have hb : ∀ i, i < s.q.length → ∃ e, bottom s.q i = some e ∧ s.q.reverse[i]? = some e ∧ h.reverse[i]? = some e := by
    intro i hi
    refine ⟨s.q.reverse[i]'(by simpa using hi), ?_, List.getElem?_eq_getElem _, ?_⟩
    · rw [bottom, if_pos hi, List.getElem_reverse, List.getElem?_eq_getElem]
    · have hp : s.q.reverse <+: h.reverse := by
        rw [hk]
        exact List.reverse_prefix.mpr (List.drop_suffix _ _)
      obtain ⟨t, ht⟩ := hp
      rw [← ht, List.getElem?_append_left (by simpa using hi)]
      exact List.getElem?_eq_getElem _
  obtain ⟨a, a1, a2, a3⟩ := hb 0 (by omega)
  obtain ⟨b, b1, b2, b3⟩ := hb m hm1.2.2
  obtain ⟨rest, hr⟩ : ∃ rest, h.reverse = a :: rest := by
    cases e : h.reverse with
    | nil => simp [e] at a3
    | cons c rest => rw [e] at a3; simp at a3; exact ⟨rest, by rw [a3]⟩
  rw [a1, b1]
  simp only []
  rw [if_neg (by omega)]
  have hge : min w.toNat (h.length - (hist x pre).length) ≤ m := by subst hm; split <;> omega
  cases inv with
  | some f => exact ⟨m, _, rfl, ⟨a, rest, b, hr, b3, rfl, rfl⟩, hm1.1, hm1.2.1, hge⟩
  | none =>
    simp only []
    rw [loop_eq op s.q m hm1.2.2 (m - 1) 1 _ _ (by omega) (by omega)]
    refine ⟨m, _, rfl, ⟨a, rest, b, hr, b3, rfl, ?_⟩, hm1.1, hm1.2.1, hge⟩
    simp only []
    congr 1
    have hp : s.q.reverse <+: h.reverse := by
      rw [hk]
      exact List.reverse_prefix.mpr (List.drop_suffix _ _)
    obtain ⟨t, ht⟩ := hp
    have : rest = s.q.reverse.drop 1 ++ t := by
      have e2 := congrArg (List.drop 1) ht
      rw [hr, List.drop_append_of_le_length (by simp; omega)] at e2
      simpa using e2.symm
    rw [this, List.take_append_of_le_length (by simp; omega)]

/-- A counter that is sampled every second: the value of the window is what was added between the two samples. -/
theorem C148_added (x : Sample Int) (pre ops : List (Op Int)) (w : Int) (hw : w.toNat ≤ (S.after x pre).window) (r : Sample Int)
    (h : (S.after x (pre ++ ops)).get (· + ·) (some (· - ·)) w = .yes r) :
    ∃ (m : Nat) (latest oldest : Sample Int), 1 ≤ m ∧ (m : Int) ≤ w ∧ (hist x (pre ++ ops)).reverse[0]? = some latest ∧ (hist x (pre ++ ops)).reverse[m]? = some oldest ∧ r.data = latest.data - oldest.data ∧ (w.toNat ≤ (hist x (pre ++ ops)).length - (hist x pre).length → (m : Int) = w) := by
  rcases C148_window (· + ·) (some (· - ·)) x pre ops w hw with ⟨e, -⟩ | ⟨m, r', e, ⟨l, rest, o, h1, h2, -, h4⟩, h5, h6, h7⟩
  · rw [e] at h; cases h
  · rw [e] at h
    cases h
    exact ⟨m, l, o, h5, h6, by rw [h1]; rfl, h2, h4, fun hh => by omega⟩

/-- The size of a window only grows, and only to at most 3600. -/
theorem C148_size (x : Sample T) (ops : List (Op T)) (w : Int) :
    ((S.after x ops).setWindow w).window = (if 0 < w ∧ w ≤ 3600 then max (S.after x ops).window w.toNat else (S.after x ops).window) := by
  by_cases h : 0 < w ∧ w ≤ 3600
  · rw [if_pos h, S.setWindow, if_neg (by omega)]
    simp only []
    split <;> omega
  · rw [if_neg h, S.setWindow, if_pos (by omega)]

example : (S.after (⟨0, 0⟩ : Sample Int) [.set 2, .take ⟨5, 10⟩, .take ⟨9, 20⟩, .take ⟨10, 30⟩]).get (· + ·) (some (· - ·)) 2 = .yes ⟨5, 20⟩ := by decide +kernel

example : (S.after (⟨0, 0⟩ : Sample Int) [.set 2, .take ⟨5, 10⟩, .take ⟨9, 20⟩, .take ⟨10, 30⟩]).get max none 2 = .yes ⟨10, 20⟩ := by decide +kernel

end Verif.Tvar.Window
