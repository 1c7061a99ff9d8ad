import Verif.Tvar.Group

/-!
# The tree of exposed variables: paths

A checked path is a list of names, joined by slashes.
-/

namespace Verif.Tvar.Group

/-- a name between slashes -/
def Good (n : Bytes) : Prop := n ≠ [] ∧ slash ∉ n

/-- names with slashes between them -/
def joinS : Path → Bytes
  | [] => []
  | [n] => n
  | n :: m :: t => n ++ slash :: joinS (m :: t)

theorem joinS_cons {n : Bytes} {t : Path} (h : t ≠ []) : joinS (n :: t) = n ++ slash :: joinS t := by
  cases t with
  | nil => exact absurd rfl h
  | cons m t => rfl

theorem joinS_ne {c : Path} (hg : ∀ n, n ∈ c → Good n) (h : c ≠ []) : joinS c ≠ [] := by
  cases c with
  | nil => exact absurd rfl h
  | cons n t =>
    have := (hg n List.mem_cons_self).1
    by_cases ht : t = []
    · subst ht; exact this
    · rw [joinS_cons ht]; simp

theorem joinS_eq_nil {c : Path} (hg : ∀ n, n ∈ c → Good n) : joinS c = [] ↔ c = [] := by
  constructor
  · intro h
    by_cases hc : c = []
    · exact hc
    · exact absurd h (joinS_ne hg hc)
  · rintro rfl; rfl

theorem takeWhile_no {n t : Bytes} (h : slash ∉ n) : (n ++ slash :: t).takeWhile (· != slash) = n ∧ (n ++ slash :: t).dropWhile (· != slash) = slash :: t := by
  induction n with
  | nil => simp
  | cons a n ih =>
    simp only [List.mem_cons, not_or] at h
    obtain ⟨h1, h2⟩ := ih h.2
    have : (a != slash) = true := by simp; exact fun e => h.1 e.symm
    simp only [List.cons_append, List.takeWhile_cons, List.dropWhile_cons, this, if_true, h1, h2, and_self]

theorem takeWhile_no' {n : Bytes} (h : slash ∉ n) : n.takeWhile (· != slash) = n ∧ n.dropWhile (· != slash) = [] := by
  induction n with
  | nil => simp
  | cons a n ih =>
    simp only [List.mem_cons, not_or] at h
    obtain ⟨h1, h2⟩ := ih h.2
    have : (a != slash) = true := by simp; exact fun e => h.1 e.symm
    simp only [List.takeWhile_cons, List.dropWhile_cons, this, if_true, h1, h2, and_self]

theorem splitFirst_join {n : Bytes} (h : slash ∉ n) (t : Path) : splitFirst (joinS (n :: t)) = (n, joinS t) := by
  unfold splitFirst
  by_cases ht : t = []
  · subst ht
    obtain ⟨a, b⟩ := takeWhile_no' h
    simp [joinS, a, b]
  · rw [joinS_cons ht]
    obtain ⟨a, b⟩ := takeWhile_no (t := joinS t) h
    rw [a, b]
    rfl

theorem pieces_join {c : Path} (hg : ∀ n, n ∈ c → Good n) : pieces (joinS c) = c := by
  induction c with
  | nil => rw [pieces]; simp [joinS]
  | cons n t ih =>
    obtain ⟨g1, g2⟩ := hg n List.mem_cons_self
    rw [pieces, dif_neg (joinS_ne hg (by simp)), splitFirst_join g2, if_neg g1, ih fun m hm => hg m (List.mem_cons_of_mem _ hm)]
    rfl

theorem dbl_append (a b : Bytes) (h : dbl (a ++ b) = false) : dbl b = false := by
  induction a with
  | nil => exact h
  | cons x a ih =>
    apply ih
    cases hab : a ++ b with
    | nil => rfl
    | cons y t =>
      rw [List.cons_append, hab] at h
      simp only [dbl, Bool.or_eq_false_iff] at h
      exact h.2

theorem split_at (p : Bytes) : (slash ∉ p) ∨ ∃ n r, slash ∉ n ∧ p = n ++ slash :: r := by
  induction p with
  | nil => left; simp
  | cons a p ih =>
    by_cases ha : a = slash
    · right; exact ⟨[], p, by simp, by simp [ha]⟩
    · rcases ih with h | ⟨n, r, h, e⟩
      · left; simp only [List.mem_cons, not_or]; exact ⟨fun e => ha e.symm, h⟩
      · right; exact ⟨a :: n, r, by simp only [List.mem_cons, not_or]; exact ⟨fun e => ha e.symm, h⟩, by simp [e]⟩

/-- A checked relative path is a list of names. -/
theorem rel_join : ∀ k (p : Bytes), p.length ≤ k → dbl p = false → p.head? ≠ some slash → p.getLast? ≠ some slash → ∃ c, (∀ n, n ∈ c → Good n) ∧ p = joinS c := by
  intro k
  induction k with
  | zero => intro p hp _ _ _; exact ⟨[], by simp, List.length_eq_zero_iff.mp (by omega)⟩
  | succ k ih =>
    intro p hp hd hh hl
    by_cases hp0 : p = []
    · exact ⟨[], by simp, hp0⟩
    rcases split_at p with h | ⟨n, r, hn, e⟩
    · exact ⟨[p], by simpa using ⟨hp0, h⟩, rfl⟩
    · have hn0 : n ≠ [] := by rintro rfl; simp [e] at hh
      have hr0 : r ≠ [] := by rintro rfl; simp [e] at hl
      have hlen : r.length ≤ k := by rw [e] at hp; simp at hp; omega
      have hd' : dbl (slash :: r) = false := dbl_append n _ (e ▸ hd)
      obtain ⟨c, hc, hc'⟩ := ih r hlen (dbl_append [slash] r hd') (by
        cases r with
        | nil => simp
        | cons x r => simp only [dbl, Bool.or_eq_false_iff, beq_self_eq_true, Bool.true_and] at hd'; simpa using hd'.1) (by
        rw [e, List.getLast?_append] at hl
        cases r with
        | nil => simp
        | cons x r => simpa [List.getLast?_cons] using hl)
      have hcne : c ≠ [] := by rintro rfl; exact hr0 hc'
      refine ⟨n :: c, ?_, by rw [joinS_cons hcne, ← hc', e]⟩
      intro m hm
      rcases List.mem_cons.mp hm with rfl | hm
      · exact ⟨hn0, hn⟩
      · exact hc m hm

theorem dbl_good {n : Bytes} (h : slash ∉ n) : dbl n = false := by
  induction n with
  | nil => rfl
  | cons a n ih =>
    simp only [List.mem_cons, not_or] at h
    cases n with
    | nil => rfl
    | cons b n =>
      simp only [dbl, Bool.or_eq_false_iff]
      refine ⟨?_, ih h.2⟩
      have : (a == slash) = false := by simp; exact fun e => h.1 e.symm
      simp [this]

theorem dbl_join_aux {n r : Bytes} (h : slash ∉ n) (hr : dbl r = false) (hh : r.head? ≠ some slash) : dbl (n ++ slash :: r) = false := by
  induction n with
  | nil =>
    cases r with
    | nil => rfl
    | cons x r =>
      simp only [List.nil_append, dbl, Bool.or_eq_false_iff]
      refine ⟨?_, hr⟩
      simpa using hh
  | cons a n ih =>
    simp only [List.mem_cons, not_or] at h
    have ha : (a == slash) = false := by simp; exact fun e => h.1 e.symm
    have := ih h.2
    cases hx : n ++ slash :: r with
    | nil => simp at hx
    | cons y t =>
      rw [List.cons_append, hx]
      rw [hx] at this
      simp [dbl, ha, this]

theorem getLast_no {n : Bytes} (h : slash ∉ n) : n.getLast? ≠ some slash := fun e => h (List.mem_of_getLast? e)

theorem head_no {n : Bytes} (h : slash ∉ n) : n.head? ≠ some slash := fun e => h (List.mem_of_head? e)

/-- and such lists are checked paths -/
theorem join_facts {c : Path} (hg : ∀ n, n ∈ c → Good n) : dbl (joinS c) = false ∧ (joinS c).head? ≠ some slash ∧ (joinS c).getLast? ≠ some slash := by
  induction c with
  | nil => simp [joinS, dbl]
  | cons n t ih =>
    obtain ⟨g1, g2⟩ := hg n List.mem_cons_self
    have hg' := fun m hm => hg m (List.mem_cons_of_mem n hm)
    obtain ⟨a, b, c⟩ := ih hg'
    by_cases ht : t = []
    · subst ht; exact ⟨dbl_good g2, head_no g2, getLast_no g2⟩
    · rw [joinS_cons ht]
      refine ⟨dbl_join_aux g2 a b, ?_, ?_⟩
      · cases n with
        | nil => exact absurd rfl g1
        | cons x n => simp only [List.mem_cons, not_or] at g2; simp; exact fun e => g2.1 e.symm
      · have hne := joinS_ne hg' ht
        rw [List.getLast?_append]
        cases hj : joinS t with
        | nil => exact absurd hj hne
        | cons x r => rw [hj] at c; simpa [List.getLast?_cons] using c

theorem checkRel_join {c : Path} (hg : ∀ n, n ∈ c → Good n) : checkRel (joinS c) = true := by
  obtain ⟨a, b, d⟩ := join_facts hg
  simp [checkRel, checkPath, a, b, d]

theorem checkRel_exists {p : Bytes} (h : checkRel p = true) : ∃ c, (∀ n, n ∈ c → Good n) ∧ p = joinS c := by
  simp only [checkRel, checkPath, Bool.and_eq_true, Bool.or_eq_true, decide_eq_true_eq, bne_iff_ne, Bool.not_eq_true'] at h
  obtain ⟨⟨h1, h2⟩, h3⟩ := h
  refine rel_join _ p (Nat.le_refl _) h2 h3 ?_
  rcases h1 with h1 | h1
  · cases p with
    | nil => simp
    | cons a p =>
      have : p = [] := List.length_eq_zero_iff.mp (by rw [List.length_cons] at h1; omega)
      subst this
      simpa using h3
  · exact h1

theorem checkAbs_join {c : Path} (hg : ∀ n, n ∈ c → Good n) (h : c ≠ []) : checkAbs (slash :: joinS c) = true := by
  obtain ⟨a, b, d⟩ := join_facts hg
  have hne := joinS_ne hg h
  have h1 : dbl (slash :: joinS c) = false := by
    have := dbl_join_aux (n := []) (by simp) a b
    simpa using this
  have h2 : (slash :: joinS c).getLast? ≠ some slash := by
    cases hj : joinS c with
    | nil => exact absurd hj hne
    | cons x r => rw [hj] at d; simpa [List.getLast?_cons] using d
  simp [checkAbs, checkPath, h1, h2]

theorem joinS_append {a b : Path} (ha : a ≠ []) (hb : b ≠ []) : joinS (a ++ b) = joinS a ++ slash :: joinS b := by
  induction a with
  | nil => exact absurd rfl ha
  | cons n a ih =>
    by_cases h : a = []
    · subst h; rw [List.singleton_append, joinS_cons hb]; rfl
    · rw [List.cons_append, joinS_cons (by simp [h]), ih h, joinS_cons h]; simp

theorem splitLast_join {d : Path} {n : Bytes} (hn : slash ∉ n) : splitLast (joinS (d ++ [n])) = (joinS d, n) := by
  unfold splitLast
  by_cases hd : d = []
  · subst hd
    rw [List.nil_append]
    exact if_neg hn
  · rw [joinS_append hd (by simp)]
    have hr : slash ∉ n.reverse := by simpa using hn
    rw [if_pos (by simp)]
    have : (joinS d ++ slash :: joinS [n]).reverse = n.reverse ++ slash :: (joinS d).reverse := by simp [joinS]
    rw [this]
    obtain ⟨a, b⟩ := takeWhile_no (t := (joinS d).reverse) hr
    rw [a, b]
    simp

theorem absPath_eq {c : Path} (hg : ∀ n, n ∈ c → Good n) : absPath c = slash :: joinS c := by
  have key : ∀ (t : Path) (a : Path), (∀ n, n ∈ a → Good n) → (∀ n, n ∈ t → Good n) → t.foldl joinPath (slash :: joinS a) = slash :: joinS (a ++ t) := by
    intro t
    induction t with
    | nil => intro a _ _; simp
    | cons n t ih =>
      intro a ha ht
      obtain ⟨g1, g2⟩ := ht n List.mem_cons_self
      rw [List.foldl_cons]
      have : joinPath (slash :: joinS a) n = slash :: joinS (a ++ [n]) := by
        unfold joinPath
        simp only [if_neg (getLast_no g2), if_neg g1]
        by_cases h : a = []
        · subst h; simp [joinS]
        · have hl : (slash :: joinS a).getLast? ≠ some slash := by
            have hne := joinS_ne ha h
            obtain ⟨-, -, d⟩ := join_facts ha
            cases hj : joinS a with
            | nil => exact absurd hj hne
            | cons x r => rw [hj] at d; simpa [List.getLast?_cons] using d
          rw [if_neg hl, joinS_append h (by simp)]
          rfl
      rw [this, ih (a ++ [n]) (by
        intro m hm
        rcases List.mem_append.mp hm with h | h
        · exact ha m h
        · rw [List.mem_singleton.mp h]; exact ⟨g1, g2⟩) (fun m hm => ht m (List.mem_cons_of_mem _ hm))]
      simp
  have := key c [] (by simp) hg
  simpa [absPath, joinS] using this

/-- The check at the end of `CreateUpto` holds. -/
theorem suffix_ok {cur r : Path} (h : ∀ n, n ∈ cur ++ r → Good n) : (joinS r).isSuffixOf (absPath (cur ++ r)) = true := by
  rw [absPath_eq h, List.isSuffixOf_iff_suffix]
  by_cases hr : r = []
  · subst hr; exact List.nil_suffix
  · by_cases hc : cur = []
    · subst hc; exact List.suffix_cons _ _
    · rw [joinS_append hc hr]
      exact ⟨slash :: (joinS cur ++ [slash]), by simp⟩

/-- `FindLowest` goes as far as there are groups. -/
theorem findLowest_join (s : S) : ∀ (c : Path) (cur : Path), (∀ n, n ∈ c → Good n) →
    ∃ a b, c = a ++ b ∧ findLowest s cur (joinS c) = (cur ++ a, joinS b) ∧ (∀ a1 m a2, a = a1 ++ m :: a2 → s.node (cur ++ a1 ++ [m]) = true) ∧ (∀ n b', b = n :: b' → s.node (cur ++ a ++ [n]) = false) := by
  intro c
  induction c with
  | nil =>
    intro cur _
    refine ⟨[], [], rfl, ?_, by simp, by simp⟩
    rw [findLowest]; simp [joinS]
  | cons n t ih =>
    intro cur hg
    obtain ⟨g1, g2⟩ := hg n List.mem_cons_self
    rw [findLowest, dif_neg (joinS_ne hg (by simp)), splitFirst_join g2]
    by_cases hn : s.node (cur ++ [n]) = true
    · rw [if_pos hn]
      obtain ⟨a, b, e1, e2, e3, e4⟩ := ih (cur ++ [n]) fun m hm => hg m (List.mem_cons_of_mem _ hm)
      refine ⟨n :: a, b, by simp [e1], by rw [e2]; simp, ?_, ?_⟩
      · intro a1 m a2 h
        cases a1 with
        | nil => simp only [List.nil_append, List.cons.injEq] at h; rw [← h.1]; simpa using hn
        | cons x a1 =>
          simp only [List.cons_append, List.cons.injEq] at h
          have := e3 a1 m a2 h.2
          rw [← h.1]
          simpa using this
      · intro m b' h
        have := e4 m b' h
        simpa using this
    · rw [if_neg hn]
      refine ⟨[], n :: t, rfl, by simp, by simp, ?_⟩
      intro m b' h
      simp only [List.cons.injEq] at h
      rw [← h.1]
      simpa using hn

end Verif.Tvar.Group
