import Verif.Tvar.GroupProps2

/-!
# The tree of exposed variables: what users see (C155, C156)

Paths are stated by their names: `joinS` puts slashes between names, `Good` says that a name is not empty and has no slash.
-/

namespace Verif.Tvar.Group

theorem tryGet_join (s : S) {abs : Bytes} (h0 : 0 ∉ abs) {c : Path} (hc : c ≠ []) (hg : ∀ n, n ∈ c → Good n) (he : esc abs = slash :: joinS c) :
    ∃ a b, c = a ++ b ∧ (∀ a1 m a2, a = a1 ++ m :: a2 → s.node (a1 ++ [m]) = true) ∧ (∀ n b', b = n :: b' → s.node (a ++ [n]) = false) ∧
      tryGet s abs = match b with
        | [] => .dump a
        | n :: b' => match s.leaf a n with
          | some v => .leaf v (joinS b')
          | none => .nothing := by
  obtain ⟨a, b, e1, e2, e3, e4⟩ := findLowest_join s c [] hg
  simp only [List.nil_append] at e2 e3 e4
  refine ⟨a, b, e1, e3, e4, ?_⟩
  have hne := joinS_ne hg hc
  unfold tryGet
  simp only [h0, he, if_false, checkAbs_join hg hc, List.cons_ne_nil, Bool.not_true, Bool.false_eq_true, List.cons.injEq, true_and, hne, List.drop_succ_cons, List.drop_zero, checkRel_join hg, e2]
  cases b with
  | nil => simp [joinS, splitFirst]
  | cons n b' =>
    have gn := hg n (by rw [e1]; simp)
    simp only [splitFirst_join gn.2 b', gn.1, if_false]
    cases s.leaf a n <;> rfl

/-- A variable is found under its path, and gets the rest of the path. -/
theorem C155_get {s : S} {hs} (hr : Reach s hs) {p : Path} {n : Bytes} {v : Nat} (hl : s.leaf p n = some v) {abs : Bytes} (h0 : 0 ∉ abs) {rest : Path} (hg : ∀ m, m ∈ p ++ n :: rest → Good m)
    (he : esc abs = slash :: joinS (p ++ n :: rest)) : tryGet s abs = .leaf v (joinS rest) := by
  have i := inv_reach hr
  have hsome : (s.leaf p n).isSome = true := by rw [hl]; rfl
  have hx := i.excl p n hsome
  obtain ⟨a, b, e1, e3, e4, e5⟩ := tryGet_join s h0 (by simp) hg he
  have key : a = p ∧ b = n :: rest := by
    rcases List.append_eq_append_iff.mp e1 with ⟨z, h1, h2⟩ | ⟨z, h1, h2⟩
    · cases z with
      | nil => exact ⟨by simpa using h1, by simpa using h2.symm⟩
      | cons w z =>
        simp only [List.cons_append, List.cons.injEq] at h2
        have := e3 p n z (by rw [h1, h2.1])
        rw [hx] at this
        simp at this
    · cases z with
      | nil => exact ⟨by simpa using h1.symm, by simpa using h2⟩
      | cons w z =>
        have h3 := e4 w (z ++ n :: rest) h2
        have h4 : Dir s ((a ++ [w]) ++ z) := by
          have := i.dir p n hsome
          rw [h1] at this
          simpa [Dir] using this
        rcases i.prefix z (a ++ [w]) h4 with h | h
        · simp at h
        · rw [h] at h3; simp at h3
  rw [e5, key.2, key.1]
  simp [hl]

/-- A group is dumped. -/
theorem C155_dump {s : S} {hs} (hr : Reach s hs) {p : Path} (hn : s.node p = true) {abs : Bytes} (h0 : 0 ∉ abs) (he : esc abs = slash :: joinS p) : tryGet s abs = .dump p := by
  have i := inv_reach hr
  obtain ⟨hne, hg⟩ := i.good p hn
  obtain ⟨a, b, e1, e3, e4, e5⟩ := tryGet_join s h0 hne hg he
  cases b with
  | nil => rw [e5]; simp at e1; rw [e1]
  | cons w z =>
    exfalso
    have h3 := e4 w z rfl
    have h4 : Dir s ((a ++ [w]) ++ z) := Or.inr (by rw [e1] at hn; simpa using hn)
    rcases i.prefix z (a ++ [w]) h4 with h | h
    · simp at h
    · rw [h] at h3; simp at h3

/-- The whole tree. -/
theorem C155_root (s : S) : tryGet s [slash] = .dump [] := by rfl

theorem tryGet_form {s : S} {abs : Bytes} (h : tryGet s abs ≠ .bad) : esc abs = [slash] ∨ ∃ c, c ≠ [] ∧ (∀ n, n ∈ c → Good n) ∧ 0 ∉ abs ∧ esc abs = slash :: joinS c := by
  by_cases h0 : 0 ∈ abs
  · simp [tryGet, h0] at h
  by_cases h1 : esc abs = []
  · simp [tryGet, h0, h1] at h
  by_cases h2 : checkAbs (esc abs) = true
  · by_cases h3 : esc abs = [slash]
    · exact Or.inl h3
    · by_cases h4 : checkRel ((esc abs).drop 1) = true
      · right
        obtain ⟨c, hc, e⟩ := checkRel_exists h4
        cases ha : esc abs with
        | nil => exact absurd ha h1
        | cons x t =>
          rw [ha] at h2 h3 e
          simp only [checkAbs, List.isEmpty_cons, List.head?_cons, Bool.false_or, Bool.and_eq_true, beq_iff_eq, Option.some.injEq] at h2
          simp only [List.drop_succ_cons, List.drop_zero] at e
          rw [h2.2] at h3 ⊢
          refine ⟨c, fun hz => h3 ?_, hc, h0, by rw [e]⟩
          rw [e, hz]; rfl
      · simp [tryGet, h0, h1, h2, h3] at h
        rw [List.drop_one] at h4
        exact absurd h.1 h4
  · simp [tryGet, h0, h1, h2] at h

/-- What is found under a path is a variable of the path. -/
theorem C155_sound {s : S} {abs rest : Bytes} {v : Nat} (h : tryGet s abs = .leaf v rest) :
    ∃ p n r, (∀ m, m ∈ p ++ n :: r → Good m) ∧ esc abs = slash :: joinS (p ++ n :: r) ∧ rest = joinS r ∧ s.leaf p n = some v := by
  rcases tryGet_form (by rw [h]; simp) with e | ⟨c, h1, h2, h3, h4⟩
  · exfalso
    by_cases h0 : 0 ∈ abs
    · simp [tryGet, h0] at h
    · simp [tryGet, h0, e, checkAbs, checkPath, dbl] at h
  · obtain ⟨a, b, e1, e3, e4, e5⟩ := tryGet_join s h3 h1 h2 h4
    rw [h] at e5
    cases b with
    | nil => simp at e5
    | cons n b' =>
      cases hl : s.leaf a n with
      | none => simp [hl] at e5
      | some w =>
        simp only [hl, Got.leaf.injEq] at e5
        exact ⟨a, n, b', by rw [← e1]; exact h2, by rw [h4, e1], e5.2, by rw [e5.1]; exact hl⟩

/-- `Add` of the path of the names `d`, `n` to the group `cur`: it is refused if a name on the way is a variable, or the last one a variable or a group; otherwise the variable is there. No assertion fails. -/
theorem C155_add {s : S} {hs} (hr : Reach s hs) {cur d : Path} {n : Bytes} (hd : cur = [] ∨ s.node cur = true) (hg : ∀ m, m ∈ d ++ [n] → Good m) {rel : Bytes} (h0 : 0 ∉ rel) (he : esc rel = joinS (d ++ [n])) (v : Nat) :
    ((∀ a m b, d = a ++ m :: b → s.leaf (cur ++ a) m = none) ∧ s.leaf (cur ++ d) n = none ∧ s.node (cur ++ d ++ [n]) = false ∧
      (add s cur rel v).2 = .ok (cur ++ d, n) ∧ Reach (add s cur rel v).1 ((cur ++ d, n) :: hs) ∧ (add s cur rel v).1.leaf (cur ++ d) n = some v ∧
      ∀ q m, (q, m) ≠ (cur ++ d, n) → (add s cur rel v).1.leaf q m = s.leaf q m) ∨
    (((∃ a m b, d = a ++ m :: b ∧ (s.leaf (cur ++ a) m).isSome = true) ∨ (s.leaf (cur ++ d) n).isSome = true ∨ s.node (cur ++ d ++ [n]) = true) ∧
      (add s cur rel v).2 = .refused ∧ Reach (add s cur rel v).1 hs ∧ (add s cur rel v).1.leaf = s.leaf) := by
  have i := inv_reach hr
  obtain ⟨k1, k2⟩ := add_ok i hd (fun m hm => hg m (List.mem_append_left _ hm)) (Or.inr (hg n (by simp))) h0 he v
  by_cases hx : Free s cur d ∧ s.leaf (cur ++ d) n = none ∧ s.node (cur ++ d ++ [n]) = false
  · left
    obtain ⟨r1, r2, r3⟩ := k1 hx
    refine ⟨hx.1, hx.2.1, hx.2.2, r1, hr.step (.added cur rel v hd (Prod.ext rfl r1)), by rw [r3]; simp, fun q m hq => ?_⟩
    rw [r3]
    have : ¬ (q = cur ++ d ∧ m = n) := fun e => hq (by rw [e.1, e.2])
    simp [this]
  · right
    obtain ⟨r1, r2, r3⟩ := k2 hx
    refine ⟨?_, r1, hr.step (.failed cur rel v hd (by rw [r1]; simp)), r3⟩
    by_cases hf : Free s cur d
    · right
      cases h1 : s.leaf (cur ++ d) n with
      | some _ => left; rfl
      | none =>
        right
        cases h2 : s.node (cur ++ d ++ [n]) with
        | true => rfl
        | false => exact absurd ⟨hf, h1, h2⟩ hx
    · left
      have : ∃ a m b, ¬ (d = a ++ m :: b → s.leaf (cur ++ a) m = none) := by
        refine Classical.byContradiction fun hno => hf ?_
        intro a m b
        exact Classical.byContradiction fun hh => hno ⟨a, m, b, hh⟩
      obtain ⟨a, m, b, hh⟩ := this
      refine ⟨a, m, b, Classical.byContradiction fun h => hh fun e => absurd e h, ?_⟩
      cases h1 : s.leaf (cur ++ a) m with
      | some _ => rfl
      | none => exact absurd (fun _ => h1) hh

/-- Variables found before are found after a call of `Add`, with the same rest. -/
theorem C155_keep {s : S} {hs} (hr : Reach s hs) {cur : Path} (hd : cur = [] ∨ s.node cur = true) {d : Path} {n : Bytes} (hg : ∀ m, m ∈ d ++ [n] → Good m) {rel : Bytes} (h0 : 0 ∉ rel) (he : esc rel = joinS (d ++ [n])) (v : Nat)
    {abs rest : Bytes} {w : Nat} (h0' : 0 ∉ abs) (h : tryGet s abs = .leaf w rest) : tryGet (add s cur rel v).1 abs = .leaf w rest := by
  obtain ⟨p, m, r, g, e, er, hl⟩ := C155_sound h
  rw [er]
  rcases C155_add hr hd hg h0 he v with ⟨a1, a2, a3, a4, a5, a6, a7⟩ | ⟨-, -, a5, a6⟩
  · refine C155_get a5 ?_ h0' g e
    rw [a7 p m fun hx => ?_]
    · exact hl
    · simp only [Prod.mk.injEq] at hx
      rw [hx.1, hx.2, a2] at hl
      simp at hl
  · exact C155_get a5 (by rw [a6]; exact hl) h0' g e

/-- The assertion at the end of a handle holds; the variable is not found any more, and the path may be used again. -/
theorem C155_handles {s : S} {hs} (hr : Reach s hs) {p : Path} {n : Bytes} (hm : (p, n) ∈ hs) :
    (remove s (p, n)).2 = true ∧
    (∀ abs rest, 0 ∉ abs → (∀ m, m ∈ p ++ n :: rest → Good m) → esc abs = slash :: joinS (p ++ n :: rest) → tryGet (remove s (p, n)).1 abs = .nothing) ∧
    (∀ rel v, 0 ∉ rel → Good n → esc rel = joinS (p ++ [n]) → (add (remove s (p, n)).1 [] rel v).2 = .ok (p, n)) := by
  have i := inv_reach hr
  have hr' : Reach (remove s (p, n)).1 (hs.erase (p, n)) := hr.step (.removed hm)
  have i' := inv_reach hr'
  have hsome := (i.hand (p, n)).mp hm
  simp only at hsome
  have hx := i.excl p n hsome
  have hdir := i.dir p n hsome
  refine ⟨hsome, fun abs rest h0 hg he => ?_, fun rel v h0 hgn he => ?_⟩
  · obtain ⟨a, b, e1, e3, e4, e5⟩ := tryGet_join (remove s (p, n)).1 h0 (by simp) hg he
    have key : a = p ∧ b = n :: rest := by
      rcases List.append_eq_append_iff.mp e1 with ⟨z, h1, h2⟩ | ⟨z, h1, h2⟩
      · cases z with
        | nil => exact ⟨by simpa using h1, by simpa using h2.symm⟩
        | cons w z =>
          simp only [List.cons_append, List.cons.injEq] at h2
          have := e3 p n z (by rw [h1, h2.1])
          simp only [remove] at this
          rw [hx] at this
          simp at this
      · cases z with
        | nil => exact ⟨by simpa using h1.symm, by simpa using h2⟩
        | cons w z =>
          have h3 := e4 w (z ++ n :: rest) h2
          have h4 : Dir s ((a ++ [w]) ++ z) := by
            rw [h1] at hdir
            simpa [Dir] using hdir
          rcases i.prefix z (a ++ [w]) h4 with h | h
          · simp at h
          · simp only [remove] at h3
            rw [h] at h3; simp at h3
    rw [e5, key.2, key.1]
    simp [remove]
  · have hgp : ∀ m, m ∈ p ++ [n] → Good m := by
      intro m hm'
      rcases List.mem_append.mp hm' with h | h
      · exact i.dirGood hdir m h
      · rw [List.mem_singleton.mp h]; exact hgn
    rcases C155_add hr' (Or.inl rfl) hgp h0 he v with ⟨-, -, -, a4, -⟩ | ⟨a, -⟩
    · simpa using a4
    · exfalso
      simp only [List.nil_append] at a
      rcases a with ⟨x, m, y, h1, h2⟩ | h | h
      · have h3 := i'.excl x m h2
        have h4 : Dir s ((x ++ [m]) ++ y) := by
          rw [h1] at hdir
          simpa [Dir] using hdir
        rcases i.prefix y (x ++ [m]) h4 with h | h
        · simp at h
        · simp only [remove] at h3
          rw [h] at h3; simp at h3
      · simp [remove] at h
      · simp only [remove] at h
        rw [hx] at h; simp at h

/-- A handle is held for each variable, once. -/
theorem C155_held {s : S} {hs} (hr : Reach s hs) : hs.Nodup ∧ ∀ p n, (p, n) ∈ hs ↔ (s.leaf p n).isSome = true :=
  ⟨(inv_reach hr).nodup, fun p n => (inv_reach hr).hand (p, n)⟩

/-- `FindOrCreate` of the path of the names `c`: the group is there with all groups on the way, unless one of the names is a variable. -/
theorem C155_create {s : S} {hs} (hr : Reach s hs) {c : Path} (hg : ∀ m, m ∈ c → Good m) {abs : Bytes} (h0 : 0 ∉ abs) (he : esc abs = slash :: joinS c) :
    Reach (findOrCreate s abs).1 hs ∧ (findOrCreate s abs).1.leaf = s.leaf ∧
    (((∀ a m b, c = a ++ m :: b → s.leaf a m = none) ∧ (findOrCreate s abs).2 = .ok c ∧ (c = [] ∨ (findOrCreate s abs).1.node c = true) ∧
        ∀ p, (findOrCreate s abs).1.node p = true ↔ s.node p = true ∨ (p ≠ [] ∧ ∃ b, c = p ++ b)) ∨
      ((∃ a m b, c = a ++ m :: b ∧ (s.leaf a m).isSome = true) ∧ (findOrCreate s abs).2 = .refused)) := by
  have i := inv_reach hr
  have hr' : Reach (findOrCreate s abs).1 hs := hr.step (.create abs)
  have hck : checkAbs (slash :: joinS c) = true := by
    by_cases hc : c = []
    · subst hc; decide
    · exact checkAbs_join hg hc
  have e : findOrCreate s abs = createUpto s [] (joinS c) := by
    unfold findOrCreate
    simp [h0, he, hck]
  obtain ⟨a1, a2, a3, a4, a5⟩ := createUpto_ok i (cur := []) (d := c) (Or.inl rfl) hg
  rw [e] at hr' ⊢
  refine ⟨hr', a2, ?_⟩
  by_cases hf : Free s [] c
  · left
    obtain ⟨b1, b2, b3⟩ := a4 hf
    simp only [List.nil_append] at b1 b2 b3
    refine ⟨fun a m b h => by simpa using hf a m b h, b1, b2, fun p => ⟨fun hp => ?_, fun hp => ?_⟩⟩
    · rcases b3 p hp with h | ⟨a, m, b', h1, h2⟩
      · exact Or.inl h
      · right
        exact ⟨by rw [h2]; simp, b', by rw [h1, h2]; simp⟩
    · rcases hp with h | ⟨h1, b, h2⟩
      · exact a3 p h
      · rw [h2] at b2
        rcases (inv_reach hr').prefix b p (by rw [h2]; exact b2) with h | h
        · exact absurd h h1
        · exact h
  · right
    refine ⟨?_, a5 hf⟩
    have : ∃ a m b, ¬ (c = a ++ m :: b → s.leaf a m = none) := by
      refine Classical.byContradiction fun hno => hf ?_
      intro a m b
      rw [List.nil_append]
      exact Classical.byContradiction fun hh => hno ⟨a, m, b, hh⟩
    obtain ⟨a, m, b, hh⟩ := this
    refine ⟨a, m, b, Classical.byContradiction fun h => hh fun e => absurd e h, ?_⟩
    cases h1 : s.leaf a m with
    | some _ => rfl
    | none => exact absurd (fun _ => h1) hh

/-- An assertion of `Add` fails only for a path with a zero byte, or that is not one of names. -/
theorem C155_bad {s : S} {hs} (hr : Reach s hs) {cur : Path} (hd : cur = [] ∨ s.node cur = true) (rel : Bytes) (v : Nat) :
    (add s cur rel v).2 = .bad ↔ 0 ∈ rel ∨ ∀ c, (∀ m, m ∈ c → Good m) → esc rel ≠ joinS c := by
  by_cases h0 : 0 ∈ rel
  · simp [add, h0]
  by_cases hk : checkRel (esc rel) = true
  · obtain ⟨c, hc, e⟩ := checkRel_exists hk
    refine ⟨fun h => ?_, fun h => ?_⟩
    · exfalso
      have key : ∀ d n, (∀ m, m ∈ d → Good m) → (n = [] ∧ d = [] ∨ Good n) → esc rel = joinS (d ++ [n]) → False := by
        intro d n hg hn e
        obtain ⟨k1, k2⟩ := add_ok (inv_reach hr) hd hg hn h0 e v
        by_cases hx : Free s cur d ∧ s.leaf (cur ++ d) n = none ∧ s.node (cur ++ d ++ [n]) = false
        · have := (k1 hx).1
          rw [h] at this
          simp at this
        · have := (k2 hx).1
          rw [h] at this
          simp at this
      rcases rel_form hk with e | ⟨d, n, hg, hn, e⟩
      · exact key [] [] (by simp) (Or.inl ⟨rfl, rfl⟩) (by rw [e]; rfl)
      · exact key d n hg (Or.inr hn) e
    · rcases h with h | h
      · exact absurd h h0
      · exact absurd e (h c hc)
  · have : (add s cur rel v).2 = .bad := by simp [add, h0, hk]
    refine ⟨fun _ => Or.inr fun c hc e => hk ?_, fun _ => this⟩
    rw [e]
    exact checkRel_join hc

/-- How a path is written: a zero byte is an escaped slash. -/
def written (x : Bytes) : Bytes := x.flatMap fun c => if c = 0 then [92, slash] else [c]

/-- there is a backslash before a slash -/
def amb : Bytes → Bool
  | a :: b :: t => (a == 92 && b == slash) || amb (b :: t)
  | _ => false

theorem written_zero (x : Bytes) : 0 ∉ written x := by
  intro h
  obtain ⟨c, _, hc⟩ := List.mem_flatMap.mp h
  split at hc
  · simp [slash] at hc
  · simp only [List.mem_singleton] at hc
    rename_i hn
    exact hn hc.symm

theorem esc_written : ∀ x : Bytes, amb x = false → esc (written x) = x
  | [], _ => rfl
  | [a], _ => by
    by_cases ha : a = 0
    · subst ha; rfl
    · simp [written, ha, esc]
  | a :: b :: t, h => by
    simp only [amb, Bool.or_eq_false_iff, Bool.and_eq_false_imp, beq_iff_eq, beq_eq_false_iff_ne] at h
    have ih := esc_written (b :: t) h.2
    by_cases ha : a = 0
    · have : written (a :: b :: t) = 92 :: slash :: written (b :: t) := by simp [written, ha]
      rw [this, esc, if_pos ⟨rfl, rfl⟩, ih, ha]
    · have e : written (a :: b :: t) = a :: written (b :: t) := by simp [written, ha]
      rw [e]
      by_cases hb : b = 0
      · have e2 : written (b :: t) = 92 :: slash :: written t := by simp [written, hb]
        rw [e2] at ih ⊢
        rw [esc, if_neg (by simp [slash]), ih]
      · have e2 : written (b :: t) = b :: written t := by simp [written, hb]
        rw [e2] at ih ⊢
        rw [esc, if_neg (fun hh => h.1 hh.1 hh.2), ih]

/-- Every path without an ambiguous backslash can be written, and then is read back. -/
theorem C155_written (x : Bytes) (h : amb x = false) : 0 ∉ written x ∧ esc (written x) = x := ⟨written_zero x, esc_written x h⟩

theorem esc_head : ∀ t : Bytes, (esc t).head? = some slash → t.head? = some slash
  | [], h => by simp [esc] at h
  | [a], h => by simpa [esc] using h
  | a :: b :: t, h => by
    rw [esc] at h
    split at h
    · simp [slash] at h
    · simpa using h

theorem esc_ne : ∀ t : Bytes, t ≠ [] → esc t ≠ []
  | [], h => absurd rfl h
  | [a], _ => by simp [esc]
  | a :: b :: t, _ => by rw [esc]; split <;> simp

theorem esc_last : ∀ t : Bytes, (esc t).getLast? = some slash → t.getLast? = some slash
  | [], h => by simp [esc] at h
  | [a], h => by simpa [esc] using h
  | a :: b :: t, h => by
    rw [esc] at h
    split at h
    · cases t with
      | nil => simp [esc, slash] at h
      | cons c t =>
        have hne := esc_ne (c :: t) (by simp)
        cases he : esc (c :: t) with
        | nil => exact absurd he hne
        | cons y ys =>
          rw [he, List.getLast?_cons_cons, ← he] at h
          have := esc_last (c :: t) h
          simpa [List.getLast?_cons_cons] using this
    · have hne := esc_ne (b :: t) (by simp)
      cases he : esc (b :: t) with
      | nil => exact absurd he hne
      | cons y ys =>
        rw [he, List.getLast?_cons_cons, ← he] at h
        have := esc_last (b :: t) h
        simpa [List.getLast?_cons_cons] using this

theorem dbl_cons {a : UInt8} {t : Bytes} : dbl (a :: t) = false ↔ (a = slash → t.head? ≠ some slash) ∧ dbl t = false := by
  cases t with
  | nil => simp [dbl]
  | cons b t =>
    simp only [dbl, Bool.or_eq_false_iff, List.head?_cons, ne_eq, Option.some.injEq]
    by_cases h1 : a = slash <;> by_cases h2 : b = slash <;> simp [h1, h2]

theorem esc_dbl : ∀ t : Bytes, dbl t = false → dbl (esc t) = false
  | [], _ => rfl
  | [a], _ => rfl
  | a :: b :: t, h => by
    obtain ⟨h1, h2⟩ := dbl_cons.mp h
    rw [esc]
    split
    · refine dbl_cons.mpr ⟨fun e => absurd e (by simp [slash]), esc_dbl t (dbl_cons.mp h2).2⟩
    · refine dbl_cons.mpr ⟨fun e hh => h1 e (esc_head _ hh), esc_dbl (b :: t) h2⟩

theorem dbl_left : ∀ (a b : Bytes), dbl (a ++ b) = false → dbl a = false
  | [], _, _ => rfl
  | x :: a, b, h => by
    rw [List.cons_append] at h
    obtain ⟨h1, h2⟩ := dbl_cons.mp h
    refine dbl_cons.mpr ⟨fun e hh => h1 e ?_, dbl_left a b h2⟩
    cases a with
    | nil => simp at hh
    | cons y a => simpa using hh

/-- Every path that begins with a slash is passed on, or has two slashes together. -/
theorem C155_url {u : Bytes} (hu : u.head? = some slash) : (normalize u = .illegal ∧ dbl u = true) ∨ ∃ p, normalize u = .path p := by
  by_cases hd : dbl u = true
  · exact Or.inl ⟨by simp [normalize, hd], hd⟩
  · right
    have hne0 : u ≠ [] := fun e => by simp [e] at hu
    simp [normalize, hd, List.getLast?_eq_some_getLast hne0]

/-- A path of an URL that the handler passes on fails no assertion. -/
theorem C155_web (s : S) {u p : Bytes} (h0 : 0 ∉ u) (hu : u.head? = some slash) (hn : normalize u = .path p) : tryGet s p ≠ .bad := by
  have hform : 0 ∉ p ∧ dbl p = false ∧ p.head? = some slash ∧ (p = [slash] ∨ p.getLast? ≠ some slash) := by
    unfold normalize at hn
    by_cases hd : dbl u = true
    · simp [hd] at hn
    · have hd' : dbl u = false := by simpa using hd
      have hne0 : u ≠ [] := fun e => by simp [e] at hu
      simp only [hd', Bool.false_eq_true, if_false, List.getLast?_eq_some_getLast hne0, Norm.path.injEq] at hn
      by_cases hl : u.getLast? = some slash
      · have hl' : u.getLast hne0 = slash := by
          rw [List.getLast?_eq_some_getLast hne0] at hl
          simpa using hl
        rw [if_pos hl'] at hn
        by_cases he : u.dropLast = []
        · rw [if_pos he] at hn
          subst hn
          refine ⟨by simp [slash], rfl, rfl, Or.inl rfl⟩
        · rw [if_neg he] at hn
          subst hn
          have hne : u ≠ [] := fun e => by simp [e] at hu
          have hlast : u.getLast hne = slash := by
            rw [List.getLast?_eq_some_getLast hne] at hl
            simpa using hl
          have hsplit : u.dropLast ++ [slash] = u := by
            rw [← hlast]; exact List.dropLast_concat_getLast hne
          refine ⟨fun h => h0 ((List.dropLast_sublist u).subset h), dbl_left _ [slash] (by rw [hsplit]; exact hd'), ?_, Or.inr fun hh => ?_⟩
          · rw [← hsplit] at hu
            cases hx : u.dropLast with
            | nil => exact absurd hx he
            | cons y ys => rw [hx] at hu; simpa using hu
          · have hlast2 : u.dropLast.getLast he = slash := by
              rw [List.getLast?_eq_some_getLast he] at hh
              simpa using hh
            have hsplit2 : u.dropLast.dropLast ++ [slash] = u.dropLast := by
              rw [← hlast2]; exact List.dropLast_concat_getLast he
            rw [← hsplit, ← hsplit2, List.append_assoc] at hd'
            have := dbl_append _ _ hd'
            simp [dbl] at this
      · have hl' : u.getLast hne0 ≠ slash := fun e => hl (by rw [List.getLast?_eq_some_getLast hne0, e])
        rw [if_neg hl', if_neg hne0] at hn
        subst hn
        exact ⟨h0, hd', hu, Or.inr hl⟩
  obtain ⟨f0, f1, f2, f3⟩ := hform
  cases p with
  | nil => simp at f2
  | cons x t =>
    simp only [List.head?_cons, Option.some.injEq] at f2
    subst f2
    obtain ⟨g1, g2⟩ := dbl_cons.mp f1
    cases t with
    | nil => rw [C155_root]; simp
    | cons y t =>
      have e : esc (slash :: y :: t) = slash :: esc (y :: t) := by rw [esc, if_neg (by simp [slash])]
      have hl : (slash :: y :: t).getLast? ≠ some slash := by
        rcases f3 with h | h
        · simp at h
        · exact h
      have hl2 : (y :: t).getLast? ≠ some slash := by simpa [List.getLast?_cons_cons] using hl
      have k1 : dbl (esc (y :: t)) = false := esc_dbl _ g2
      have k2 : (esc (y :: t)).head? ≠ some slash := fun hh => g1 rfl (esc_head _ hh)
      have k3 : (esc (y :: t)).getLast? ≠ some slash := fun hh => hl2 (esc_last _ hh)
      obtain ⟨c, hc, ec⟩ := rel_join _ _ (Nat.le_refl _) k1 k2 k3
      have hcne : c ≠ [] := fun hz => esc_ne (y :: t) (by simp) (by rw [ec, hz]; rfl)
      obtain ⟨a, b, -, -, -, e5⟩ := tryGet_join s f0 hcne hc (by rw [e, ec])
      rw [e5]
      cases b with
      | nil => simp
      | cons n b' => cases hlf : s.leaf a n <;> simp [hlf]

/-! ### The other side -/

/-- the empty path passes the check of absolute paths, but fails -/
theorem C156_empty_partial (s : S) : checkAbs [] = true ∧ (findOrCreate s []).2 = .bad := ⟨rfl, rfl⟩

/-- `/cmds/var` itself is a route of the handler (admin_service.cc:63): `back()` of an empty string. -/
theorem C156_url_partial : normalize [] = .undef := rfl

/-- A variable exposed under the empty path is accepted, and found under no path. -/
theorem C156_unreachable_partial (v : Nat) : (add init [] [] v).2 = .ok ([], []) ∧ Reach (add init [] [] v).1 [([], [])] ∧ (add init [] [] v).1.leaf [] [] = some v ∧ ∀ abs w rest, tryGet (add init [] [] v).1 abs ≠ .leaf w rest := by
  have i := inv_reach Reach.init
  obtain ⟨k1, -⟩ := add_ok i (cur := []) (d := []) (n := []) (Or.inl rfl) (by simp) (Or.inl ⟨rfl, rfl⟩) (rel := []) (by simp) rfl v
  obtain ⟨r1, r2, r3⟩ := k1 ⟨by intro a m b e; simp at e, rfl, rfl⟩
  refine ⟨r1, Reach.init.step (.added [] [] v (Or.inl rfl) (Prod.ext rfl r1)), by rw [r3]; simp, fun abs w rest h => ?_⟩
  obtain ⟨p, n, r, g, -, -, hl⟩ := C155_sound h
  rw [r3] at hl
  simp only [List.append_nil] at hl
  split at hl
  · rename_i e
    exact (g n (by simp)).1 e.2
  · simp [init] at hl

def pa : Bytes := [97]
def pb : Bytes := [98]

/-- Groups are never removed: after the only variable `a/b` is gone, `a` is refused. -/
theorem C156_group_partial (v w : Nat) : ∃ s, Reach s [] ∧ (∀ p n, s.leaf p n = none) ∧ s = (remove (add init [] (joinS [pa, pb]) v).1 ([pa], pb)).1 ∧ (add s [] pa w).2 = .refused := by
  have hga : Good pa := ⟨by simp [pa], by simp [pa, slash]⟩
  have hgb : Good pb := ⟨by simp [pb], by simp [pb, slash]⟩
  rcases C155_add Reach.init (cur := []) (d := [pa]) (n := pb) (Or.inl rfl) (by intro m hm; simp at hm; rcases hm with h | h <;> rw [h] <;> assumption) (rel := joinS [pa, pb]) (by decide) (by decide) v with
    ⟨-, -, -, a4, a5, a6, a7⟩ | ⟨h, -⟩
  · simp only [List.nil_append] at a4 a5 a6 a7
    have hr : Reach (remove (add init [] (joinS [pa, pb]) v).1 ([pa], pb)).1 [] := by
      have := a5.step (.removed (h := ([pa], pb)) (by simp))
      simpa using this
    have hnode : (add init [] (joinS [pa, pb]) v).1.node [pa] = true := by
      rcases (inv_reach a5).dir [pa] pb (by rw [a6]; rfl) with h | h
      · simp at h
      · exact h
    refine ⟨_, hr, fun p n => ?_, rfl, ?_⟩
    · have := ((inv_reach hr).hand (p, n))
      simp only [List.not_mem_nil, false_iff, Bool.not_eq_true, Option.isSome_eq_false_iff, Option.isNone_iff_eq_none] at this
      exact this
    · rcases C155_add hr (cur := []) (d := []) (n := pa) (Or.inl rfl) (by intro m hm; simp at hm; rw [hm]; exact hga) (rel := pa) (by decide) (by decide) w with ⟨-, -, h, -⟩ | ⟨-, h, -⟩
      · simp only [List.nil_append, remove] at h
        rw [hnode] at h
        simp at h
      · exact h
  · exfalso
    simp [init] at h

/-- Not vacuous: a variable is added and found with a rest. -/
example : ∃ s hs, Reach s hs ∧ tryGet s (slash :: joinS [pa, pb, pa]) = .leaf 7 pa ∧ (∃ h, h ∈ hs) ∧ tryGet s (slash :: joinS [pa]) = .dump [pa] := by
  have hga : Good pa := ⟨by simp [pa], by simp [pa, slash]⟩
  have hgb : Good pb := ⟨by simp [pb], by simp [pb, slash]⟩
  rcases C155_add Reach.init (cur := []) (d := [pa]) (n := pb) (Or.inl rfl) (by intro m hm; simp at hm; rcases hm with h | h <;> rw [h] <;> assumption) (rel := joinS [pa, pb]) (by decide) (by decide) 7 with
    ⟨-, -, -, a4, a5, a6, a7⟩ | ⟨h, -⟩
  · have hnode : (add init [] (joinS [pa, pb]) 7).1.node [pa] = true := by
      rcases (inv_reach a5).dir [pa] pb (by simp only [List.nil_append] at a6; rw [a6]; rfl) with h | h
      · simp at h
      · exact h
    refine ⟨_, _, a5, C155_get a5 a6 (by decide) (rest := [pa]) ?_ (by decide), ⟨_, List.mem_cons_self⟩, C155_dump a5 hnode (by decide) (by decide)⟩
    intro m hm
    simp at hm
    rcases hm with h | h | h <;> rw [h] <;> assumption
  · exfalso
    simp [init] at h

example : written [97, 0, 98] = [97, 92, 47, 98] := by decide
example : amb [97, 0, 98, 47, 97] = false := by decide
example : normalize [47, 97, 47] = .path [47, 97] := by decide
example : normalize [47, 47] = .illegal := by decide
-- a backslash at the end of a name would be taken for an escape
example : esc (written [92, 47, 97]) ≠ [92, 47, 97] := by decide

end Verif.Tvar.Group
