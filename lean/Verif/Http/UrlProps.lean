import Verif.Http.Url

/-! # C130, C131: URLs -/

namespace Verif.Http.Url

/-! ## Reading ends at the NUL -/

theorem slashes_safe (y r : Bytes) : (slashes (y ++ 0 :: r) = .ok true ∧ ∃ y2, y = 47 :: 47 :: y2) ∨ slashes (y ++ 0 :: r) = .ok false := by
  cases y with
  | nil => right; simp [slashes]
  | cons c y =>
    simp only [List.cons_append, slashes]
    by_cases h : c = 47
    · rw [if_pos h]
      cases y with
      | nil => right; simp
      | cons d y =>
        simp only [List.cons_append]
        by_cases h1 : d = 47
        · left; exact ⟨by simp [h1], y, by rw [h, h1]⟩
        · right; simp [h1]
    · rw [if_neg h]; exact .inr rfl

theorem auth_safe (r : Bytes) : ∀ (n : Nat) (y : Bytes) (a : Auth), y.length ≤ n →
    auth (y ++ 0 :: r) y.length a = .invalid ∨ ∃ a' y', auth (y ++ 0 :: r) y.length a = .ok (a', y' ++ 0 :: r, y'.length) := by
  intro n
  induction n with
  | zero => intro y a h; cases y with
    | nil => exact .inr ⟨a, [], by simp [auth]⟩
    | cons c y => simp at h
  | succ n ih =>
    intro y a h
    cases y with
    | nil => exact .inr ⟨a, [], by simp [auth]⟩
    | cons c y =>
      have hy : y.length ≤ n := by simpa using h
      simp only [List.cons_append, List.length_cons]
      rw [auth.eq_def]
      simp only
      by_cases h1 : c = 0 ∨ c = 35 ∨ c = 47 ∨ c = 63
      · rw [if_pos h1]; exact .inr ⟨a, c :: y, by simp⟩
      rw [if_neg h1]
      by_cases h2 : c = 58
      · rw [if_pos h2]
        rcases slashes_safe y r with ⟨h3, y2, rfl⟩ | h3 <;> rw [h3] <;> simp only
        · split
          · exact ih y2 _ (by simp at hy; omega)
          · exact ih (47 :: 47 :: y2) _ hy
        · exact ih y _ hy
      rw [if_neg h2]
      by_cases h3 : c = 64
      · rw [if_pos h3]
        split
        · exact ih y _ hy
        · exact ih y _ hy
      rw [if_neg h3]
      by_cases h4 : c = 32
      · rw [if_pos h4]
        split
        · exact .inr ⟨a, c :: y, by simp⟩
        · exact .inl rfl
      rw [if_neg h4]
      exact ih y _ hy

theorem pathLoop_safe (r : Bytes) : ∀ (y acc : Bytes), pathLoop (y ++ 0 :: r) y.length acc = .invalid ∨ ∃ p y', pathLoop (y ++ 0 :: r) y.length acc = .ok (p, y' ++ 0 :: r, y'.length) := by
  intro y
  induction y with
  | nil => intro acc; exact .inr ⟨acc, [], by simp [pathLoop]⟩
  | cons c y ih =>
    intro acc
    simp only [List.cons_append, List.length_cons]
    rw [pathLoop.eq_def]
    simp only
    split
    · exact .inr ⟨acc, c :: y, by simp⟩
    · split
      · split
        · exact .inr ⟨acc, c :: y, by simp⟩
        · exact .inl rfl
      · exact ih _

theorem path_safe (r y : Bytes) : path (y ++ 0 :: r) y.length = .invalid ∨ ∃ p y', path (y ++ 0 :: r) y.length = .ok (p, y' ++ 0 :: r, y'.length) := by
  cases y with
  | nil => exact .inr ⟨[], [], by simp [path]⟩
  | cons c y =>
    simp only [List.cons_append, List.length_cons, path]
    split
    · exact pathLoop_safe r y _
    · exact .inr ⟨[], c :: y, by simp⟩

theorem queryLoop_safe (r : Bytes) : ∀ (y acc : Bytes), queryLoop (y ++ 0 :: r) y.length acc = .invalid ∨ ∃ p y', queryLoop (y ++ 0 :: r) y.length acc = .ok (p, y' ++ 0 :: r, y'.length) := by
  intro y
  induction y with
  | nil => intro acc; exact .inr ⟨acc, [], by simp [queryLoop]⟩
  | cons c y ih =>
    intro acc
    simp only [List.cons_append, List.length_cons]
    rw [queryLoop.eq_def]
    simp only
    split
    · exact .inr ⟨acc, c :: y, by simp⟩
    · split
      · split
        · exact .inr ⟨acc, c :: y, by simp⟩
        · exact .inl rfl
      · exact ih _

theorem query_safe (r y : Bytes) : query (y ++ 0 :: r) y.length = .invalid ∨ ∃ p y', query (y ++ 0 :: r) y.length = .ok (p, y' ++ 0 :: r, y'.length) := by
  cases y with
  | nil => exact .inr ⟨[], [], by simp [query]⟩
  | cons c y =>
    simp only [List.cons_append, List.length_cons, query]
    split
    · exact queryLoop_safe r y _
    · exact .inr ⟨[], c :: y, by simp⟩

theorem fragLoop_safe (r : Bytes) : ∀ (y acc : Bytes), fragLoop (y ++ 0 :: r) y.length acc ≠ .crash := by
  intro y
  induction y with
  | nil => intro acc; simp [fragLoop]
  | cons c y ih =>
    intro acc
    simp only [List.cons_append, List.length_cons]
    rw [fragLoop.eq_def]
    simp only
    split
    · split <;> simp
    · exact ih _

theorem frag_safe (r y : Bytes) : frag (y ++ 0 :: r) y.length ≠ .crash := by
  cases y with
  | nil => simp [frag]
  | cons c y =>
    simp only [List.cons_append, List.length_cons, frag]
    split
    · exact fragLoop_safe r y _
    · simp

theorem skip_safe (r : Bytes) : ∀ y : Bytes, ∃ y', skip (y ++ 0 :: r) y.length = .ok (y' ++ 0 :: r, y'.length) := by
  intro y
  induction y with
  | nil => exact ⟨[], by simp [skip]⟩
  | cons c y ih =>
    simp only [List.cons_append, List.length_cons, skip]
    split
    · exact ih
    · exact ⟨c :: y, by simp⟩

/-- No byte behind the NUL at the end of a string is read. -/
theorem C130_safe (s r : Bytes) : parse s (0 :: r) ≠ .crash := by
  unfold parse
  obtain ⟨y, hy⟩ := skip_safe r s
  rw [hy]
  simp only [Res.bind]
  rcases auth_safe r _ y {} (Nat.le_refl _) with h | ⟨a, y1, h⟩ <;> rw [h] <;> simp only [ne_eq, reduceCtorEq, not_false_eq_true]
  unfold tail
  rcases path_safe r y1 with h | ⟨p, y2, h⟩ <;> rw [h] <;> simp only [Res.bind, ne_eq, reduceCtorEq, not_false_eq_true]
  rcases query_safe r y2 with h | ⟨q, y3, h⟩ <;> rw [h] <;> simp only [ne_eq, reduceCtorEq, not_false_eq_true]
  have := frag_safe r y3
  cases hf : frag (y3 ++ 0 :: r) y3.length with
  | crash => exact absurd hf this
  | invalid => simp
  | ok f => simp

/-! ## Which URLs are accepted, and that nothing is lost -/

/-- What was read, and what was found in it. -/
def Shape (a : Auth) (x : Bytes) : Prop := match a.scheme, a.userinfo with
  | none, none => x = a.acc
  | some s, none => x = s ++ [58, 47, 47] ++ a.acc
  | none, some u => x = u ++ [64] ++ a.acc
  | some s, some u => x = s ++ [58, 47, 47] ++ (u ++ [64]) ++ a.acc ∨ x = u ++ [64] ++ (s ++ [58, 47, 47]) ++ a.acc

theorem Shape.push {a : Auth} {x : Bytes} (h : Shape a x) (c : UInt8) : Shape { a with acc := a.acc ++ [c] } (x ++ [c]) := by
  obtain ⟨acc, sc, ui⟩ := a
  cases sc <;> cases ui <;> simp only [Shape] at h ⊢
  · rw [h]
  · rw [h]; simp
  · rw [h]; simp
  · rcases h with h | h <;> rw [h] <;> simp

theorem Shape.scheme {a : Auth} {x : Bytes} (h : Shape a x) (hs : a.scheme = none) : Shape { a with acc := [], scheme := some a.acc } (x ++ [58, 47, 47]) := by
  obtain ⟨acc, sc, ui⟩ := a
  cases hs
  cases ui <;> simp only [Shape] at h ⊢
  · rw [h]; simp
  · right; rw [h]; simp

theorem Shape.userinfo {a : Auth} {x : Bytes} (h : Shape a x) (hs : a.userinfo = none) : Shape { a with acc := [], userinfo := some a.acc } (x ++ [64]) := by
  obtain ⟨acc, sc, ui⟩ := a
  cases hs
  cases sc <;> simp only [Shape] at h ⊢
  · rw [h]; simp
  · left; rw [h]; simp

/-- a word: neither blanks nor NUL -/
def Word (t : Bytes) : Prop := ∀ c ∈ t, c ≠ 0 ∧ c ≠ 32

/-- the end of a word: nothing, or a blank -/
def End (w : Bytes) : Prop := w = [] ∨ ∃ w', w = 32 :: w'

def blank (w : Bytes) : Bool := w.all (· == 32)

theorem Word.tail {c : UInt8} {t : Bytes} (h : Word (c :: t)) : Word t := fun d hd => h d (List.mem_cons_of_mem _ hd)

theorem end_head {w r : Bytes} (h : End w) : ∃ c m, w ++ 0 :: r = c :: m ∧ (c = 0 ∨ c = 32) := by
  rcases h with rfl | ⟨w', rfl⟩
  · exact ⟨0, r, rfl, .inl rfl⟩
  · exact ⟨32, w' ++ 0 :: r, rfl, .inr rfl⟩

theorem spaces_end (w' r : Bytes) : spaces (w' ++ 0 :: r) (w'.length + 1) = blank (32 :: w') := by
  simp [spaces, blank]

/-- The word is read up to a `/`, `?` or `#`, or to its end. -/
theorem auth_word : ∀ (n : Nat) (t : Bytes) (a : Auth) (x : Bytes), t.length ≤ n → Word t → Shape a x →
    ∃ a' x' y, t = x' ++ y ∧ Shape a' (x ++ x') ∧ (y = [] ∨ ∃ c z, y = c :: z ∧ (c = 35 ∨ c = 47 ∨ c = 63)) ∧
      ∀ w r : Bytes, End w → auth (t ++ w ++ 0 :: r) (t ++ w).length a = if y = [] ∧ blank w = false then .invalid else .ok (a', y ++ w ++ 0 :: r, (y ++ w).length) := by
  intro n
  induction n with
  | zero =>
    intro t a x h _ hs
    have : t = [] := by cases t <;> simp_all
    subst this
    refine ⟨a, [], [], rfl, by simpa using hs, .inl rfl, ?_⟩
    intro w r hw
    rcases hw with rfl | ⟨w', rfl⟩
    · simp [auth, blank]
    · simp only [List.nil_append, List.cons_append, List.length_cons]
      rw [auth.eq_def]
      simp only
      rw [if_neg (by decide), if_neg (by decide), if_neg (by decide), if_pos trivial, spaces_end]
      cases blank (32 :: w') <;> simp
  | succ n ih =>
    intro t a x h hw hs
    cases t with
    | nil => exact ih [] a x (by simp) hw hs
    | cons c t =>
      have ht : t.length ≤ n := by simpa using h
      obtain ⟨h0, h32⟩ := hw c (by simp)
      have push (e : ∀ w r : Bytes, End w → auth ((c :: t) ++ w ++ 0 :: r) ((c :: t) ++ w).length a = auth (t ++ w ++ 0 :: r) (t ++ w).length { a with acc := a.acc ++ [c] }) : ∃ a' x' y, c :: t = x' ++ y ∧ Shape a' (x ++ x') ∧ (y = [] ∨ ∃ c z, y = c :: z ∧ (c = 35 ∨ c = 47 ∨ c = 63)) ∧
          ∀ w r : Bytes, End w → auth ((c :: t) ++ w ++ 0 :: r) ((c :: t) ++ w).length a = if y = [] ∧ blank w = false then .invalid else .ok (a', y ++ w ++ 0 :: r, (y ++ w).length) := by
        obtain ⟨a', x', y, h1, h2, h3, h4⟩ := ih t { a with acc := a.acc ++ [c] } (x ++ [c]) ht hw.tail (hs.push c)
        exact ⟨a', c :: x', y, by rw [h1]; rfl, by simpa using h2, h3, fun w r hw => by rw [e w r hw]; exact h4 w r hw⟩
      by_cases h1 : c = 35 ∨ c = 47 ∨ c = 63
      · refine ⟨a, [], c :: t, rfl, by simpa using hs, .inr ⟨c, t, rfl, h1⟩, ?_⟩
        intro w r _
        simp only [List.cons_append, List.length_cons]
        rw [auth.eq_def]
        simp only
        rw [if_pos (.inr h1)]
        simp
      have h1' : ¬ (c = 0 ∨ c = 35 ∨ c = 47 ∨ c = 63) := by exact fun h => h.elim h0 h1
      by_cases h2 : c = 58
      · by_cases h3 : ∃ t2, t = 47 :: 47 :: t2 ∧ a.scheme = none
        · obtain ⟨t2, rfl, hn⟩ := h3
          obtain ⟨a', x', y, k1, k2, k3, k4⟩ := ih t2 { a with acc := [], scheme := some a.acc } (x ++ [58, 47, 47]) (by simp at ht; omega) hw.tail.tail.tail (hs.scheme hn)
          refine ⟨a', [58, 47, 47] ++ x', y, by rw [h2, k1]; rfl, by simpa using k2, k3, ?_⟩
          intro w r hw
          rw [← k4 w r hw]
          simp only [List.cons_append, List.length_cons]
          rw [auth.eq_def]
          simp only
          rw [if_neg h1', if_pos h2, show slashes (47 :: 47 :: (t2 ++ w ++ 0 :: r)) = .ok true by simp [slashes]]
          simp only
          rw [if_pos hn]
          rfl
        · apply push
          intro w r hw'
          simp only [List.cons_append, List.length_cons]
          rw [auth.eq_def]
          simp only
          rw [if_neg h1', if_pos h2]
          rcases slashes_safe (t ++ w) r with ⟨h4, y2, h5⟩ | h4 <;> rw [h4] <;> simp only
          obtain ⟨t2, rfl⟩ : ∃ t2, t = 47 :: 47 :: t2 := by
            rcases t with _ | ⟨c1, _ | ⟨c2, t2⟩⟩
            · rcases hw' with rfl | ⟨w', rfl⟩ <;> simp at h5
            · rcases hw' with rfl | ⟨w', rfl⟩ <;> simp at h5
            · simp at h5; exact ⟨t2, by rw [h5.1, h5.2.1]⟩
          rw [if_neg (fun hn => h3 ⟨t2, rfl, hn⟩)]
      by_cases h3 : c = 64
      · by_cases h4 : a.userinfo = none
        · obtain ⟨a', x', y, k1, k2, k3, k4⟩ := ih t { a with acc := [], userinfo := some a.acc } (x ++ [64]) ht hw.tail (hs.userinfo h4)
          refine ⟨a', 64 :: x', y, by rw [h3, k1]; rfl, by simpa using k2, k3, ?_⟩
          intro w r hw
          rw [← k4 w r hw]
          simp only [List.cons_append, List.length_cons]
          rw [auth.eq_def]
          simp only
          rw [if_neg h1', if_neg h2, if_pos h3, if_pos h4]
        · apply push
          intro w r hw
          simp only [List.cons_append, List.length_cons]
          rw [auth.eq_def]
          simp only
          rw [if_neg h1', if_neg h2, if_pos h3, if_neg h4]
      · apply push
        intro w r hw
        simp only [List.cons_append, List.length_cons]
        rw [auth.eq_def]
        simp only
        rw [if_neg h1', if_neg h2, if_neg h3, if_neg h32]

theorem pathLoop_word : ∀ (t acc : Bytes), Word t → ∃ x y, t = x ++ y ∧ (y = [] ∨ ∃ c z, y = c :: z ∧ (c = 63 ∨ c = 35)) ∧
    ∀ w r : Bytes, End w → pathLoop (t ++ w ++ 0 :: r) (t ++ w).length acc = if y = [] ∧ blank w = false then .invalid else .ok (acc ++ x, y ++ w ++ 0 :: r, (y ++ w).length) := by
  intro t
  induction t with
  | nil =>
    intro acc _
    refine ⟨[], [], rfl, .inl rfl, ?_⟩
    intro w r hw
    rcases hw with rfl | ⟨w', rfl⟩
    · simp [pathLoop, blank]
    · simp only [List.nil_append, List.cons_append, List.length_cons]
      rw [pathLoop.eq_def]
      simp only
      rw [if_neg (by decide), if_pos trivial, spaces_end]
      cases blank (32 :: w') <;> simp
  | cons c t ih =>
    intro acc hw
    by_cases h1 : c = 63 ∨ c = 35
    · refine ⟨[], c :: t, rfl, .inr ⟨c, t, rfl, h1⟩, ?_⟩
      intro w r _
      simp only [List.cons_append, List.length_cons]
      rw [pathLoop.eq_def]
      simp only
      rw [if_pos h1]
      simp
    · obtain ⟨x, y, k1, k2, k3⟩ := ih (acc ++ [c]) hw.tail
      refine ⟨c :: x, y, by rw [k1]; rfl, k2, ?_⟩
      intro w r hw'
      have := k3 w r hw'
      simp only [List.append_assoc, List.singleton_append] at this ⊢
      rw [← this]
      simp only [List.cons_append, List.length_cons]
      rw [pathLoop.eq_def]
      simp only
      rw [if_neg h1, if_neg (hw c (by simp)).2]

theorem queryLoop_word : ∀ (t acc : Bytes), Word t → ∃ x y, t = x ++ y ∧ (y = [] ∨ ∃ z, y = 35 :: z) ∧
    ∀ w r : Bytes, End w → queryLoop (t ++ w ++ 0 :: r) (t ++ w).length acc = if y = [] ∧ blank w = false then .invalid else .ok (acc ++ x, y ++ w ++ 0 :: r, (y ++ w).length) := by
  intro t
  induction t with
  | nil =>
    intro acc _
    refine ⟨[], [], rfl, .inl rfl, ?_⟩
    intro w r hw
    rcases hw with rfl | ⟨w', rfl⟩
    · simp [queryLoop, blank]
    · simp only [List.nil_append, List.cons_append, List.length_cons]
      rw [queryLoop.eq_def]
      simp only
      rw [if_neg (by decide), if_pos trivial, spaces_end]
      cases blank (32 :: w') <;> simp
  | cons c t ih =>
    intro acc hw
    by_cases h1 : c = 35
    · refine ⟨[], c :: t, rfl, .inr ⟨t, by rw [h1]⟩, ?_⟩
      intro w r _
      simp only [List.cons_append, List.length_cons]
      rw [queryLoop.eq_def]
      simp only
      rw [if_pos (.inr h1)]
      simp
    · obtain ⟨x, y, k1, k2, k3⟩ := ih (acc ++ [c]) hw.tail
      refine ⟨c :: x, y, by rw [k1]; rfl, k2, ?_⟩
      intro w r hw'
      have := k3 w r hw'
      simp only [List.append_assoc, List.singleton_append] at this ⊢
      rw [← this]
      simp only [List.cons_append, List.length_cons]
      rw [queryLoop.eq_def]
      simp only
      rw [if_neg (fun h => h.elim (hw c (by simp)).1 h1), if_neg (hw c (by simp)).2]
      rfl

theorem fragLoop_word : ∀ (t acc : Bytes), Word t → ∀ w r : Bytes, End w → fragLoop (t ++ w ++ 0 :: r) (t ++ w).length acc = if blank w = false then .invalid else .ok (acc ++ t) := by
  intro t
  induction t with
  | nil =>
    intro acc _ w r hw
    rcases hw with rfl | ⟨w', rfl⟩
    · simp [fragLoop, blank]
    · simp only [List.nil_append, List.cons_append, List.length_cons]
      rw [fragLoop.eq_def]
      simp only
      rw [if_pos trivial, spaces_end]
      cases blank (32 :: w') <;> simp
  | cons c t ih =>
    intro acc hw w r hw'
    have := ih (acc ++ [c]) hw.tail w r hw'
    simp only [List.append_assoc, List.singleton_append] at this ⊢
    rw [← this]
    simp only [List.cons_append, List.length_cons]
    rw [fragLoop.eq_def]
    simp only
    rw [if_neg (hw c (by simp)).2]

theorem hostPort_join (a : Bytes) : a = (hostPort a).1 ∧ (hostPort a).2 = [] ∨ a = (hostPort a).1 ++ 58 :: (hostPort a).2 := by
  have key : ∀ (l ds : Bytes) (h p : Bytes), split l ds = some (h, p) → l.reverse ++ ds = h ++ 58 :: p := by
    intro l
    induction l with
    | nil => intro ds h p e; simp [split] at e
    | cons c l ih =>
      intro ds h p e
      cases l with
      | nil => simp [split] at e
      | cons b l =>
        rw [split] at e
        split at e
        · have := ih (c :: ds) h p e
          simpa using this
        · split at e
          · rename_i hc
            cases e
            rw [hc]
            simp
          · cases e
  unfold hostPort
  cases h : split a.reverse [] with
  | none => left; simp
  | some q =>
    obtain ⟨x, y⟩ := q
    right
    have := key _ _ _ _ h
    simpa using this

/-- The components, in their order, are all of a URL; `b`s tell whether a separator is there with nothing behind it. -/
def Lossless (u : Url) (t : Bytes) : Prop :=
  ∃ (sc ui pt : Bytes) (b1 b2 : Bool), (sc = u.scheme ++ [58, 47, 47] ∨ sc = [] ∧ u.scheme = []) ∧ (ui = u.userinfo ++ [64] ∨ ui = [] ∧ u.userinfo = []) ∧ (pt = 58 :: u.port ∨ pt = [] ∧ u.port = []) ∧
    ∃ rest, rest = u.host ++ pt ++ u.path ++ (if b1 then 63 :: u.query else []) ++ (if b2 then 35 :: u.fragment else []) ∧ (b1 = false → u.query = []) ∧ (b2 = false → u.fragment = []) ∧
      (t = sc ++ ui ++ rest ∨ t = ui ++ sc ++ rest)

theorem Shape.parts {a : Auth} {x : Bytes} (h : Shape a x) : ∃ sc ui : Bytes, (sc = a.scheme.getD [] ++ [58, 47, 47] ∨ sc = [] ∧ a.scheme.getD [] = []) ∧ (ui = a.userinfo.getD [] ++ [64] ∨ ui = [] ∧ a.userinfo.getD [] = []) ∧
    (x = sc ++ ui ++ a.acc ∨ x = ui ++ sc ++ a.acc) := by
  obtain ⟨acc, sc, ui⟩ := a
  cases sc with
  | none => cases ui with
    | none => exact ⟨[], [], .inr ⟨rfl, rfl⟩, .inr ⟨rfl, rfl⟩, .inl h⟩
    | some u => exact ⟨[], u ++ [64], .inr ⟨rfl, rfl⟩, .inl rfl, .inl h⟩
  | some s => cases ui with
    | none => exact ⟨s ++ [58, 47, 47], [], .inl rfl, .inr ⟨rfl, rfl⟩, .inl (by simpa [Shape] using h)⟩
    | some u => exact ⟨s ++ [58, 47, 47], u ++ [64], .inl rfl, .inl rfl, h⟩

theorem skip_blanks (m : Bytes) : ∀ (i k : Nat) (c : UInt8), c ≠ 32 ∨ k = 0 → skip (blanks i ++ c :: m) (i + k) = .ok (c :: m, k) := by
  intro i
  induction i with
  | zero =>
    intro k c h
    simp only [blanks, List.replicate_zero, List.nil_append, Nat.zero_add]
    cases k with
    | zero => rfl
    | succ k => rw [skip, if_neg (by exact h.elim id (fun h => by omega))]
  | succ i ih =>
    intro k c h
    rw [show i + 1 + k = (i + k) + 1 by omega]
    simp only [blanks, List.replicate_succ, List.cons_append]
    rw [skip, if_pos rfl]
    exact ih k c h

/-- `ParsePath`, `ParseQuery` and `ParseFragment` on the end of a word. -/
theorem tail_word (y : Bytes) (hy : Word y) (hh : y = [] ∨ ∃ c z, y = c :: z ∧ (c = 35 ∨ c = 47 ∨ c = 63)) : ∃ p q f, ∃ b1 b2 : Bool,
    y = p ++ (if b1 then 63 :: q else []) ++ (if b2 then 35 :: f else []) ∧ (b1 = false → q = []) ∧ (b2 = false → f = []) ∧
    ∀ (u : Url) (w r : Bytes), End w → (y = [] → blank w = true) → tail u (y ++ w ++ 0 :: r) (y ++ w).length = if blank w = false then .invalid else .ok { u with path := p, query := q, fragment := f } := by
  -- the fragment
  have hfrag : ∀ y : Bytes, Word y → (y = [] ∨ ∃ z, y = 35 :: z) → ∃ f, ∃ b2 : Bool, y = (if b2 then 35 :: f else []) ∧ (b2 = false → f = []) ∧
      ∀ w r : Bytes, End w → (y = [] → blank w = true) → frag (y ++ w ++ 0 :: r) (y ++ w).length = if blank w = false then .invalid else .ok f := by
    intro y hy hh
    rcases hh with rfl | ⟨z, rfl⟩
    · refine ⟨[], false, rfl, fun _ => rfl, ?_⟩
      intro w r hw hb
      obtain ⟨d, m, hd, hd'⟩ := end_head (r := r) hw
      simp only [List.nil_append]
      rw [hd, frag, if_neg (by rcases hd' with rfl | rfl <;> decide), if_neg (by simp [hb rfl])]
    · refine ⟨z, true, rfl, by simp, ?_⟩
      intro w r hw _
      have := fragLoop_word z [] hy.tail w r hw
      simp only [List.cons_append, List.length_cons]
      rw [frag, if_pos rfl]
      simpa using this
  -- the query
  have hquery : ∀ y : Bytes, Word y → (y = [] ∨ ∃ c z, y = c :: z ∧ (c = 63 ∨ c = 35)) → ∃ q f, ∃ b1 b2 : Bool, y = (if b1 then 63 :: q else []) ++ (if b2 then 35 :: f else []) ∧ (b1 = false → q = []) ∧ (b2 = false → f = []) ∧
      ∀ (g : Bytes → Bytes → Res Url) (w r : Bytes), End w → (y = [] → blank w = true) → ((query (y ++ w ++ 0 :: r) (y ++ w).length).bind fun y => (frag y.2.1 y.2.2).bind fun z => g y.1 z) = if blank w = false then .invalid else g q f := by
    intro y hy hh
    by_cases h63 : ∃ z, y = 63 :: z
    · obtain ⟨z, rfl⟩ := h63
      obtain ⟨x, y', k1, k2, k3⟩ := queryLoop_word z [] hy.tail
      have hy' : Word y' := fun c hc => hy c (by rw [k1]; simp [hc])
      obtain ⟨f, b2, j1, j2, j3⟩ := hfrag y' hy' k2
      refine ⟨x, f, true, b2, by rw [k1, if_pos rfl, ← j1]; rfl, by simp, j2, ?_⟩
      intro g w r hw _
      have e : query (63 :: z ++ w ++ 0 :: r) (63 :: z ++ w).length = if y' = [] ∧ blank w = false then .invalid else .ok (x, y' ++ w ++ 0 :: r, (y' ++ w).length) := by
        have := k3 w r hw
        simp only [List.cons_append, List.length_cons]
        rw [query, if_pos rfl]
        simpa using this
      rw [e]
      by_cases hc : y' = [] ∧ blank w = false
      · rw [if_pos hc, if_pos hc.2]; rfl
      · rw [if_neg hc]
        simp only [Res.bind]
        rw [j3 w r hw (fun h => by simpa [h] using hc)]
        by_cases hb : blank w = false
        · rw [if_pos hb, if_pos hb]
        · rw [if_neg hb, if_neg hb]
    · have h35 : y = [] ∨ ∃ z, y = 35 :: z := by
        rcases hh with h | ⟨c, z, h, hc | hc⟩
        · exact .inl h
        · exact absurd ⟨z, by rw [h, hc]⟩ h63
        · exact .inr ⟨z, by rw [h, hc]⟩
      obtain ⟨f, b2, j1, j2, j3⟩ := hfrag y hy h35
      refine ⟨[], f, false, b2, by rw [← j1]; rfl, by simp, j2, ?_⟩
      intro g w r hw hb
      have e : query (y ++ w ++ 0 :: r) (y ++ w).length = .ok ([], y ++ w ++ 0 :: r, (y ++ w).length) := by
        rcases h35 with rfl | ⟨z, rfl⟩
        · obtain ⟨d, m, hd, hd'⟩ := end_head (r := r) hw
          simp only [List.nil_append]
          rw [hd, query, if_neg (by rcases hd' with rfl | rfl <;> decide)]
        · simp only [List.cons_append]
          rw [query, if_neg (by decide)]
      rw [e]
      simp only [Res.bind]
      rw [j3 w r hw hb]
      by_cases hb : blank w = false
      · rw [if_pos hb, if_pos hb]
      · rw [if_neg hb, if_neg hb]
  by_cases h47 : ∃ z, y = 47 :: z
  · obtain ⟨z, rfl⟩ := h47
    obtain ⟨x, y', k1, k2, k3⟩ := pathLoop_word z [47] hy.tail
    have hy' : Word y' := fun c hc => hy c (by rw [k1]; simp [hc])
    obtain ⟨q, f, b1, b2, j1, j2, j3, j4⟩ := hquery y' hy' k2
    refine ⟨47 :: x, q, f, b1, b2, by rw [k1, List.append_assoc, ← j1]; rfl, j2, j3, ?_⟩
    intro u w r hw _
    have e : path (47 :: z ++ w ++ 0 :: r) (47 :: z ++ w).length = if y' = [] ∧ blank w = false then .invalid else .ok (47 :: x, y' ++ w ++ 0 :: r, (y' ++ w).length) := by
      have := k3 w r hw
      simp only [List.cons_append, List.length_cons]
      rw [path, if_pos rfl]
      simpa using this
    unfold tail
    rw [e]
    by_cases hc : y' = [] ∧ blank w = false
    · rw [if_pos hc, if_pos hc.2]; rfl
    · rw [if_neg hc]
      simp only [Res.bind]
      exact j4 (fun q f => .ok { u with path := 47 :: x, query := q, fragment := f }) w r hw (fun h => by simpa [h] using hc)
  · have hq : y = [] ∨ ∃ c z, y = c :: z ∧ (c = 63 ∨ c = 35) := by
      rcases hh with h | ⟨c, z, h, hc | hc | hc⟩
      · exact .inl h
      · exact .inr ⟨c, z, h, .inr hc⟩
      · exact absurd ⟨z, by rw [h, hc]⟩ h47
      · exact .inr ⟨c, z, h, .inl hc⟩
    obtain ⟨q, f, b1, b2, j1, j2, j3, j4⟩ := hquery y hy hq
    refine ⟨[], q, f, b1, b2, j1, j2, j3, ?_⟩
    intro u w r hw hb
    have e : path (y ++ w ++ 0 :: r) (y ++ w).length = .ok ([], y ++ w ++ 0 :: r, (y ++ w).length) := by
      rcases hq with rfl | ⟨c, z, rfl, hc⟩
      · obtain ⟨d, m, hd, hd'⟩ := end_head (r := r) hw
        simp only [List.nil_append]
        rw [hd, path, if_neg (by rcases hd' with rfl | rfl <;> decide)]
      · simp only [List.cons_append]
        rw [path, if_neg (by rcases hc with rfl | rfl <;> decide)]
    unfold tail
    rw [e]
    simp only [Res.bind]
    exact j4 (fun q f => .ok { u with path := [], query := q, fragment := f }) w r hw hb

/-- A string without NUL is a URL if and only if it is one word with blanks around it; what is found depends on this word only, and together it is the word. -/
theorem C130_exact (t : Bytes) (ht : Word t) (hn : t ≠ []) : ∃ u, Lossless u t ∧ ∀ (i : Nat) (w r : Bytes), End w → parse (blanks i ++ t ++ w) (0 :: r) = if blank w then .ok u else .invalid := by
  obtain ⟨a, x, y, h1, h2, h3, h4⟩ := auth_word t.length t {} [] (Nat.le_refl _) ht rfl
  have hy : Word y := fun c hc => ht c (by rw [h1]; simp [hc])
  obtain ⟨p, q, f, b1, b2, k1, k2, k3, k4⟩ := tail_word y hy h3
  obtain ⟨sc, ui, s1, s2, s3⟩ := h2.parts
  obtain ⟨pt, p1, p2⟩ : ∃ pt, (pt = 58 :: (hostPort a.acc).2 ∨ pt = [] ∧ (hostPort a.acc).2 = []) ∧ a.acc = (hostPort a.acc).1 ++ pt := by
    rcases hostPort_join a.acc with ⟨h, h'⟩ | h
    · exact ⟨[], .inr ⟨rfl, h'⟩, by simpa using h⟩
    · exact ⟨_, .inl rfl, h⟩
  refine ⟨{ a.url with path := p, query := q, fragment := f }, ⟨sc, ui, pt, b1, b2, s1, s2, p1, _, rfl, k2, k3, ?_⟩, ?_⟩
  · simp only [List.nil_append] at s3
    simp only [Auth.url]
    rw [h1, k1]
    rcases s3 with h | h
    · left
      rw [h]
      have : sc ++ ui ++ a.acc = sc ++ ui ++ ((hostPort a.acc).1 ++ pt) := by rw [← p2]
      rw [this]
      simp only [List.append_assoc]
    · right
      rw [h]
      have : ui ++ sc ++ a.acc = ui ++ sc ++ ((hostPort a.acc).1 ++ pt) := by rw [← p2]
      rw [this]
      simp only [List.append_assoc]
  · intro i w r hw
    obtain ⟨c, t', rfl⟩ : ∃ c t', t = c :: t' := by
      cases t with
      | nil => exact absurd rfl hn
      | cons c t' => exact ⟨c, t', rfl⟩
    unfold parse
    have e1 : skip (blanks i ++ (c :: t') ++ w ++ 0 :: r) (blanks i ++ (c :: t') ++ w).length = .ok ((c :: t') ++ w ++ 0 :: r, ((c :: t') ++ w).length) := by
      have := skip_blanks (t' ++ w ++ 0 :: r) i ((c :: t') ++ w).length c (.inl (ht c (by simp)).2)
      rw [show (blanks i ++ (c :: t') ++ w).length = i + ((c :: t') ++ w).length by simp [blanks]]
      simpa using this
    rw [e1]
    simp only [Res.bind]
    rw [h4 w r hw]
    by_cases hc : y = [] ∧ blank w = false
    · rw [if_pos hc, if_neg (by simp [hc.2])]
    · rw [if_neg hc]
      simp only
      rw [k4 a.url w r hw (fun h => by simpa [h] using hc)]
      cases blank w <;> simp

example : Word [47, 97] ∧ ([47, 97] : Bytes) ≠ [] ∧ End [32, 98] ∧ blank [32, 98] = false ∧ End [32] ∧ blank [32] = true := by
  refine ⟨?_, by decide, .inr ⟨[98], rfl⟩, by decide, .inr ⟨[], rfl⟩, by decide⟩
  intro c hc
  simp at hc
  rcases hc with rfl | rfl <;> decide

/-! ## Components that are put together are found again -/

theorem auth_seg : ∀ (x m : Bytes) (k : Nat) (a : Auth), (∀ c ∈ x, ¬ stop c ∧ c ≠ 32 ∧ c ≠ 64) → (x.getLast? ≠ some 58 ∨ ∃ d m', m = d :: m' ∧ d ≠ 47) →
    auth (x ++ m) (x.length + k) a = auth m k { a with acc := a.acc ++ x } := by
  intro x
  induction x with
  | nil => intro m k a _ _; simp
  | cons c x ih =>
    intro m k a h hl
    obtain ⟨h1, h2, h3⟩ := h c (by simp)
    have hl' : x.getLast? ≠ some 58 ∨ ∃ d m', m = d :: m' ∧ d ≠ 47 := by
      rcases hl with hl | hl
      · cases x with
        | nil => left; simp
        | cons b x => left; simpa using hl
      · exact .inr hl
    have e := ih m k { a with acc := a.acc ++ [c] } (fun d hd => h d (List.mem_cons_of_mem _ hd)) hl'
    simp only [List.append_assoc, List.singleton_append] at e
    rw [← e]
    rw [show (c :: x).length + k = (x.length + k) + 1 by simp; omega]
    simp only [List.cons_append]
    rw [auth.eq_def]
    simp only
    rw [if_neg (show ¬ (c = 0 ∨ c = 35 ∨ c = 47 ∨ c = 63) from h1)]
    by_cases h4 : c = 58
    · rw [if_pos h4]
      have hs : slashes (x ++ m) = .ok false := by
        cases x with
        | nil =>
          rcases hl with hl | ⟨d, m', rfl, hd⟩
          · simp [h4] at hl
          · simp [slashes, hd]
        | cons b x =>
          have hb : b ≠ 47 := fun hb => (h b (by simp)).1 (.inr (.inr (.inl hb)))
          simp [slashes, hb]
      rw [hs]
    · rw [if_neg h4, if_neg h3, if_neg h2]

theorem auth_scheme (m : Bytes) (k : Nat) (a : Auth) (h : a.scheme = none) : auth (58 :: 47 :: 47 :: m) (k + 3) a = auth m k { a with acc := [], scheme := some a.acc } := by
  rw [auth.eq_def]
  simp only
  rw [if_neg (by decide), if_pos trivial, show slashes (47 :: 47 :: m) = .ok true by simp [slashes]]
  simp only
  rw [if_pos h]
  rfl

theorem auth_at (m : Bytes) (k : Nat) (a : Auth) (h : a.userinfo = none) : auth (64 :: m) (k + 1) a = auth m k { a with acc := [], userinfo := some a.acc } := by
  rw [auth.eq_def]
  simp only
  rw [if_neg (by decide), if_neg (by decide), if_pos trivial, if_pos h]

theorem pathLoop_seg : ∀ (x m acc : Bytes) (k : Nat), (∀ c ∈ x, c ≠ 63 ∧ c ≠ 35 ∧ c ≠ 32) → pathLoop (x ++ m) (x.length + k) acc = pathLoop m k (acc ++ x) := by
  intro x
  induction x with
  | nil => intro m acc k _; simp
  | cons c x ih =>
    intro m acc k h
    obtain ⟨h1, h2, h3⟩ := h c (by simp)
    have e := ih m (acc ++ [c]) k (fun d hd => h d (List.mem_cons_of_mem _ hd))
    simp only [List.append_assoc, List.singleton_append] at e
    rw [← e, show (c :: x).length + k = (x.length + k) + 1 by simp; omega]
    simp only [List.cons_append]
    rw [pathLoop.eq_def]
    simp only
    rw [if_neg (fun h => h.elim h1 h2), if_neg h3]

theorem queryLoop_seg : ∀ (x m acc : Bytes) (k : Nat), (∀ c ∈ x, c ≠ 0 ∧ c ≠ 35 ∧ c ≠ 32) → queryLoop (x ++ m) k acc = queryLoop m (k - x.length) (acc ++ x) := by
  intro x
  induction x with
  | nil => intro m acc k _; simp
  | cons c x ih =>
    intro m acc k h
    obtain ⟨h1, h2, h3⟩ := h c (by simp)
    have e := ih m (acc ++ [c]) (k - 1) (fun d hd => h d (List.mem_cons_of_mem _ hd))
    simp only [List.append_assoc, List.singleton_append] at e
    rw [show k - (c :: x).length = k - 1 - x.length by simp; omega, ← e]
    simp only [List.cons_append]
    rw [queryLoop.eq_def]
    simp only
    rw [if_neg (fun h => h.elim h1 h2), if_neg h3]

theorem fragLoop_seg : ∀ (x m acc : Bytes) (k : Nat), (∀ c ∈ x, c ≠ 32) → fragLoop (x ++ m) (x.length + k) acc = fragLoop m k (acc ++ x) := by
  intro x
  induction x with
  | nil => intro m acc k _; simp
  | cons c x ih =>
    intro m acc k h
    have e := ih m (acc ++ [c]) k (fun d hd => h d (List.mem_cons_of_mem _ hd))
    simp only [List.append_assoc, List.singleton_append] at e
    rw [← e, show (c :: x).length + k = (x.length + k) + 1 by simp; omega]
    simp only [List.cons_append]
    rw [fragLoop.eq_def]
    simp only
    rw [if_neg (h c (by simp))]

theorem blanks_end (j : Nat) (r : Bytes) : (j = 0 ∧ blanks j ++ 0 :: r = 0 :: r) ∨ ∃ i, j = i + 1 ∧ blanks j ++ 0 :: r = 32 :: (blanks i ++ 0 :: r) ∧ spaces (blanks i ++ 0 :: r) (i + 1) = true := by
  cases j with
  | zero => left; exact ⟨rfl, rfl⟩
  | succ i =>
    right
    refine ⟨i, rfl, rfl, ?_⟩
    have := spaces_end (blanks i) r
    simp only [blanks, List.length_replicate] at this ⊢
    rw [this]
    simp [blank]

/-- what follows the path, or the query -/
def fpart (f : Bytes) : Bytes := if f = [] then [] else 35 :: f
def qpart (q : Bytes) : Bytes := if q = [] then [] else 63 :: q

theorem frag_part {f : Bytes} (h : ∀ c ∈ f, c ≠ 32) (j : Nat) (r : Bytes) : frag (fpart f ++ (blanks j ++ 0 :: r)) ((fpart f).length + j) = .ok f := by
  have e : ∀ acc, fragLoop (blanks j ++ 0 :: r) j acc = .ok acc := by
    intro acc
    rcases blanks_end j r with ⟨rfl, e⟩ | ⟨i, rfl, e, e'⟩
    · rw [e]; rfl
    · rw [e, fragLoop, if_pos rfl, e']; rfl
  unfold fpart
  by_cases hf : f = []
  · rw [if_pos hf, hf]
    simp only [List.nil_append]
    rcases blanks_end j r with ⟨rfl, e⟩ | ⟨i, rfl, e, e'⟩
    · rw [e]; rfl
    · rw [e]; rfl
  · rw [if_neg hf]
    simp only [List.cons_append, List.length_cons]
    rw [frag, if_pos rfl, show f.length + 1 + j - 1 = f.length + j by omega, fragLoop_seg f _ _ _ h, e]
    rfl

theorem query_stop (f : Bytes) (j : Nat) (r acc : Bytes) : queryLoop (fpart f ++ (blanks j ++ 0 :: r)) ((fpart f).length + j) acc = .ok (acc, fpart f ++ (blanks j ++ 0 :: r), (fpart f).length + j) := by
  unfold fpart
  by_cases hf : f = []
  · rw [if_pos hf]
    simp only [List.nil_append, List.length_nil, Nat.zero_add]
    rcases blanks_end j r with ⟨rfl, e⟩ | ⟨i, rfl, e, e'⟩
    · rw [e]; rfl
    · rw [e, queryLoop, if_neg (by decide), if_pos rfl, e']; rfl
  · rw [if_neg hf]
    simp only [List.cons_append]
    rw [queryLoop, if_pos (.inr rfl)]

theorem query_part {q : Bytes} (h : ∀ c ∈ q, c ≠ 0 ∧ c ≠ 35 ∧ c ≠ 32) (f : Bytes) (j : Nat) (r : Bytes) :
    query (qpart q ++ (fpart f ++ (blanks j ++ 0 :: r))) ((qpart q).length + ((fpart f).length + j)) = .ok (q, fpart f ++ (blanks j ++ 0 :: r), (fpart f).length + j) := by
  unfold qpart
  by_cases hq : q = []
  · rw [if_pos hq, hq]
    simp only [List.nil_append, List.length_nil, Nat.zero_add]
    unfold fpart
    by_cases hf : f = []
    · rw [if_pos hf]
      simp only [List.nil_append, List.length_nil, Nat.zero_add]
      rcases blanks_end j r with ⟨rfl, e⟩ | ⟨i, rfl, e, e'⟩
      · rw [e]; rfl
      · rw [e]; rfl
    · rw [if_neg hf]; rfl
  · rw [if_neg hq]
    simp only [List.cons_append, List.length_cons]
    rw [query, if_pos rfl, queryLoop_seg q _ _ _ h, show q.length + 1 + ((fpart f).length + j) - 1 - q.length = (fpart f).length + j by omega, query_stop]
    rfl

theorem path_stop (q f : Bytes) (j : Nat) (r acc : Bytes) :
    pathLoop (qpart q ++ (fpart f ++ (blanks j ++ 0 :: r))) ((qpart q).length + ((fpart f).length + j)) acc = .ok (acc, qpart q ++ (fpart f ++ (blanks j ++ 0 :: r)), (qpart q).length + ((fpart f).length + j)) := by
  unfold qpart
  by_cases hq : q = []
  · rw [if_pos hq]
    simp only [List.nil_append, List.length_nil, Nat.zero_add]
    unfold fpart
    by_cases hf : f = []
    · rw [if_pos hf]
      simp only [List.nil_append, List.length_nil, Nat.zero_add]
      rcases blanks_end j r with ⟨rfl, e⟩ | ⟨i, rfl, e, e'⟩
      · rw [e]; rfl
      · rw [e, pathLoop, if_neg (by decide), if_pos rfl, e']; rfl
    · rw [if_neg hf]
      simp only [List.cons_append, List.length_cons]
      rw [show f.length + 1 + j = (f.length + j) + 1 by omega, pathLoop, if_pos (.inr rfl)]
  · rw [if_neg hq]
    simp only [List.cons_append, List.length_cons]
    rw [show q.length + 1 + ((fpart f).length + j) = (q.length + ((fpart f).length + j)) + 1 by omega, pathLoop, if_pos (.inl rfl)]

/-- a path -/
def GoodPath (p : Bytes) : Prop := p = [] ∨ ∃ p', p = 47 :: p' ∧ ∀ c ∈ p', c ≠ 63 ∧ c ≠ 35 ∧ c ≠ 32

theorem path_part {p : Bytes} (h : GoodPath p) (q f : Bytes) (j : Nat) (r : Bytes) :
    path (p ++ (qpart q ++ (fpart f ++ (blanks j ++ 0 :: r)))) (p.length + ((qpart q).length + ((fpart f).length + j))) = .ok (p, qpart q ++ (fpart f ++ (blanks j ++ 0 :: r)), (qpart q).length + ((fpart f).length + j)) := by
  rcases h with rfl | ⟨p', rfl, hp⟩
  · simp only [List.nil_append, List.length_nil, Nat.zero_add]
    unfold qpart
    by_cases hq : q = []
    · rw [if_pos hq]
      simp only [List.nil_append, List.length_nil, Nat.zero_add]
      unfold fpart
      by_cases hf : f = []
      · rw [if_pos hf]
        simp only [List.nil_append, List.length_nil, Nat.zero_add]
        rcases blanks_end j r with ⟨rfl, e⟩ | ⟨i, rfl, e, e'⟩
        · rw [e]; rfl
        · rw [e]; rfl
      · rw [if_neg hf]; rfl
    · rw [if_neg hq]; rfl
  · simp only [List.cons_append, List.length_cons]
    rw [path, if_pos rfl, show p'.length + 1 + ((qpart q).length + ((fpart f).length + j)) - 1 = p'.length + ((qpart q).length + ((fpart f).length + j)) by omega, pathLoop_seg p' _ _ _ hp, path_stop]
    rfl

theorem auth_stop {p : Bytes} (h : GoodPath p) (q f : Bytes) (j : Nat) (r : Bytes) (a : Auth) :
    auth (p ++ (qpart q ++ (fpart f ++ (blanks j ++ 0 :: r)))) (p.length + ((qpart q).length + ((fpart f).length + j))) a = .ok (a, p ++ (qpart q ++ (fpart f ++ (blanks j ++ 0 :: r))), p.length + ((qpart q).length + ((fpart f).length + j))) := by
  have st : ∀ (c : UInt8) (m : Bytes) (k : Nat), stop c → auth (c :: m) (k + 1) a = .ok (a, c :: m, k + 1) := by
    intro c m k hc
    rw [auth.eq_def]
    simp only
    rw [if_pos (show c = 0 ∨ c = 35 ∨ c = 47 ∨ c = 63 from hc)]
  rcases h with rfl | ⟨p', rfl, hp⟩
  · simp only [List.nil_append, List.length_nil, Nat.zero_add]
    unfold qpart
    by_cases hq : q = []
    · rw [if_pos hq]
      simp only [List.nil_append, List.length_nil, Nat.zero_add]
      unfold fpart
      by_cases hf : f = []
      · rw [if_pos hf]
        simp only [List.nil_append, List.length_nil, Nat.zero_add]
        rcases blanks_end j r with ⟨rfl, e⟩ | ⟨i, rfl, e, e'⟩
        · rw [e, auth.eq_def]
        · rw [e, auth.eq_def]
          simp only
          rw [if_neg (by decide), if_neg (by decide), if_neg (by decide), if_pos trivial, e']
          rfl
      · rw [if_neg hf]
        simp only [List.cons_append, List.length_cons]
        rw [show f.length + 1 + j = (f.length + j) + 1 by omega]
        exact st _ _ _ (by decide)
    · rw [if_neg hq]
      simp only [List.cons_append, List.length_cons]
      rw [show q.length + 1 + ((fpart f).length + j) = (q.length + ((fpart f).length + j)) + 1 by omega]
      exact st _ _ _ (by decide)
  · simp only [List.cons_append, List.length_cons]
    rw [show p'.length + 1 + ((qpart q).length + ((fpart f).length + j)) = (p'.length + ((qpart q).length + ((fpart f).length + j))) + 1 by omega]
    exact st _ _ _ (by decide)

theorem tail_parts (u : Url) {p q f : Bytes} (hp : GoodPath p) (hq : ∀ c ∈ q, c ≠ 0 ∧ c ≠ 35 ∧ c ≠ 32) (hf : ∀ c ∈ f, c ≠ 32) (j : Nat) (r : Bytes) :
    tail u (p ++ (qpart q ++ (fpart f ++ (blanks j ++ 0 :: r)))) (p.length + ((qpart q).length + ((fpart f).length + j))) = .ok { u with path := p, query := q, fragment := f } := by
  unfold tail
  rw [path_part hp]
  simp only [Res.bind]
  rw [query_part hq]
  simp only
  rw [frag_part hf]

/-! ### Host and port -/

theorem split_digits : ∀ (l ds : Bytes) (h : Bytes), h ≠ [] → (∀ c ∈ l, 48 ≤ c ∧ c ≤ 57) → split (l ++ 58 :: h) ds = some (h.reverse, l.reverse ++ ds) := by
  intro l
  induction l with
  | nil =>
    intro ds h hn _
    cases h with
    | nil => exact absurd rfl hn
    | cons b h => simp [split]
  | cons c l ih =>
    intro ds h hn hd
    have e := ih (c :: ds) h hn (fun d hd' => hd d (List.mem_cons_of_mem _ hd'))
    cases l with
    | nil =>
      simp only [List.nil_append, List.cons_append] at e ⊢
      rw [split, if_pos (hd c (by simp)), e]
      simp
    | cons b l =>
      simp only [List.cons_append] at e ⊢
      rw [split, if_pos (hd c (by simp)), e]
      simp

theorem split_none : ∀ (l ds : Bytes), 58 ∉ l → split l ds = none := by
  intro l
  induction l with
  | nil => intro ds _; rfl
  | cons c l ih =>
    intro ds h
    cases l with
    | nil => rfl
    | cons b l =>
      rw [split]
      split
      · exact ih _ (fun hm => h (List.mem_cons_of_mem _ hm))
      · rw [if_neg (fun hc => h (by simp [hc]))]

theorem hostPort_good {h p : Bytes} (hc : 58 ∉ h ∨ h.getLast? = some 93) (hp : ∀ c ∈ p, 48 ≤ c ∧ c ≤ 57) (hn : p ≠ [] → h ≠ []) : hostPort (h ++ (if p = [] then [] else 58 :: p)) = (h, p) := by
  unfold hostPort
  by_cases hp0 : p = []
  · rw [if_pos hp0, hp0]
    simp only [List.append_nil]
    have : split h.reverse [] = none := by
      rcases hc with hc | hc
      · exact split_none _ _ (by simpa using hc)
      · obtain ⟨l, rfl⟩ : ∃ l, h = l ++ [93] := by
          have hn : h ≠ [] := by intro h0; simp [h0] at hc
          refine ⟨h.dropLast, ?_⟩
          have e := List.dropLast_concat_getLast hn
          rw [List.getLast?_eq_some_getLast hn] at hc
          rw [Option.some.inj hc] at e
          exact e.symm
        simp only [List.reverse_append, List.reverse_cons, List.reverse_nil, List.nil_append, List.cons_append]
        cases l.reverse with
        | nil => rfl
        | cons b l => rw [split, if_neg (by decide), if_neg (by decide)]
    rw [this]
    rfl
  · rw [if_neg hp0]
    have e := split_digits p.reverse [] h.reverse (by simpa using hn hp0) (fun c hc => hp c (by simpa using hc))
    rw [show (h ++ 58 :: p).reverse = p.reverse ++ 58 :: h.reverse by simp, e]
    simp

theorem stop_digit {c : UInt8} (h : 48 ≤ c ∧ c ≤ 57) : ¬ stop c ∧ c ≠ 32 ∧ c ≠ 64 ∧ c ≠ 58 := by
  obtain ⟨h1, h2⟩ := h
  have h1' : 48 ≤ c.toNat := UInt8.le_iff_toNat_le.1 h1
  have h2' : c.toNat ≤ 57 := UInt8.le_iff_toNat_le.1 h2
  refine ⟨?_, ?_, ?_, ?_⟩
  · rintro (rfl | rfl | rfl | rfl) <;> simp at h1' h2'
  · rintro rfl; simp at h1'
  · rintro rfl; simp at h2'
  · rintro rfl; simp at h2'

theorem render_nb {u : Url} (hg : Good u) : ∀ c ∈ render u, c ≠ 32 := by
  intro c hc
  unfold render at hc
  simp only [List.mem_append] at hc
  rcases hc with (((((hc | hc) | hc) | hc) | hc) | hc) | hc
  · split at hc
    · cases hc
    · simp only [List.mem_append, List.mem_cons, List.not_mem_nil, or_false] at hc
      rcases hc with hc | rfl | rfl | rfl
      · exact (hg.scheme c hc).2.1
      all_goals decide
  · split at hc
    · cases hc
    · simp only [List.mem_append, List.mem_cons, List.not_mem_nil, or_false] at hc
      rcases hc with hc | rfl
      · exact (hg.userinfo c hc).2.1
      · decide
  · exact (hg.host c hc).2.1
  · split at hc
    · cases hc
    · simp only [List.mem_cons] at hc
      rcases hc with rfl | hc
      · decide
      · exact (stop_digit (hg.port c hc)).2.1
  · rcases hg.path with h | ⟨p, h, hp⟩
    · rw [h] at hc; cases hc
    · rw [h] at hc
      simp only [List.mem_cons] at hc
      rcases hc with rfl | hc
      · decide
      · exact (hp c hc).2.2
  · split at hc
    · cases hc
    · simp only [List.mem_cons] at hc
      rcases hc with rfl | hc
      · decide
      · exact (hg.query c hc).2.2
  · split at hc
    · cases hc
    · simp only [List.mem_cons] at hc
      rcases hc with rfl | hc
      · decide
      · exact hg.fragment c hc

/-- host and port, as they are written -/
def hpart (u : Url) : Bytes := u.host ++ (if u.port = [] then [] else 58 :: u.port)

theorem auth_good {u : Url} (hg : Good u) (j : Nat) (r : Bytes) (a : Auth) :
    auth (hpart u ++ (u.path ++ (qpart u.query ++ (fpart u.fragment ++ (blanks j ++ 0 :: r))))) ((hpart u).length + (u.path.length + ((qpart u.query).length + ((fpart u.fragment).length + j)))) a =
      .ok ({ a with acc := a.acc ++ hpart u }, u.path ++ (qpart u.query ++ (fpart u.fragment ++ (blanks j ++ 0 :: r))), u.path.length + ((qpart u.query).length + ((fpart u.fragment).length + j))) := by
  rw [auth_seg, auth_stop hg.path]
  · intro c hc
    unfold hpart at hc
    simp only [List.mem_append] at hc
    rcases hc with hc | hc
    · exact hg.host c hc
    · split at hc
      · cases hc
      · simp only [List.mem_cons] at hc
        rcases hc with rfl | hc
        · decide
        · have := stop_digit (hg.port c hc); exact ⟨this.1, this.2.1, this.2.2.1⟩
  · left
    unfold hpart
    by_cases hp : u.port = []
    · rw [if_pos hp]
      simp only [List.append_nil]
      rcases hg.colon with h | h
      · intro hl; exact h (List.mem_of_getLast? hl)
      · rw [h]; decide
    · rw [if_neg hp]
      intro hl
      have hl' : u.port.getLast? = some 58 := by
        obtain ⟨c, p, e⟩ : ∃ c p, u.port = c :: p := by
          cases h : u.port with
          | nil => exact absurd h hp
          | cons c p => exact ⟨c, p, rfl⟩
        rw [e] at hl ⊢
        simpa [List.getLast?_append, List.getLast?_cons] using hl
      exact (stop_digit (hg.port 58 (List.mem_of_getLast? hl'))).2.2.2 rfl

theorem auth_ui {u : Url} (hg : Good u) (m : Bytes) (k : Nat) (a : Auth) (ha : a.userinfo = none) (hacc : a.acc = []) :
    ∃ a', auth ((if u.userinfo = [] then [] else u.userinfo ++ [64]) ++ m) ((if u.userinfo = [] then [] else u.userinfo ++ [64] : Bytes).length + k) a = auth m k a' ∧ a'.acc = [] ∧ a'.scheme = a.scheme ∧ a'.userinfo.getD [] = u.userinfo := by
  by_cases h : u.userinfo = []
  · rw [if_pos h]
    exact ⟨a, by simp, hacc, rfl, by rw [ha, h]; rfl⟩
  · rw [if_neg h]
    refine ⟨{ a with acc := [], userinfo := some u.userinfo }, ?_, rfl, rfl, rfl⟩
    rw [show u.userinfo ++ [64] ++ m = u.userinfo ++ (64 :: m) by simp, show List.length (u.userinfo ++ [64] : List UInt8) + k = u.userinfo.length + (k + 1) by simp; omega, auth_seg _ _ _ _ hg.userinfo (.inr ⟨64, m, rfl, by decide⟩), auth_at m k { a with acc := a.acc ++ u.userinfo } ha]
    simp [hacc]

theorem auth_sc {u : Url} (hg : Good u) (m : Bytes) (k : Nat) :
    ∃ a', auth ((if u.scheme = [] then [] else u.scheme ++ [58, 47, 47]) ++ m) ((if u.scheme = [] then [] else u.scheme ++ [58, 47, 47] : Bytes).length + k) {} = auth m k a' ∧ a'.acc = [] ∧ a'.scheme.getD [] = u.scheme ∧ a'.userinfo = none := by
  by_cases h : u.scheme = []
  · rw [if_pos h]
    exact ⟨{}, by simp, rfl, by rw [h]; rfl, rfl⟩
  · rw [if_neg h]
    refine ⟨{ scheme := some u.scheme }, ?_, rfl, rfl, rfl⟩
    rw [show u.scheme ++ [58, 47, 47] ++ m = u.scheme ++ (58 :: 47 :: 47 :: m) by simp, show List.length (u.scheme ++ [58, 47, 47] : List UInt8) + k = u.scheme.length + (k + 3) by simp; omega,
      auth_seg _ _ _ _ (fun c hc => ⟨(hg.scheme c hc).1, (hg.scheme c hc).2.1, (hg.scheme c hc).2.2.1⟩) (.inl (fun hl => (hg.scheme _ (List.mem_of_getLast? hl)).2.2.2 rfl)), auth_scheme m k _ rfl]
    simp

/-- Good components that are put together, with blanks around them, are found again. -/
theorem C130_found (u : Url) (hg : Good u) (i j : Nat) (r : Bytes) : parse (blanks i ++ render u ++ blanks j) (0 :: r) = .ok u := by
  let T := u.path ++ (qpart u.query ++ (fpart u.fragment ++ (blanks j ++ 0 :: r)))
  let K := u.path.length + ((qpart u.query).length + ((fpart u.fragment).length + j))
  let sc : Bytes := if u.scheme = [] then [] else u.scheme ++ [58, 47, 47]
  let ui : Bytes := if u.userinfo = [] then [] else u.userinfo ++ [64]
  have hM : blanks i ++ render u ++ blanks j ++ 0 :: r = blanks i ++ (sc ++ (ui ++ (hpart u ++ T))) := by
    simp only [render, sc, ui, T, hpart, qpart, fpart, List.append_assoc]
  have hL : (blanks i ++ render u ++ blanks j).length = i + (sc.length + (ui.length + ((hpart u).length + K))) := by
    have hb : ∀ n, (blanks n).length = n := by intro n; simp [blanks]
    simp only [render, sc, ui, K, hpart, qpart, fpart, List.length_append, hb]
    omega
  have hskip : skip (blanks i ++ (sc ++ (ui ++ (hpart u ++ T)))) (i + (sc.length + (ui.length + ((hpart u).length + K)))) = .ok (sc ++ (ui ++ (hpart u ++ T)), sc.length + (ui.length + ((hpart u).length + K))) ∨
      u = {} ∧ skip (blanks i ++ (sc ++ (ui ++ (hpart u ++ T)))) (i + (sc.length + (ui.length + ((hpart u).length + K)))) = .ok (0 :: r, 0) := by
    have hr : sc ++ (ui ++ (hpart u ++ T)) = render u ++ (blanks j ++ 0 :: r) := by
      simp only [render, sc, ui, T, hpart, qpart, fpart, List.append_assoc]
    have hk : sc.length + (ui.length + ((hpart u).length + K)) = (render u).length + j := by
      simp only [render, sc, ui, K, hpart, qpart, fpart, List.length_append]
      omega
    rw [hr, hk]
    cases hu : render u with
    | nil =>
      right
      constructor
      · have h := hu
        simp only [render, List.append_eq_nil_iff] at h
        obtain ⟨⟨⟨⟨⟨⟨h1, h2⟩, h3⟩, h4⟩, h5⟩, h6⟩, h7⟩ := h
        obtain ⟨a1, a2, a3, a4, a5, a6, a7⟩ := u
        simp only at h1 h2 h3 h4 h5 h6 h7
        have e1 : a1 = [] := Classical.byContradiction fun h => by simp [h] at h1
        have e2 : a2 = [] := Classical.byContradiction fun h => by simp [h] at h2
        have e4 : a4 = [] := Classical.byContradiction fun h => by simp [h] at h4
        have e6 : a6 = [] := Classical.byContradiction fun h => by simp [h] at h6
        have e7 : a7 = [] := Classical.byContradiction fun h => by simp [h] at h7
        rw [e1, e2, h3, e4, h5, e6, e7]
      · have := skip_blanks r (i + j) 0 0 (.inr rfl)
        rw [← this]
        simp [blanks, ← List.replicate_append_replicate]
    | cons c m =>
      left
      have := skip_blanks (m ++ (blanks j ++ 0 :: r)) i ((c :: m).length + j) c (.inl (render_nb hg c (by rw [hu]; simp)))
      simpa using this
  unfold parse
  rw [hM, hL]
  rcases hskip with h | ⟨hu, h⟩ <;> rw [h] <;> simp only [Res.bind]
  · obtain ⟨a1, e1, b1, c1, d1⟩ := auth_sc hg (ui ++ (hpart u ++ T)) (ui.length + ((hpart u).length + K))
    obtain ⟨a2, e2, b2, c2, d2⟩ := auth_ui hg (hpart u ++ T) ((hpart u).length + K) a1 d1 b1
    have e3 := auth_good hg j r a2
    have e : auth (sc ++ (ui ++ (hpart u ++ T))) (sc.length + (ui.length + ((hpart u).length + K))) {} = .ok ({ a2 with acc := a2.acc ++ hpart u }, T, K) := e1.trans (e2.trans e3)
    rw [e]
    simp only
    have hh := hostPort_good hg.colon hg.port hg.named
    have := tail_parts (Auth.url { a2 with acc := a2.acc ++ hpart u }) hg.path hg.query hg.fragment j r
    refine this.trans ?_
    simp only [Auth.url, b2, List.nil_append]
    rw [c2, c1, d2, show hostPort (hpart u) = (u.host, u.port) from hh]
  · rw [hu, auth.eq_def]
    rfl

/-- `https://john.doe@www.example.com:123/forum/questions/?tag=networking#top` -/
example : Good { scheme := [104, 116, 116, 112, 115], userinfo := [106, 58, 100], host := [119, 46, 99], port := [49, 50, 51], path := [47, 102, 47], query := [116, 61, 110], fragment := [116, 111, 112] } := by
  refine ⟨?_, ?_, ?_, .inl (by decide), ?_, by simp, .inr ⟨_, rfl, ?_⟩, ?_, ?_⟩ <;> decide

/-- A port that is one is returned; so is any number that fits into an `int`, and -1 for others. -/
theorem C130_port (u : Url) (hp : u.port ≠ []) :
    (num u.port < 65536 → u.port16 = num u.port) ∧ (num u.port < 2147483648 → u.integerPort = num u.port) ∧ (2147483648 ≤ num u.port → u.integerPort = -1) := by
  have e : num u.port < 2147483648 → u.integerPort = num u.port := fun h => by rw [Url.integerPort, if_neg hp, if_pos (by omega)]
  refine ⟨fun h => ?_, e, fun h => by rw [Url.integerPort, if_neg hp, if_neg (by omega)]⟩
  rw [Url.port16, e (by omega)]
  omega

example : num [56, 48, 56, 48] = 8080 := by decide

/-! ## What is wrong -/

/-- A view that is not followed by NUL: what is behind it becomes part of the query; -/
theorem C131_view_partial (p q x r : Bytes) (hp : ∀ c ∈ p, c ≠ 63 ∧ c ≠ 35 ∧ c ≠ 32) (hq : ∀ c ∈ q ++ x, c ≠ 0 ∧ c ≠ 35 ∧ c ≠ 32) :
    parse (47 :: p ++ 63 :: q) (x ++ 0 :: r) = .ok { path := 47 :: p, query := q ++ x } := by
  have e1 : skip (47 :: p ++ 63 :: q ++ (x ++ 0 :: r)) (47 :: p ++ 63 :: q).length = .ok (47 :: p ++ 63 :: q ++ (x ++ 0 :: r), (47 :: p ++ 63 :: q).length) := by
    simp only [List.cons_append, List.length_cons]
    rw [skip, if_neg (by decide)]
  have e2 : auth (47 :: p ++ 63 :: q ++ (x ++ 0 :: r)) (47 :: p ++ 63 :: q).length {} = .ok ({}, 47 :: p ++ 63 :: q ++ (x ++ 0 :: r), (47 :: p ++ 63 :: q).length) := by
    simp only [List.cons_append, List.length_cons]
    rw [auth.eq_def]
    simp only
    rw [if_pos (by decide)]
  have e3 : path (47 :: p ++ 63 :: q ++ (x ++ 0 :: r)) (47 :: p ++ 63 :: q).length = .ok (47 :: p, 63 :: ((q ++ x) ++ 0 :: r), q.length + 1) := by
    simp only [List.cons_append, List.length_cons, List.append_assoc]
    rw [path, if_pos rfl, show (p ++ 63 :: q).length + 1 - 1 = p.length + (q.length + 1) by simp, pathLoop_seg p _ _ _ hp, pathLoop, if_pos (.inl rfl)]
    rfl
  have e4 : query (63 :: ((q ++ x) ++ 0 :: r)) (q.length + 1) = .ok (q ++ x, 0 :: r, q.length - (q ++ x).length) := by
    rw [query, if_pos rfl, queryLoop_seg (q ++ x) _ _ _ hq, queryLoop, if_pos (.inl rfl)]
    rfl
  unfold parse
  rw [e1]
  simp only [Res.bind]
  rw [e2]
  simp only [tail]
  rw [e3]
  simp only [Res.bind]
  rw [e4]
  rfl

/-- or memory behind it is read that is not there. -/
theorem C131_read_partial (p : Bytes) (hp : ∀ c ∈ p, c ≠ 63 ∧ c ≠ 35 ∧ c ≠ 32) : parse (47 :: p) [] = .crash := by
  have e1 : skip (47 :: p ++ []) (47 :: p).length = .ok (47 :: p, (47 :: p).length) := by
    simp only [List.append_nil, List.length_cons]
    rw [skip, if_neg (by decide)]
  have e2 : auth (47 :: p) (47 :: p).length {} = .ok ({}, 47 :: p, (47 :: p).length) := by
    simp only [List.length_cons]
    rw [auth.eq_def]
    simp only
    rw [if_pos (by decide)]
  have e3 : path (47 :: p) (47 :: p).length = .ok (47 :: p, [], 0) := by
    have := pathLoop_seg p [] [47] 0 hp
    simp only [List.append_nil, Nat.add_zero] at this
    simp only [List.length_cons]
    rw [path, if_pos rfl, Nat.add_sub_cancel, this, pathLoop]
    rfl
  unfold parse
  rw [e1]
  simp only [Res.bind]
  rw [e2]
  simp only [tail]
  rw [e3]
  rfl

/-- Ends of lines are accepted, and are in what is put on the request line. -/
theorem C131_lines_partial (x y r : Bytes) (h : ∀ c ∈ x ++ y, c ≠ 63 ∧ c ≠ 35 ∧ c ≠ 32) : ∃ u, parse (47 :: (x ++ [13, 10] ++ y)) (0 :: r) = .ok u ∧ u.requestUri = 47 :: (x ++ [13, 10] ++ y) := by
  have hg : Good { path := 47 :: (x ++ [13, 10] ++ y) } := by
    refine ⟨by simp, by simp, by simp, .inl (by simp), by simp, by simp, .inr ⟨_, rfl, ?_⟩, by simp, by simp⟩
    intro c hc
    simp only [List.append_assoc, List.mem_append, List.mem_cons, List.not_mem_nil, or_false] at hc
    rcases hc with hc | (rfl | rfl) | hc
    · exact h c (by simp [hc])
    · decide
    · decide
    · exact h c (by simp [hc])
  refine ⟨{ path := 47 :: (x ++ [13, 10] ++ y) }, ?_, by simp [Url.requestUri]⟩
  have := C130_found _ hg 0 0 r
  simpa [render, blanks] using this

/-- The fragment is sent to the server. -/
theorem C131_fragment_partial (u : Url) (hg : Good u) (hf : u.fragment ≠ []) (r : Bytes) : ∃ v, parse (render u) (0 :: r) = .ok v ∧ v.requestUri = u.path ++ (if u.query = [] then [] else 63 :: u.query) ++ 35 :: u.fragment := by
  refine ⟨u, ?_, by simp [Url.requestUri, hf]⟩
  have := C130_found _ hg 0 0 r
  simpa [blanks] using this

/-- Without a path, what is put on the request line does not begin with a slash. -/
theorem C131_root_partial (u : Url) (hg : Good u) (hp : u.path = []) (r : Bytes) : ∃ v, parse (render u) (0 :: r) = .ok v ∧ v.requestUri.head? ≠ some 47 := by
  refine ⟨u, ?_, ?_⟩
  · have := C130_found _ hg 0 0 r
    simpa [blanks] using this
  · simp only [Url.requestUri, hp, List.nil_append]
    by_cases hq : u.query = []
    · by_cases hf : u.fragment = []
      · simp [hq, hf]
      · simp [hq, hf]
    · simp [hq]

/-- The first `@` ends the user information, not the last one. -/
theorem C131_at_partial (x y z r : Bytes) (h : ∀ c ∈ x ++ y ++ z, ¬ stop c ∧ c ≠ 32 ∧ c ≠ 64 ∧ c ≠ 58) : parse (x ++ 64 :: (y ++ 64 :: z)) (0 :: r) = .ok { userinfo := x, host := y ++ 64 :: z } := by
  have hx : ∀ c ∈ x, ¬ stop c ∧ c ≠ 32 ∧ c ≠ 64 := fun c hc => by have := h c (by simp [hc]); exact ⟨this.1, this.2.1, this.2.2.1⟩
  have hy : ∀ c ∈ y, ¬ stop c ∧ c ≠ 32 ∧ c ≠ 64 := fun c hc => by have := h c (by simp [hc]); exact ⟨this.1, this.2.1, this.2.2.1⟩
  have hz : ∀ c ∈ z, ¬ stop c ∧ c ≠ 32 ∧ c ≠ 64 := fun c hc => by have := h c (by simp [hc]); exact ⟨this.1, this.2.1, this.2.2.1⟩
  have l : ∀ s : Bytes, (∀ c ∈ s, c ≠ 58) → s.getLast? ≠ some 58 := fun s hs hl => hs 58 (List.mem_of_getLast? hl) rfl
  have e1 : skip (x ++ 64 :: (y ++ 64 :: z) ++ 0 :: r) (x ++ 64 :: (y ++ 64 :: z)).length = .ok (x ++ (64 :: (y ++ (64 :: (z ++ 0 :: r)))), x.length + ((y.length + ((z.length + 0) + 1)) + 1)) := by
    have hh : ∀ (c : UInt8) (m m' : Bytes), c ≠ 32 → skip (c :: m ++ m') (c :: m).length = .ok (c :: m ++ m', (c :: m).length) := by
      intro c m m' hc
      simp only [List.cons_append, List.length_cons]
      rw [skip, if_neg hc]
    cases x with
    | nil =>
      have := hh 64 (y ++ 64 :: z) (0 :: r) (by decide)
      simpa [Nat.add_assoc] using this
    | cons c x =>
      have := hh c (x ++ 64 :: (y ++ 64 :: z)) (0 :: r) (h c (by simp)).2.1
      rw [show (c :: x).length + ((y.length + ((z.length + 0) + 1)) + 1) = (c :: (x ++ 64 :: (y ++ 64 :: z))).length by simp; omega]
      simpa using this
  have e2 : auth (x ++ (64 :: (y ++ (64 :: (z ++ 0 :: r))))) (x.length + ((y.length + ((z.length + 0) + 1)) + 1)) {} = .ok ({ acc := y ++ 64 :: z, userinfo := some x }, 0 :: r, 0) := by
    rw [auth_seg _ _ _ _ hx (.inl (l x fun c hc => (h c (by simp [hc])).2.2.2)), auth_at _ _ _ rfl, auth_seg _ _ _ _ hy (.inl (l y fun c hc => (h c (by simp [hc])).2.2.2)), auth.eq_def]
    simp only
    rw [if_neg (by decide), if_neg (by decide), if_pos trivial, if_neg (by simp), show z.length = z.length + 0 from rfl, auth_seg z _ 0 _ hz (.inl (l z fun c hc => (h c (by simp [hc])).2.2.2)), auth.eq_def]
    simp
  have e3 : hostPort (y ++ 64 :: z) = (y ++ 64 :: z, []) := by
    unfold hostPort
    rw [split_none]
    · rfl
    · simp only [List.mem_reverse, List.mem_append, List.mem_cons, not_or]
      exact ⟨fun hc => (h 58 (by simp [hc])).2.2.2 rfl, by decide, fun hc => (h 58 (by simp [hc])).2.2.2 rfl⟩
  unfold parse
  rw [e1]
  simp only [Res.bind]
  rw [e2]
  simp only [Auth.url]
  rw [e3]
  rfl

/-- Numbers that are no port are taken for one. -/
theorem C131_port_partial (u : Url) : (u.port = [] → u.port16 = 65535) ∧ (u.port ≠ [] → 65536 ≤ num u.port → 0 ≤ u.port16 ∧ u.port16 < 65536) := by
  constructor
  · intro h
    rw [Url.port16, Url.integerPort, if_pos h]
    decide
  · intro _ _
    unfold Url.port16
    omega

example : ({ port := [54, 53, 54, 49, 54] } : Url).port16 = 80 := by decide

end Verif.Http.Url
