import Verif.Sync.HashMap

/-!
# What holds of the concurrent hash map
-/

namespace Verif.Sync.HashMap

/-! ## Paths -/

theorem Path.frame {nx : Nat → Option Nat} {o : Option Nat} {l : List Nat} (h : Path nx o l) (y : Nat) (z : Option Nat) (hy : y ∉ l) : Path (upd nx y z) o l := by
  induction h with
  | nil => exact .nil
  | cons h ih =>
    rename_i a l
    refine .cons ?_
    rw [upd_ne _ _ fun e => hy (by rw [e]; exact List.mem_cons_self)]
    exact ih fun hm => hy (List.mem_cons_of_mem _ hm)

theorem Path.unique {nx : Nat → Option Nat} {o : Option Nat} {l l' : List Nat} (h : Path nx o l) (h' : Path nx o l') : l = l' := by
  induction h generalizing l' with
  | nil => cases h'; rfl
  | cons h ih =>
    cases h' with
    | cons h' => rw [ih h']

/-- From the place after `p` on, the path is another one. -/
theorem Path.subst {nx : Nat → Option Nat} {p : Nat} {x : Option Nat} {r' : List Nat} (hr : Path nx x r') (hp' : p ∉ r') {l0 r : List Nat} {o : Option Nat} (h : Path nx o (l0 ++ p :: r)) (hp : p ∉ l0) :
    Path (upd nx p x) o (l0 ++ p :: r') := by
  induction l0 generalizing o with
  | nil =>
    cases h with
    | cons h =>
      refine .cons ?_
      rw [upd_same]
      exact hr.frame _ _ hp'
  | cons a l0 ih =>
    cases h with
    | cons h =>
      refine .cons ?_
      rw [upd_ne _ _ fun e => hp (by rw [← e]; exact List.mem_cons_self)]
      exact ih h fun hm => hp (List.mem_cons_of_mem _ hm)

/-- The rest of a path. -/
theorem Path.rest {nx : Nat → Option Nat} {n : Nat} {l2 l1 : List Nat} {o : Option Nat} (h : Path nx o (l1 ++ n :: l2)) : Path nx (nx n) l2 := by
  induction l1 generalizing o with
  | nil => cases h; assumption
  | cons a l1 ih =>
    cases h with
    | cons h => exact ih h

/-- A node is unlinked: paths lose at most it. -/
theorem Path.unlink {nx : Nat → Option Nat} {p n : Nat} (hp : nx p = some n) : ∀ (k : Nat) {o : Option Nat} {l : List Nat}, l.length ≤ k → Path nx o l →
    ∃ l', Path (upd nx p (nx n)) o l' ∧ (∀ a ∈ l', a ∈ l) ∧ ∀ a ∈ l, a = n ∨ a ∈ l' := by
  intro k
  induction k with
  | zero =>
    intro o l hl h
    cases h with
    | nil => exact ⟨[], .nil, fun _ h => h, fun _ h => .inr h⟩
    | cons h => simp at hl
  | succ k ih =>
    intro o l hl h
    cases h with
    | nil => exact ⟨[], .nil, fun _ h => h, fun _ h => .inr h⟩
    | cons h =>
      rename_i a l
      simp only [List.length_cons] at hl
      by_cases ha : a = p
      · subst ha
        rw [hp] at h
        cases h with
        | cons h =>
          rename_i l
          simp only [List.length_cons] at hl
          obtain ⟨l', h1, h2, h3⟩ := ih (by omega) h
          refine ⟨a :: l', .cons (by rw [upd_same]; exact h1), fun x hx => ?_, fun x hx => ?_⟩
          · rcases List.mem_cons.1 hx with rfl | hx
            · exact List.mem_cons_self
            · exact List.mem_cons_of_mem _ (List.mem_cons_of_mem _ (h2 x hx))
          · rcases List.mem_cons.1 hx with rfl | hx
            · exact .inr List.mem_cons_self
            · rcases List.mem_cons.1 hx with rfl | hx
              · exact .inl rfl
              · exact (h3 x hx).imp id (List.mem_cons_of_mem _)
      · obtain ⟨l', h1, h2, h3⟩ := ih (by omega) h
        refine ⟨a :: l', .cons (by rw [upd_ne _ _ ha]; exact h1), fun x hx => ?_, fun x hx => ?_⟩
        · rcases List.mem_cons.1 hx with rfl | hx
          · exact List.mem_cons_self
          · exact List.mem_cons_of_mem _ (h2 x hx)
        · rcases List.mem_cons.1 hx with rfl | hx
          · exact .inr List.mem_cons_self
          · exact (h3 x hx).imp id (List.mem_cons_of_mem _)

/-- A node is replaced: paths get the new one. -/
theorem Path.replace {nx : Nat → Option Nat} {p n c : Nat} (hp : nx p = some n) (hc : nx c = nx n) (hcp : c ≠ p) : ∀ (k : Nat) {o : Option Nat} {l : List Nat}, l.length ≤ k → Path nx o l →
    ∃ l', Path (upd nx p (some c)) o l' ∧ (∀ a ∈ l', a ∈ l ∨ a = c) ∧ ∀ a ∈ l, a ∈ l' ∨ a = n ∧ c ∈ l' := by
  intro k
  induction k with
  | zero =>
    intro o l hl h
    cases h with
    | nil => exact ⟨[], .nil, fun _ h => .inl h, fun _ h => .inl h⟩
    | cons h => simp at hl
  | succ k ih =>
    intro o l hl h
    cases h with
    | nil => exact ⟨[], .nil, fun _ h => .inl h, fun _ h => .inl h⟩
    | cons h =>
      rename_i a l
      simp only [List.length_cons] at hl
      by_cases ha : a = p
      · subst ha
        rw [hp] at h
        cases h with
        | cons h =>
          rename_i l
          simp only [List.length_cons] at hl
          obtain ⟨l', h1, h2, h3⟩ := ih (by omega) h
          refine ⟨a :: c :: l', .cons (by rw [upd_same]; exact .cons (by rw [upd_ne _ _ hcp, hc]; exact h1)), fun x hx => ?_, fun x hx => ?_⟩
          · rcases List.mem_cons.1 hx with rfl | hx
            · exact .inl List.mem_cons_self
            · rcases List.mem_cons.1 hx with rfl | hx
              · exact .inr rfl
              · exact (h2 x hx).imp (fun h => List.mem_cons_of_mem _ (List.mem_cons_of_mem _ h)) id
          · rcases List.mem_cons.1 hx with rfl | hx
            · exact .inl List.mem_cons_self
            · rcases List.mem_cons.1 hx with rfl | hx
              · exact .inr ⟨rfl, List.mem_cons_of_mem _ List.mem_cons_self⟩
              · exact (h3 x hx).imp (fun h => List.mem_cons_of_mem _ (List.mem_cons_of_mem _ h)) fun h => ⟨h.1, List.mem_cons_of_mem _ (List.mem_cons_of_mem _ h.2)⟩
      · obtain ⟨l', h1, h2, h3⟩ := ih (by omega) h
        refine ⟨a :: l', .cons (by rw [upd_ne _ _ ha]; exact h1), fun x hx => ?_, fun x hx => ?_⟩
        · rcases List.mem_cons.1 hx with rfl | hx
          · exact .inl List.mem_cons_self
          · exact (h2 x hx).imp (List.mem_cons_of_mem _) id
        · rcases List.mem_cons.1 hx with rfl | hx
          · exact .inl List.mem_cons_self
          · exact (h3 x hx).imp (List.mem_cons_of_mem _) fun h => ⟨h.1, List.mem_cons_of_mem _ h.2⟩

/-! ## The invariant -/

/-- The mutex that a thread has. -/
def T.mutex (mi mb : Nat → Nat) : T → Option Nat
  | .hold _ k _ _ _ _ => some (mi k)
  | .count k _ _ => some (mi k)
  | .unl k _ => some (mi k)
  | .clr i => some (mb i)
  | .clu i => some (mb i)
  | _ => none

/-- The node that a `Get` has got to, and whose key it has looked at. -/
def T.after : T → Option (Nat × Nat)
  | .get k (some x) => some (k, x)
  | .got k (some x) _ => some (k, x)
  | .exposed k (some x) _ => some (k, x)
  | _ => none

def T.wres : T → Option Res
  | .count _ r _ => some r
  | .unl _ r => some r
  | .ret r => some r
  | _ => none

/-- The buckets, as lists of nodes. -/
structure M (bi : Nat → Nat) (L : Nat → List Nat) (hd nx : Nat → Option Nat) (ky vl : Nat → Nat) (nn : Nat) (rt : Nat → Bool) (m : Nat → Option Nat) : Prop where
  path : ∀ b, Path nx (hd b) (L b)
  keys : ∀ b, ((L b).map ky).Nodup
  inb : ∀ b a, a ∈ L b → a < nn ∧ bi (ky a) = b ∧ m (ky a) = some (vl a)
  full : ∀ k, m k ≠ none → ∃ a ∈ L (bi k), ky a = k
  alive : ∀ b a, a ∈ L b → rt a = false
  old : ∀ a, rt a = true → a < nn

/-- What a `Get` will see from here. -/
def RD (nx : Nat → Option Nat) (ky vl : Nat → Nat) (nn : Nat) (seen : List (Option Nat)) (k : Nat) (o : Option Nat) : Prop :=
  ∃ l, Path nx o l ∧ (∀ a ∈ l, a < nn) ∧ (∀ a ∈ l, ky a = k → some (vl a) ∈ seen) ∧ (none ∈ seen ∨ ∃ a ∈ l, ky a = k)

/-- A writer has got so far in its bucket. -/
def HD (bi : Nat → Nat) (L : Nat → List Nat) (hd nx : Nat → Option Nat) (ky : Nat → Nat) (k : Nat) (pos node h : Option Nat) : Prop :=
  h = hd (bi k) ∧ ∃ l1 l2, L (bi k) = l1 ++ l2 ∧ Path nx node l2 ∧ pos = l1.getLast? ∧ ∀ a ∈ l1, ky a ≠ k

structure I (bi mi mb : Nat → Nat) (L : Nat → List Nat) (hd nx : Nat → Option Nat) (ky vl : Nat → Nat) (nn : Nat) (rt : Nat → Bool) (lk : Nat → Option Nat) (th : Nat → T) (m : Nat → Option Nat) (seen : Nat → List (Option Nat)) (ex : Nat → Res) : Prop where
  mem : M bi L hd nx ky vl nn rt m
  lock : ∀ t x, (th t).mutex mi mb = some x → lk x = some t
  hold : ∀ t o k v pos node h, th t = .hold o k v pos node h → HD bi L hd nx ky k pos node h
  after : ∀ t k x, (th t).after = some (k, x) → RD nx ky vl nn (seen t) k (some x) ∧ ky x ≠ k
  cmp : ∀ t k p, th t = .cmp k p → RD nx ky vl nn (seen t) k p
  cur : ∀ t k, (th t).rkey = some k → m k ∈ seen t
  gret : ∀ t r, th t = .gret r → r ∈ seen t
  wres : ∀ t r, (th t).wres = some r → ex t = r

def S.I (s : S) (bi mi mb : Nat → Nat) (L : Nat → List Nat) : Prop := HashMap.I bi mi mb L s.hd s.nx s.ky s.vl s.nn s.rt s.lk s.th s.m s.seen s.ex

theorem I.init (bi mi mb : Nat → Nat) : S.init.I bi mi mb fun _ => [] :=
  ⟨⟨fun _ => .nil, fun _ => List.nodup_nil, fun _ _ h => (by cases h), fun _ h => absurd rfl h, fun _ _ h => (by cases h), fun _ h => (by cases h)⟩, fun _ _ h => (by cases h), fun _ _ _ _ _ _ _ h => (by cases h), fun _ _ _ h => (by cases h), fun _ _ _ h => (by cases h), fun _ _ h => (by cases h),
    fun _ _ h => (by cases h), fun _ _ h => (by cases h)⟩

/-- A thread does something with no effect on the nodes. -/
theorem I.thread {bi mi mb : Nat → Nat} {L : Nat → List Nat} {hd nx : Nat → Option Nat} {ky vl : Nat → Nat} {nn : Nat} {rt : Nat → Bool} {lk : Nat → Option Nat} {th : Nat → T} {m : Nat → Option Nat} {seen : Nat → List (Option Nat)} {ex : Nat → Res}
    (h : I bi mi mb L hd nx ky vl nn rt lk th m seen ex) (t : Nat) (x : T) {lk' : Nat → Option Nat} {seen' : Nat → List (Option Nat)} {ex' : Nat → Res}
    (h1 : ∀ y, x.mutex mi mb = some y → lk' y = some t) (h1' : ∀ t' y, t' ≠ t → (th t').mutex mi mb = some y → lk' y = some t')
    (h2 : ∀ o k v pos node h, x = .hold o k v pos node h → HD bi L hd nx ky k pos node h)
    (h3 : ∀ k y, x.after = some (k, y) → RD nx ky vl nn (seen' t) k (some y) ∧ ky y ≠ k)
    (h4 : ∀ k p, x = .cmp k p → RD nx ky vl nn (seen' t) k p) (h5 : ∀ k, x.rkey = some k → m k ∈ seen' t) (h6 : ∀ r, x = .gret r → r ∈ seen' t) (h7 : ∀ r, x.wres = some r → ex' t = r)
    (hs : ∀ t', t' ≠ t → seen' t' = seen t') (he : ∀ t', t' ≠ t → ex' t' = ex t') : I bi mi mb L hd nx ky vl nn rt lk' (upd th t x) m seen' ex' := by
  refine ⟨h.mem, ?_, ?_, ?_, ?_, ?_, ?_, ?_⟩
  · intro t' y hy
    by_cases ht : t' = t
    · subst ht; rw [upd_same] at hy; exact h1 y hy
    · rw [upd_ne _ _ ht] at hy; exact h1' t' y ht hy
  · intro t' o k v pos node hh hy
    by_cases ht : t' = t
    · subst ht; rw [upd_same] at hy; exact h2 _ _ _ _ _ _ hy
    · rw [upd_ne _ _ ht] at hy; exact h.hold _ _ _ _ _ _ _ hy
  · intro t' k y hy
    by_cases ht : t' = t
    · subst ht; rw [upd_same] at hy; exact h3 _ _ hy
    · rw [upd_ne _ _ ht] at hy; rw [hs t' ht]; exact h.after _ _ _ hy
  · intro t' k y hy
    by_cases ht : t' = t
    · subst ht; rw [upd_same] at hy; exact h4 _ _ hy
    · rw [upd_ne _ _ ht] at hy; rw [hs t' ht]; exact h.cmp _ _ _ hy
  · intro t' k hy
    by_cases ht : t' = t
    · subst ht; rw [upd_same] at hy; exact h5 _ hy
    · rw [upd_ne _ _ ht] at hy; rw [hs t' ht]; exact h.cur _ _ hy
  · intro t' r hy
    by_cases ht : t' = t
    · subst ht; rw [upd_same] at hy; exact h6 _ hy
    · rw [upd_ne _ _ ht] at hy; rw [hs t' ht]; exact h.gret _ _ hy
  · intro t' r hy
    by_cases ht : t' = t
    · subst ht; rw [upd_same] at hy; exact h7 _ hy
    · rw [upd_ne _ _ ht] at hy; rw [he t' ht]; exact h.wres _ _ hy

theorem seenBy_none {x : T} {m : Nat → Option Nat} {l : List (Option Nat)} (h : x.rkey = none) : seenBy x m l = l := by
  unfold seenBy
  rw [h]

theorem seenBy_some {x : T} {m : Nat → Option Nat} {l : List (Option Nat)} {k : Nat} (h : x.rkey = some k) : seenBy x m l = m k :: l := by
  unfold seenBy
  rw [h]

theorem after_rkey {x : T} {k y : Nat} (h : x.after = some (k, y)) : x.rkey = some k := by
  unfold T.after at h
  split at h <;> cases h <;> rfl

/-- The holder of the mutex of a bucket changes the nodes of the bucket. -/
theorem I.change {bi mi mb : Nat → Nat} (hm : ∀ k, mi k = mb (bi k)) {L : Nat → List Nat} {hd nx : Nat → Option Nat} {ky vl : Nat → Nat} {nn : Nat} {rt : Nat → Bool} {lk : Nat → Option Nat} {th : Nat → T} {m : Nat → Option Nat} {seen : Nat → List (Option Nat)}
    {ex : Nat → Res} (h : I bi mi mb L hd nx ky vl nn rt lk th m seen ex) (t b : Nat) (x : T) {L' : Nat → List Nat} {hd' nx' : Nat → Option Nat} {ky' vl' : Nat → Nat} {nn' : Nat} {rt' : Nat → Bool} {m' : Nat → Option Nat} {ex' : Nat → Res}
    (hM : M bi L' hd' nx' ky' vl' nn' rt' m') (hn : nn ≤ nn') (hk : ∀ a, a < nn → ky' a = ky a) (hv : ∀ a, a < nn → vl' a = vl a)
    (hP : ∀ o l, Path nx o l → (∀ a ∈ l, a < nn) → ∃ l', Path nx' o l' ∧ (∀ a ∈ l', a < nn' ∧ (a ∈ l ∨ m' (ky' a) = some (vl' a))) ∧ ∀ a ∈ l, a ∈ l' ∨ m' (ky a) = none ∨ ∃ c ∈ l', ky' c = ky a)
    (hF : ∀ b', b' ≠ b → L' b' = L b' ∧ hd' b' = hd b' ∧ ∀ o l, (∀ a ∈ l, a ∈ L b') → Path nx o l → Path nx' o l)
    (hx : x.mutex mi mb = some (mb b)) (ht : (th t).mutex mi mb = some (mb b)) (hr : x.rkey = none) (hh : ∀ o k v pos node h, x ≠ .hold o k v pos node h) (hg : ∀ r, x ≠ .gret r) (hw : ∀ r, x.wres = some r → ex' t = r)
    (he : ∀ t', t' ≠ t → ex' t' = ex t') : I bi mi mb L' hd' nx' ky' vl' nn' rt' lk (upd th t x) m' (fun t => seenBy (th t) m' (seen t)) ex' := by
  have hRD : ∀ t' k o, (th t').rkey = some k → RD nx ky vl nn (seen t') k o → RD nx' ky' vl' nn' (seenBy (th t') m' (seen t')) k o := by
    intro t' k o hr' ⟨l, h1, h2, h3, h4⟩
    rw [seenBy_some hr']
    obtain ⟨l', h5, h6, h7⟩ := hP o l h1 h2
    refine ⟨l', h5, fun a ha => (h6 a ha).1, fun a ha hak => ?_, ?_⟩
    · rcases (h6 a ha).2 with h8 | h8
      · rw [hk a (h2 a h8)] at hak
        rw [hv a (h2 a h8)]
        exact List.mem_cons_of_mem _ (h3 a h8 hak)
      · rw [hak] at h8
        rw [← h8]
        exact List.mem_cons_self
    · rcases h4 with h4 | ⟨a, h4, hak⟩
      · exact .inl (List.mem_cons_of_mem _ h4)
      · rcases h7 a h4 with h8 | h8 | ⟨c, h8, h9⟩
        · exact .inr ⟨a, h8, by rw [hk a (h2 a h4)]; exact hak⟩
        · rw [hak] at h8
          rw [← h8]
          exact .inl List.mem_cons_self
        · exact .inr ⟨c, h8, h9.trans hak⟩
  refine ⟨hM, ?_, ?_, ?_, ?_, ?_, ?_, ?_⟩
  · intro t' y hy
    by_cases e : t' = t
    · subst e; rw [upd_same, hx, ← ht] at hy; exact h.lock _ _ hy
    · rw [upd_ne _ _ e] at hy; exact h.lock _ _ hy
  · intro t' o k v pos node h0 hy
    by_cases e : t' = t
    · subst e; rw [upd_same] at hy; exact absurd hy (hh _ _ _ _ _ _)
    · rw [upd_ne _ _ e] at hy
      have hb : bi k ≠ b := by
        intro hb
        have l1 := h.lock t' (mi k) (by rw [hy]; rfl)
        have l2 := h.lock t _ ht
        rw [hm k, hb, l2] at l1
        cases l1
        exact e rfl
      obtain ⟨f1, f2, f3⟩ := hF _ hb
      obtain ⟨g1, l1, l2, g2, g3, g4, g5⟩ := h.hold _ _ _ _ _ _ _ hy
      refine ⟨by rw [f2]; exact g1, l1, l2, by rw [f1]; exact g2, f3 _ _ (fun a ha => by rw [g2]; exact List.mem_append_right _ ha) g3, g4, fun a ha => ?_⟩
      rw [hk a (h.mem.inb (bi k) a (by rw [g2]; exact List.mem_append_left _ ha)).1]
      exact g5 a ha
  · intro t' k y hy
    by_cases e : t' = t
    · subst e; rw [upd_same] at hy; rw [after_rkey hy] at hr; cases hr
    · rw [upd_ne _ _ e] at hy
      have := h.after t' k y hy
      refine ⟨hRD t' k _ (after_rkey hy) this.1, ?_⟩
      obtain ⟨l, h1, h2, _⟩ := this.1
      cases h1 with
      | cons h1 => rw [hk y (h2 y List.mem_cons_self)]; exact this.2
  · intro t' k p hy
    by_cases e : t' = t
    · subst e; rw [upd_same] at hy; rw [hy] at hr; cases hr
    · rw [upd_ne _ _ e] at hy
      exact hRD t' k _ (by rw [hy]; rfl) (h.cmp t' k p hy)
  · intro t' k hy
    by_cases e : t' = t
    · subst e; rw [upd_same, hr] at hy; cases hy
    · rw [upd_ne _ _ e] at hy
      show m' k ∈ seenBy (th t') m' (seen t')
      rw [seenBy_some hy]
      exact List.mem_cons_self
  · intro t' r hy
    by_cases e : t' = t
    · subst e; rw [upd_same] at hy; exact absurd hy (hg _)
    · rw [upd_ne _ _ e] at hy
      show r ∈ seenBy (th t') m' (seen t')
      rw [seenBy_none (by rw [hy]; rfl)]
      exact h.gret _ _ hy
  · intro t' r hy
    by_cases e : t' = t
    · subst e; rw [upd_same] at hy; exact hw _ hy
    · rw [upd_ne _ _ e] at hy; rw [he _ e]; exact h.wres _ _ hy

/-- What a `Get` will see from the head of the bucket. -/
theorem M.head {bi : Nat → Nat} {L : Nat → List Nat} {hd nx : Nat → Option Nat} {ky vl : Nat → Nat} {nn : Nat} {rt : Nat → Bool} {m : Nat → Option Nat} (h : M bi L hd nx ky vl nn rt m) {seen : List (Option Nat)} {k : Nat} (hs : m k ∈ seen) :
    RD nx ky vl nn seen k (hd (bi k)) := by
  refine ⟨L (bi k), h.path _, fun a ha => (h.inb _ a ha).1, fun a ha hk => ?_, ?_⟩
  · have := (h.inb _ a ha).2.2
    rw [hk] at this
    rw [← this]
    exact hs
  · by_cases hn : m k = none
    · exact .inl (by rw [← hn]; exact hs)
    · exact .inr (h.full k hn)

/-- The keys of the nodes tell them apart. -/
theorem key_inj {ky : Nat → Nat} : ∀ {l : List Nat}, (l.map ky).Nodup → ∀ {a b}, a ∈ l → b ∈ l → ky a = ky b → a = b
  | [], _, _, _, h, _, _ => by cases h
  | c :: l, hn, a, b, ha, hb, e => by
    rw [List.map_cons, List.nodup_cons] at hn
    rcases List.mem_cons.1 ha with e1 | h1
    · rcases List.mem_cons.1 hb with e2 | h2
      · rw [e1, e2]
      · exact (hn.1 (List.mem_map.2 ⟨b, h2, by rw [← e, e1]⟩)).elim
    · rcases List.mem_cons.1 hb with e2 | h2
      · exact (hn.1 (List.mem_map.2 ⟨a, h1, by rw [e, e2]⟩)).elim
      · exact key_inj hn.2 h1 h2 e

section changes

variable {bi : Nat → Nat} {L : Nat → List Nat} {hd nx : Nat → Option Nat} {ky vl : Nat → Nat} {nn : Nat} {rt : Nat → Bool} {m : Nat → Option Nat}

theorem M.other (h : M bi L hd nx ky vl nn rt m) {l1 l2 : List Nat} {n b : Nat} (hL : L b = l1 ++ n :: l2) {a : Nat} (ha : a ∈ l1 ++ l2) : ky a ≠ ky n := by
  have := h.keys b
  rw [hL, List.map_append, List.map_cons, List.nodup_append, List.nodup_cons] at this
  obtain ⟨_, ⟨h2, _⟩, h3⟩ := this
  rcases List.mem_append.1 ha with ha | ha
  · exact h3 _ (List.mem_map.2 ⟨a, ha, rfl⟩) _ List.mem_cons_self
  · exact fun e => h2 (List.mem_map.2 ⟨a, ha, e⟩)

theorem M.nodup (h : M bi L hd nx ky vl nn rt m) {l1 l2 : List Nat} {n b : Nat} (hL : L b = l1 ++ n :: l2) : n ∉ l1 ∧ n ∉ l2 :=
  ⟨fun hm => h.other hL (List.mem_append_left _ hm) rfl, fun hm => h.other hL (List.mem_append_right _ hm) rfl⟩

theorem M.erase (h : M bi L hd nx ky vl nn rt m) {l1 l2 : List Nat} {n k : Nat} (hL : L (bi k) = l1 ++ n :: l2) (hk : ky n = k) {hd' nx' : Nat → Option Nat} (hp : ∀ b, Path nx' (hd' b) (upd L (bi k) (l1 ++ l2) b)) :
    M bi (upd L (bi k) (l1 ++ l2)) hd' nx' ky vl nn (upd rt n true) (upd m k none) := by
  have sub : ∀ {a}, a ∈ l1 ++ l2 → a ∈ L (bi k) := fun {a} ha => by
    rw [hL]
    rcases List.mem_append.1 ha with ha | ha
    · exact List.mem_append_left _ ha
    · exact List.mem_append_right _ (List.mem_cons_of_mem _ ha)
  refine ⟨hp, ?_, ?_, ?_, ?_, ?_⟩
  · intro b
    rw [upd_apply]
    split
    · have := h.keys (bi k)
      rw [hL] at this
      exact this.sublist (((List.sublist_cons_self n l2).append_left l1).map ky)
    · exact h.keys b
  · intro b a ha
    rw [upd_apply] at ha
    split at ha
    · rename_i hb
      subst hb
      have := h.inb _ a (sub ha)
      rw [upd_ne _ _ (by rw [← hk]; exact h.other hL ha)]
      exact this
    · rename_i hb
      have := h.inb _ a ha
      rw [upd_ne _ _ (by rintro rfl; exact hb this.2.1.symm)]
      exact this
  · intro k' hk'
    rw [upd_apply] at hk'
    split at hk'
    · exact absurd rfl hk'
    · rename_i hne
      obtain ⟨a, ha, hak⟩ := h.full k' hk'
      by_cases hb : bi k' = bi k
      · rw [hb, upd_same]
        rw [hb, hL] at ha
        refine ⟨a, ?_, hak⟩
        rcases List.mem_append.1 ha with ha | ha
        · exact List.mem_append_left _ ha
        · rcases List.mem_cons.1 ha with rfl | ha
          · exact absurd (hak.symm.trans hk) hne
          · exact List.mem_append_right _ ha
      · rw [upd_ne _ _ hb]
        exact ⟨a, ha, hak⟩
  · intro b a ha
    rw [upd_apply L] at ha
    split at ha
    · rw [upd_ne _ _ (by rintro rfl; exact h.other hL ha rfl)]
      exact h.alive _ a (sub ha)
    · rename_i hb
      rw [upd_ne _ _ (by rintro rfl; exact hb ((h.inb b a ha).2.1.symm.trans (by rw [hk])))]
      exact h.alive _ a ha
  · intro a ha
    rw [upd_apply] at ha
    split at ha
    · rename_i e
      rw [e]
      exact (h.inb (bi k) n (by rw [hL]; exact List.mem_append_right _ List.mem_cons_self)).1
    · exact h.old a ha

theorem M.assign (h : M bi L hd nx ky vl nn rt m) {l1 l2 : List Nat} {n k v : Nat} (hL : L (bi k) = l1 ++ n :: l2) (hk : ky n = k) {hd' nx' : Nat → Option Nat} (hp : ∀ b, Path nx' (hd' b) (upd L (bi k) (l1 ++ nn :: l2) b)) :
    M bi (upd L (bi k) (l1 ++ nn :: l2)) hd' nx' (upd ky nn k) (upd vl nn v) (nn + 1) (upd rt n true) (upd m k (some v)) := by
  have sub : ∀ {a}, a ∈ l1 ++ l2 → a ∈ L (bi k) := fun {a} ha => by
    rw [hL]
    rcases List.mem_append.1 ha with ha | ha
    · exact List.mem_append_left _ ha
    · exact List.mem_append_right _ (List.mem_cons_of_mem _ ha)
  have lt : ∀ {b a}, a ∈ L b → a ≠ nn := fun {b a} ha e => by have := (h.inb b a ha).1; omega
  have same : ∀ {l : List Nat}, (∀ a ∈ l, a ≠ nn) → l.map (upd ky nn k) = l.map ky := fun {l} hl => List.map_congr_left fun a ha => upd_ne _ _ (hl a ha)
  have mid : ∀ {a}, a ∈ l1 ++ nn :: l2 → a = nn ∨ a ∈ l1 ++ l2 := fun {a} ha => by
    rcases List.mem_append.1 ha with ha | ha
    · exact .inr (List.mem_append_left _ ha)
    · rcases List.mem_cons.1 ha with rfl | ha
      · exact .inl rfl
      · exact .inr (List.mem_append_right _ ha)
  have hnn : n < nn := (h.inb (bi k) n (by rw [hL]; exact List.mem_append_right _ List.mem_cons_self)).1
  have hfr : rt nn = false := by
    cases hr : rt nn with
    | false => rfl
    | true => have := h.old nn hr; omega
  refine ⟨hp, ?_, ?_, ?_, ?_, ?_⟩
  · intro b
    rw [upd_apply]
    split
    · have := h.keys (bi k)
      rw [hL, List.map_append, List.map_cons, hk] at this
      rw [List.map_append, List.map_cons, upd_same, same fun a ha => lt (sub (List.mem_append_left _ ha)), same fun a ha => lt (sub (List.mem_append_right _ ha))]
      exact this
    · rw [same fun a ha => lt ha]
      exact h.keys b
  · intro b a ha
    rw [upd_apply L] at ha
    split at ha
    · rename_i hb
      subst hb
      rcases mid ha with rfl | ha
      · rw [upd_same, upd_same, upd_same]
        exact ⟨by omega, rfl, rfl⟩
      · have := h.inb _ a (sub ha)
        rw [upd_ne _ _ (lt (sub ha)), upd_ne _ _ (lt (sub ha)), upd_ne _ _ (by rw [← hk]; exact h.other hL ha)]
        exact ⟨by omega, this.2⟩
    · rename_i hb
      have := h.inb _ a ha
      rw [upd_ne _ _ (lt ha), upd_ne _ _ (lt ha), upd_ne _ _ (by rintro rfl; exact hb this.2.1.symm)]
      exact ⟨by omega, this.2⟩
  · intro k' hk'
    by_cases hne : k' = k
    · subst hne
      rw [upd_same]
      exact ⟨nn, List.mem_append_right _ List.mem_cons_self, upd_same ..⟩
    · rw [upd_ne _ _ hne] at hk'
      obtain ⟨a, ha, hak⟩ := h.full k' hk'
      have hn := lt ha
      by_cases hb : bi k' = bi k
      · rw [hb, upd_same]
        rw [hb, hL] at ha
        refine ⟨a, ?_, by rw [upd_ne _ _ hn]; exact hak⟩
        rcases List.mem_append.1 ha with ha | ha
        · exact List.mem_append_left _ ha
        · rcases List.mem_cons.1 ha with rfl | ha
          · exact absurd (hak.symm.trans hk) hne
          · exact List.mem_append_right _ (List.mem_cons_of_mem _ ha)
      · rw [upd_ne _ _ hb]
        exact ⟨a, ha, by rw [upd_ne _ _ hn]; exact hak⟩
  · intro b a ha
    rw [upd_apply L] at ha
    split at ha
    · rcases mid ha with rfl | ha
      · rw [upd_ne _ _ (by omega)]
        exact hfr
      · rw [upd_ne _ _ (by rintro rfl; exact h.other hL ha rfl)]
        exact h.alive _ a (sub ha)
    · rename_i hb
      rw [upd_ne _ _ (by rintro rfl; exact hb ((h.inb b a ha).2.1.symm.trans (by rw [hk])))]
      exact h.alive _ a ha
  · intro a ha
    rw [upd_apply] at ha
    split at ha
    · omega
    · have := h.old a ha
      omega

theorem M.link (h : M bi L hd nx ky vl nn rt m) {k v : Nat} (hk : m k = none) : M bi (upd L (bi k) (nn :: L (bi k))) (upd hd (bi k) (some nn)) (upd nx nn (hd (bi k))) (upd ky nn k) (upd vl nn v) (nn + 1) rt (upd m k (some v)) := by
  have lt : ∀ {b a}, a ∈ L b → a ≠ nn := fun {b a} ha e => by have := (h.inb b a ha).1; omega
  have ne : ∀ {b a}, a ∈ L b → ky a ≠ k := fun {b a} ha e => by
    have := (h.inb b a ha).2.2
    rw [e, hk] at this
    cases this
  have same : ∀ {b}, (L b).map (upd ky nn k) = (L b).map ky := fun {b} => List.map_congr_left fun a ha => upd_ne _ _ (lt ha)
  have fr : ∀ b, Path (upd nx nn (hd (bi k))) (hd b) (L b) := fun b => (h.path b).frame _ _ fun hm => lt hm rfl
  have hfr : rt nn = false := by
    cases hr : rt nn with
    | false => rfl
    | true => have := h.old nn hr; omega
  refine ⟨?_, ?_, ?_, ?_, ?_, ?_⟩
  · intro b
    rw [upd_apply L, upd_apply hd]
    split
    · exact .cons (by rw [upd_same]; exact fr _)
    · exact fr b
  · intro b
    rw [upd_apply]
    split
    · rw [List.map_cons, upd_same, same, List.nodup_cons]
      refine ⟨fun hm => ?_, h.keys _⟩
      obtain ⟨a, ha, e⟩ := List.mem_map.1 hm
      exact ne ha e
    · rw [same]
      exact h.keys b
  · intro b a ha
    rw [upd_apply L] at ha
    have old : ∀ {b}, a ∈ L b → a < nn + 1 ∧ bi (upd ky nn k a) = b ∧ upd m k (some v) (upd ky nn k a) = some (upd vl nn v a) := fun {b} ha => by
      have := h.inb b a ha
      rw [upd_ne _ _ (lt ha), upd_ne _ _ (lt ha), upd_ne _ _ (ne ha)]
      exact ⟨by omega, this.2⟩
    split at ha
    · rename_i hb
      subst hb
      rcases List.mem_cons.1 ha with rfl | ha
      · rw [upd_same, upd_same, upd_same]
        exact ⟨by omega, rfl, rfl⟩
      · exact old ha
    · exact old ha
  · intro k' hk'
    by_cases hne : k' = k
    · subst hne
      rw [upd_same]
      exact ⟨nn, List.mem_cons_self, upd_same ..⟩
    · rw [upd_ne _ _ hne] at hk'
      obtain ⟨a, ha, hak⟩ := h.full k' hk'
      refine ⟨a, ?_, by rw [upd_ne _ _ (lt ha)]; exact hak⟩
      rw [upd_apply]
      split
      · rename_i hb
        rw [hb] at ha
        exact List.mem_cons_of_mem _ ha
      · exact ha
  · intro b a ha
    rw [upd_apply L] at ha
    split at ha
    · rcases List.mem_cons.1 ha with rfl | ha
      · exact hfr
      · exact h.alive _ a ha
    · exact h.alive _ a ha
  · intro a ha
    have := h.old a ha
    omega

theorem M.wipe (h : M bi L hd nx ky vl nn rt m) (i : Nat) : M bi (upd L i []) (upd hd i none) nx ky vl nn (fun n => rt n || (decide (n < nn) && decide (bi (ky n) = i))) (fun k => if bi k = i then none else m k) := by
  refine ⟨?_, ?_, ?_, ?_, ?_, ?_⟩
  · intro b
    rw [upd_apply, upd_apply]
    split
    · exact .nil
    · exact h.path b
  · intro b
    rw [upd_apply]
    split
    · exact List.nodup_nil
    · exact h.keys b
  · intro b a ha
    rw [upd_apply] at ha
    split at ha
    · cases ha
    · rename_i hb
      have := h.inb b a ha
      refine ⟨this.1, this.2.1, ?_⟩
      show (if bi (ky a) = i then none else m (ky a)) = _
      rw [if_neg (by rw [this.2.1]; exact hb)]
      exact this.2.2
  · intro k hk
    by_cases hb : bi k = i
    · exact absurd (if_pos hb) hk
    · rw [upd_ne _ _ hb]
      exact h.full k (by rw [← show (if bi k = i then none else m k) = m k from if_neg hb]; exact hk)
  · intro b a ha
    rw [upd_apply] at ha
    split at ha
    · cases ha
    · rename_i hb
      rw [h.alive b a ha, (h.inb b a ha).2.1]
      simp [hb]
  · intro a ha
    simp only [Bool.or_eq_true, Bool.and_eq_true, decide_eq_true_eq] at ha
    rcases ha with ha | ha
    · exact h.old a ha
    · exact ha.1

/-- A writer that has found the key. -/
theorem HD.found {k n : Nat} {pos h : Option Nat} (hh : HD bi L hd nx ky k pos (some n) h) : ∃ l1 l2, L (bi k) = l1 ++ n :: l2 ∧ Path nx (nx n) l2 ∧ pos = l1.getLast? := by
  obtain ⟨_, l1, l2, h1, h2, h3, _⟩ := hh
  cases h2 with
  | cons h2 => exact ⟨l1, _, h1, h2, h3⟩

theorem HD.value (hM : M bi L hd nx ky vl nn rt m) {k n : Nat} {pos h : Option Nat} (hh : HD bi L hd nx ky k pos (some n) h) (hk : ky n = k) : m k = some (vl n) := by
  obtain ⟨l1, l2, h1, _⟩ := hh.found
  rw [← hk]
  exact (hM.inb (bi k) n (by rw [h1]; exact List.mem_append_right _ List.mem_cons_self)).2.2

theorem HD.absent (hM : M bi L hd nx ky vl nn rt m) {k : Nat} {pos h : Option Nat} (hh : HD bi L hd nx ky k pos none h) : m k = none := by
  obtain ⟨_, l1, l2, h1, h2, _, h4⟩ := hh
  cases h2
  rw [List.append_nil] at h1
  cases hm : m k with
  | none => rfl
  | some w =>
    obtain ⟨a, ha, hak⟩ := hM.full k (by rw [hm]; nofun)
    rw [h1] at ha
    exact absurd hak (h4 a ha)

theorem last_split {l : List Nat} {p : Nat} (h : some p = l.getLast?) : ∃ l0, l = l0 ++ [p] := by
  have hn : l ≠ [] := by rintro rfl; cases h
  rw [List.getLast?_eq_some_getLast hn] at h
  cases h
  exact ⟨l.dropLast, (List.dropLast_concat_getLast hn).symm⟩

theorem last_none {l : List Nat} (h : none = l.getLast?) : l = [] := by
  cases l with
  | nil => rfl
  | cons a l =>
    rw [List.getLast?_eq_some_getLast (List.cons_ne_nil _ _)] at h
    cases h

end changes

theorem upd_eq {α : Type} (f : Nat → α) (i : Nat) {a : α} (h : f i = a) : upd f i a = f := by
  funext j
  rw [upd_apply]
  split
  · rename_i hj
    rw [hj, h]
  · rfl

/-- An operation takes effect without a change of the map. -/
theorem I.still {bi mi mb : Nat → Nat} {L : Nat → List Nat} {hd nx : Nat → Option Nat} {ky vl : Nat → Nat} {nn : Nat} {rt : Nat → Bool} {lk : Nat → Option Nat} {th : Nat → T} {m : Nat → Option Nat} {seen : Nat → List (Option Nat)} {ex : Nat → Res}
    (h : I bi mi mb L hd nx ky vl nn rt lk th m seen ex) : I bi mi mb L hd nx ky vl nn rt lk th m (fun t => seenBy (th t) m (seen t)) ex := by
  have sub : ∀ t y, y ∈ seen t → y ∈ seenBy (th t) m (seen t) := by
    intro t y hy
    unfold seenBy
    split
    · exact hy
    · exact List.mem_cons_of_mem _ hy
  have hRD : ∀ t k o, RD nx ky vl nn (seen t) k o → RD nx ky vl nn (seenBy (th t) m (seen t)) k o := fun t k o ⟨l, h1, h2, h3, h4⟩ => ⟨l, h1, h2, fun a ha hk => sub t _ (h3 a ha hk), h4.imp (sub t _) id⟩
  exact ⟨h.mem, h.lock, h.hold, fun t k x hx => ⟨hRD _ _ _ (h.after t k x hx).1, (h.after t k x hx).2⟩, fun t k p hp => hRD _ _ _ (h.cmp t k p hp), fun t k hk => sub _ _ (h.cur t k hk), fun t r hr => sub _ _ (h.gret t r hr), h.wres⟩

/-- What a `Get` will see after a node with another key. -/
theorem RD.tail {nx : Nat → Option Nat} {ky vl : Nat → Nat} {nn : Nat} {seen : List (Option Nat)} {k x : Nat} (h : RD nx ky vl nn seen k (some x)) (hk : ky x ≠ k) : RD nx ky vl nn seen k (nx x) := by
  obtain ⟨l, h1, h2, h3, h4⟩ := h
  cases h1 with
  | cons h1 =>
    refine ⟨_, h1, fun a ha => h2 a (List.mem_cons_of_mem _ ha), fun a ha => h3 a (List.mem_cons_of_mem _ ha), h4.imp id ?_⟩
    rintro ⟨a, ha, hak⟩
    rcases List.mem_cons.1 ha with rfl | ha
    · exact absurd hak hk
    · exact ⟨a, ha, hak⟩

/-- A reader at a place: what it will see from the pointer there. -/
theorem I.place {bi mi mb : Nat → Nat} {L : Nat → List Nat} {s : S} (h : s.I bi mi mb L) {t k : Nat} {src : Option Nat} (ha : ∀ x, src = some x → (s.th t).after = some (k, x)) (hr : (s.th t).rkey = some k) :
    RD s.nx s.ky s.vl s.nn (s.seen t) k (s.loc (bi k) src) := by
  cases src with
  | none => exact M.head h.mem (h.cur t k hr)
  | some x =>
    have := h.after t k x (ha x rfl)
    exact this.1.tail this.2

set_option maxHeartbeats 1000000 in
theorem I.step {bi mi mb : Nat → Nat} {nb : Nat} {gc cl : Bool} (hm : ∀ k, mi k = mb (bi k)) {L : Nat → List Nat} {s s' : S} (h : s.I bi mi mb L) (hs : Step bi mi mb nb gc cl s s') : ∃ L', s'.I bi mi mb L' := by
  have keep : ∀ t' y, (s.th t').mutex mi mb = some y → s.lk y = some t' := h.lock
  cases hs with
  | call t o k v h0 =>
    exact ⟨L, I.thread h t (.want o k v) nofun (fun t' y _ hy => keep t' y hy) nofun nofun nofun nofun nofun nofun (fun _ _ => rfl) (fun _ _ => rfl)⟩
  | lock t o k v h0 hl =>
    refine ⟨L, I.thread h t (.hold o k v none (s.hd (bi k)) (s.hd (bi k))) ?_ ?_ ?_ nofun nofun nofun nofun nofun (fun _ _ => rfl) (fun _ _ => rfl)⟩
    · intro y hy
      cases hy
      exact upd_same ..
    · intro t' y ht hy
      have := keep t' y hy
      show upd s.lk (mi k) (some t) y = some t'
      rw [upd_ne _ _ (by rintro rfl; rw [hl] at this; cases this)]
      exact this
    · intro o' k' v' pos node hd e
      cases e
      exact ⟨rfl, [], L (bi k), rfl, h.mem.path _, rfl, fun _ ha => (by cases ha)⟩
  | next t o k v pos n hd h0 hk =>
    refine ⟨L, I.thread h t (.hold o k v (some n) (s.nx n) hd) (fun y hy => ?_) (fun t' y _ hy => keep t' y hy) ?_ nofun nofun nofun nofun nofun (fun _ _ => rfl) (fun _ _ => rfl)⟩
    · exact keep t y (by rw [h0]; exact hy)
    · intro o' k' v' pos' node' hd' e
      cases e
      obtain ⟨g1, l1, l2, g2, g3, g4, g5⟩ := h.hold _ _ _ _ _ _ _ h0
      cases g3 with
      | cons g3 =>
        refine ⟨g1, l1 ++ [n], _, by rw [List.append_assoc]; exact g2, g3, by simp, fun a ha => ?_⟩
        rcases List.mem_append.1 ha with ha | ha
        · exact g5 a ha
        · rw [List.mem_singleton.1 ha]; exact hk
  | has t k v pos n hd h0 hk =>
    have hv := HD.value h.mem (h.hold _ _ _ _ _ _ _ h0) hk
    have e1 : upd s.m k (spec .ins v (s.m k)).1 = s.m := upd_eq _ _ (by rw [hv]; rfl)
    refine ⟨L, ?_⟩
    show HashMap.I bi mi mb L s.hd s.nx s.ky s.vl s.nn s.rt s.lk (upd s.th t _) (upd s.m k (spec .ins v (s.m k)).1) (fun t => seenBy (s.th t) (upd s.m k (spec .ins v (s.m k)).1) (s.seen t)) (upd s.ex t (spec .ins v (s.m k)).2)
    rw [e1]
    refine I.thread (I.still h) t (.unl k (false, none)) (fun y hy => keep t y (by rw [h0]; exact hy)) (fun t' y _ hy => keep t' y hy) nofun nofun nofun nofun nofun (fun r hr => ?_) (fun _ _ => rfl) (fun t' ht => upd_ne _ _ ht)
    cases hr
    rw [upd_same, hv]
    rfl
  | hasV t k v pos n hd h0 hk =>
    have hv := HD.value h.mem (h.hold _ _ _ _ _ _ _ h0) hk
    have e1 : upd s.m k (spec .gos v (s.m k)).1 = s.m := upd_eq _ _ (by rw [hv]; rfl)
    refine ⟨L, ?_⟩
    show HashMap.I bi mi mb L s.hd s.nx s.ky s.vl s.nn s.rt s.lk (upd s.th t _) (upd s.m k (spec .gos v (s.m k)).1) (fun t => seenBy (s.th t) (upd s.m k (spec .gos v (s.m k)).1) (s.seen t)) (upd s.ex t (spec .gos v (s.m k)).2)
    rw [e1]
    refine I.thread (I.still h) t (.unl k (true, some (s.vl n))) (fun y hy => keep t y (by rw [h0]; exact hy)) (fun t' y _ hy => keep t' y hy) nofun nofun nofun nofun nofun (fun r hr => ?_) (fun _ _ => rfl) (fun t' ht => upd_ne _ _ ht)
    cases hr
    rw [upd_same, hv]
    rfl
  | absent t k v pos hd h0 =>
    have hv := HD.absent h.mem (h.hold _ _ _ _ _ _ _ h0)
    have e1 : upd s.m k (spec .era v (s.m k)).1 = s.m := upd_eq _ _ (by rw [hv]; rfl)
    refine ⟨L, ?_⟩
    show HashMap.I bi mi mb L s.hd s.nx s.ky s.vl s.nn s.rt s.lk (upd s.th t _) (upd s.m k (spec .era v (s.m k)).1) (fun t => seenBy (s.th t) (upd s.m k (spec .era v (s.m k)).1) (s.seen t)) (upd s.ex t (spec .era v (s.m k)).2)
    rw [e1]
    refine I.thread (I.still h) t (.unl k (false, none)) (fun y hy => keep t y (by rw [h0]; exact hy)) (fun t' y _ hy => keep t' y hy) nofun nofun nofun nofun nofun (fun r hr => ?_) (fun _ _ => rfl) (fun t' ht => upd_ne _ _ ht)
    cases hr
    rw [upd_same, hv]
    rfl
  | erase t k v pos n hd h0 hk =>
    have hh := h.hold _ _ _ _ _ _ _ h0
    have hv := HD.value h.mem hh hk
    obtain ⟨l1, l2, g1, g2, g3⟩ := hh.found
    have e1 : (spec .era v (s.m k)).1 = none := by rw [hv]; rfl
    have e2 : (spec .era v (s.m k)).2 = (true, none) := by rw [hv]; rfl
    have ht : (s.th t).mutex mi mb = some (mb (bi k)) := by rw [h0, ← hm]; rfl
    have hx : (T.count k (true, none) (-1)).mutex mi mb = some (mb (bi k)) := by rw [← hm]; rfl
    have hw : ∀ r, (T.count k (true, none) (-1)).wres = some r → upd s.ex t (spec .era v (s.m k)).2 t = r := fun r hr => by cases hr; rw [upd_same]; exact e2
    refine ⟨upd L (bi k) (l1 ++ l2), ?_⟩
    cases pos with
    | none =>
      have hl := last_none g3
      subst hl
      show HashMap.I bi mi mb _ (upd s.hd (bi k) (s.nx n)) s.nx s.ky s.vl s.nn (upd s.rt n true) s.lk (upd s.th t _) (upd s.m k (spec .era v (s.m k)).1) (fun t => seenBy (s.th t) (upd s.m k (spec .era v (s.m k)).1) (s.seen t)) (upd s.ex t (spec .era v (s.m k)).2)
      rw [e1]
      refine I.change hm h t (bi k) _ (h.mem.erase g1 hk fun b => ?_) (Nat.le_refl _) (fun _ _ => rfl) (fun _ _ => rfl) (fun o l hp hl => ⟨l, hp, fun a ha => ⟨hl a ha, .inl ha⟩, fun a ha => .inl ha⟩)
        (fun b' hb => ⟨upd_ne _ _ hb, upd_ne _ _ hb, fun _ _ _ h => h⟩) hx ht rfl nofun nofun hw (fun t' ht => upd_ne _ _ ht)
      rw [upd_apply, upd_apply]
      split
      · exact g2
      · exact h.mem.path b
    | some p =>
      obtain ⟨l0, hl⟩ := last_split g3
      subst hl
      have hL : L (bi k) = l0 ++ p :: n :: l2 := by rw [g1, List.append_assoc]; rfl
      have hpp := h.mem.path (bi k)
      rw [hL] at hpp
      have hpn : s.nx p = some n := by
        have := hpp.rest
        generalize s.nx p = q at this
        cases this
        rfl
      obtain ⟨hp1, hp2⟩ := M.nodup h.mem hL
      have hpm : p ∈ L (bi k) := by rw [hL]; exact List.mem_append_right _ List.mem_cons_self
      have hpo : ∀ b', b' ≠ bi k → p ∉ L b' := fun b' hb hm => hb ((h.mem.inb b' p hm).2.1.symm.trans (h.mem.inb _ p hpm).2.1)
      show HashMap.I bi mi mb _ s.hd (upd s.nx p (s.nx n)) s.ky s.vl s.nn (upd s.rt n true) s.lk (upd s.th t _) (upd s.m k (spec .era v (s.m k)).1) (fun t => seenBy (s.th t) (upd s.m k (spec .era v (s.m k)).1) (s.seen t)) (upd s.ex t (spec .era v (s.m k)).2)
      rw [e1]
      refine I.change hm h t (bi k) _ (h.mem.erase g1 hk fun b => ?_) (Nat.le_refl _) (fun _ _ => rfl) (fun _ _ => rfl) (fun o l hp hl => ?_)
        (fun b' hb => ⟨upd_ne _ _ hb, rfl, fun o l hl hp => hp.frame _ _ fun hm => hpo b' hb (hl p hm)⟩) hx ht rfl nofun nofun hw (fun t' ht => upd_ne _ _ ht)
      · rw [upd_apply]
        split
        · rename_i hb
          rw [hb, List.append_assoc]
          exact Path.subst g2 (fun hm => hp2 (List.mem_cons_of_mem _ hm)) hpp hp1
        · rename_i hb
          exact (h.mem.path b).frame _ _ (hpo b hb)
      · obtain ⟨l', f1, f2, f3⟩ := Path.unlink hpn l.length (Nat.le_refl _) hp
        refine ⟨l', f1, fun a ha => ⟨hl a (f2 a ha), .inl (f2 a ha)⟩, fun a ha => ?_⟩
        rcases f3 a ha with rfl | f3
        · exact .inr (.inl (by rw [hk]; exact upd_same ..))
        · exact .inl f3
  | assign t k v pos n hd h0 hk =>
    have hh := h.hold _ _ _ _ _ _ _ h0
    have hv := HD.value h.mem hh hk
    obtain ⟨l1, l2, g1, g2, g3⟩ := hh.found
    have e1 : (spec .asg v (s.m k)).1 = some v := by rw [hv]; rfl
    have e2 : (spec .asg v (s.m k)).2 = (false, none) := by rw [hv]; rfl
    have ht : (s.th t).mutex mi mb = some (mb (bi k)) := by rw [h0, ← hm]; rfl
    have hx : (T.unl k (false, none)).mutex mi mb = some (mb (bi k)) := by rw [← hm]; rfl
    have hw : ∀ r, (T.unl k (false, none)).wres = some r → upd s.ex t (spec .asg v (s.m k)).2 t = r := fun r hr => by cases hr; rw [upd_same]; exact e2
    have lt : ∀ {b a}, a ∈ L b → a ≠ s.nn := fun {b a} ha e => by have := (h.mem.inb b a ha).1; omega
    have hky : ∀ a, a < s.nn → upd s.ky s.nn k a = s.ky a := fun a ha => upd_ne _ _ (by omega)
    have hvl : ∀ a, a < s.nn → upd s.vl s.nn v a = s.vl a := fun a ha => upd_ne _ _ (by omega)
    have sub2 : ∀ a ∈ l2, a ∈ L (bi k) := fun a ha => by rw [g1]; exact List.mem_append_right _ (List.mem_cons_of_mem _ ha)
    have fr : ∀ {o l}, (∀ a ∈ l, a < s.nn) → Path s.nx o l → Path (upd s.nx s.nn (s.nx n)) o l := fun hl hp => hp.frame _ _ fun hm => by have := hl _ hm; omega
    have hc : Path (upd s.nx s.nn (s.nx n)) (some s.nn) (s.nn :: l2) := .cons (by rw [upd_same]; exact fr (fun a ha => (h.mem.inb _ a (sub2 a ha)).1) g2)
    have hnn : n < s.nn := (h.mem.inb (bi k) n (by rw [g1]; exact List.mem_append_right _ List.mem_cons_self)).1
    refine ⟨upd L (bi k) (l1 ++ s.nn :: l2), ?_⟩
    cases pos with
    | none =>
      have hl := last_none g3
      subst hl
      show HashMap.I bi mi mb _ (upd s.hd (bi k) (some s.nn)) (upd s.nx s.nn (s.nx n)) (upd s.ky s.nn k) (upd s.vl s.nn v) (s.nn + 1) (upd s.rt n true) s.lk (upd s.th t _) (upd s.m k (spec .asg v (s.m k)).1) (fun t => seenBy (s.th t) (upd s.m k (spec .asg v (s.m k)).1) (s.seen t)) (upd s.ex t (spec .asg v (s.m k)).2)
      rw [e1]
      refine I.change hm h t (bi k) _ (h.mem.assign g1 hk fun b => ?_) (Nat.le_succ _) hky hvl (fun o l hp hl => ⟨l, fr hl hp, fun a ha => ⟨Nat.lt_succ_of_lt (hl a ha), .inl ha⟩, fun a ha => .inl ha⟩)
        (fun b' hb => ⟨upd_ne _ _ hb, upd_ne _ _ hb, fun o l hl hp => fr (fun a ha => (h.mem.inb _ a (hl a ha)).1) hp⟩) hx ht rfl nofun nofun hw (fun t' ht => upd_ne _ _ ht)
      rw [upd_apply L, upd_apply s.hd]
      split
      · exact hc
      · exact fr (fun a ha => (h.mem.inb _ a ha).1) (h.mem.path b)
    | some p =>
      obtain ⟨l0, hl⟩ := last_split g3
      subst hl
      have hL : L (bi k) = l0 ++ p :: n :: l2 := by rw [g1, List.append_assoc]; rfl
      have hpp := h.mem.path (bi k)
      rw [hL] at hpp
      have hpn : s.nx p = some n := by
        have := hpp.rest
        generalize s.nx p = q at this
        cases this
        rfl
      obtain ⟨hp1, hp2⟩ := M.nodup h.mem hL
      have hpm : p ∈ L (bi k) := by rw [hL]; exact List.mem_append_right _ List.mem_cons_self
      have hpo : ∀ b', b' ≠ bi k → p ∉ L b' := fun b' hb hm => hb ((h.mem.inb b' p hm).2.1.symm.trans (h.mem.inb _ p hpm).2.1)
      have hpl := lt hpm
      show HashMap.I bi mi mb _ s.hd (upd (upd s.nx s.nn (s.nx n)) p (some s.nn)) (upd s.ky s.nn k) (upd s.vl s.nn v) (s.nn + 1) (upd s.rt n true) s.lk (upd s.th t _) (upd s.m k (spec .asg v (s.m k)).1) (fun t => seenBy (s.th t) (upd s.m k (spec .asg v (s.m k)).1) (s.seen t)) (upd s.ex t (spec .asg v (s.m k)).2)
      rw [e1]
      refine I.change hm h t (bi k) _ (h.mem.assign g1 hk fun b => ?_) (Nat.le_succ _) hky hvl (fun o l hp hl => ?_)
        (fun b' hb => ⟨upd_ne _ _ hb, rfl, fun o l hl hp => (fr (fun a ha => (h.mem.inb _ a (hl a ha)).1) hp).frame _ _ fun hm => hpo b' hb (hl p hm)⟩) hx ht rfl nofun nofun hw (fun t' ht => upd_ne _ _ ht)
      · rw [upd_apply L]
        split
        · rename_i hb
          rw [hb, List.append_assoc]
          refine Path.subst hc (fun hm => ?_) (fr (fun a ha => (h.mem.inb (bi k) a (by rw [hL]; exact ha)).1) hpp) hp1
          rcases List.mem_cons.1 hm with e | hm
          · exact hpl e
          · exact hp2 (List.mem_cons_of_mem _ hm)
        · rename_i hb
          exact (fr (fun a ha => (h.mem.inb _ a ha).1) (h.mem.path b)).frame _ _ (hpo b hb)
      · obtain ⟨l', f1, f2, f3⟩ := Path.replace (nx := upd s.nx s.nn (s.nx n)) (p := p) (n := n) (c := s.nn) (by rw [upd_ne _ _ hpl]; exact hpn) (by rw [upd_same, upd_ne _ _ (by omega)]) (Ne.symm hpl) l.length (Nat.le_refl _) (fr hl hp)
        refine ⟨l', f1, fun a ha => ?_, fun a ha => ?_⟩
        · rcases f2 a ha with f | rfl
          · exact ⟨Nat.lt_succ_of_lt (hl a f), .inl f⟩
          · exact ⟨Nat.lt_succ_self _, .inr (by rw [upd_same, upd_same, upd_same])⟩
        · rcases f3 a ha with f | ⟨rfl, f⟩
          · exact .inl f
          · exact .inr (.inr ⟨s.nn, f, by rw [upd_same, hk]⟩)
  | link t o k v pos hd h0 ho =>
    have hh := h.hold _ _ _ _ _ _ _ h0
    have hv := HD.absent h.mem hh
    have e1 : (spec o v (s.m k)).1 = some v := by rw [hv]; cases o <;> first | rfl | exact absurd rfl ho
    have e2 : (spec o v (s.m k)).2 = newRes o := by rw [hv]; cases o <;> first | rfl | exact absurd rfl ho
    have ht : (s.th t).mutex mi mb = some (mb (bi k)) := by rw [h0, ← hm]; rfl
    have hx : (T.count k (newRes o) 1).mutex mi mb = some (mb (bi k)) := by rw [← hm]; rfl
    have hw : ∀ r, (T.count k (newRes o) 1).wres = some r → upd s.ex t (spec o v (s.m k)).2 t = r := fun r hr => by cases hr; rw [upd_same]; exact e2
    have fr : ∀ {o l x}, (∀ a ∈ l, a < s.nn) → Path s.nx o l → Path (upd s.nx s.nn x) o l := fun hl hp => hp.frame _ _ fun hm => by have := hl _ hm; omega
    refine ⟨upd L (bi k) (s.nn :: L (bi k)), ?_⟩
    show HashMap.I bi mi mb _ (upd s.hd (bi k) (some s.nn)) (upd s.nx s.nn hd) (upd s.ky s.nn k) (upd s.vl s.nn v) (s.nn + 1) s.rt s.lk (upd s.th t _) (upd s.m k (spec o v (s.m k)).1) (fun t => seenBy (s.th t) (upd s.m k (spec o v (s.m k)).1) (s.seen t)) (upd s.ex t (spec o v (s.m k)).2)
    rw [e1, hh.1]
    exact I.change hm h t (bi k) _ (h.mem.link hv) (Nat.le_succ _) (fun a ha => upd_ne _ _ (by omega)) (fun a ha => upd_ne _ _ (by omega))
      (fun o l hp hl => ⟨l, fr hl hp, fun a ha => ⟨Nat.lt_succ_of_lt (hl a ha), .inl ha⟩, fun a ha => .inl ha⟩)
      (fun b' hb => ⟨upd_ne _ _ hb, upd_ne _ _ hb, fun o l hl hp => fr (fun a ha => (h.mem.inb _ a (hl a ha)).1) hp⟩) hx ht rfl nofun nofun hw (fun t' ht => upd_ne _ _ ht)
  | count t k r d h0 =>
    refine ⟨L, I.thread h t (.unl k r) (fun y hy => keep t y (by rw [h0]; exact hy)) (fun t' y _ hy => keep t' y hy) nofun nofun nofun nofun nofun (fun r' hr => ?_) (fun _ _ => rfl) (fun _ _ => rfl)⟩
    exact h.wres t r' (by rw [h0]; exact hr)
  | unlock t k r h0 =>
    refine ⟨L, I.thread h t (.ret r) nofun (fun t' y ht hy => ?_) nofun nofun nofun nofun nofun (fun r' hr => ?_) (fun _ _ => rfl) (fun _ _ => rfl)⟩
    · have l1 := keep t' y hy
      have l2 := keep t (mi k) (by rw [h0]; rfl)
      show upd s.lk (mi k) none y = some t'
      rw [upd_ne _ _ (by rintro rfl; rw [l1] at l2; cases l2; exact ht rfl)]
      exact l1
    · exact h.wres t r' (by rw [h0]; exact hr)
  | done t r h0 =>
    exact ⟨L, I.thread h t .idle nofun (fun t' y _ hy => keep t' y hy) nofun nofun nofun nofun nofun nofun (fun _ _ => rfl) (fun _ _ => rfl)⟩
  | get t k h0 =>
    refine ⟨L, I.thread h t (.get k none) nofun (fun t' y _ hy => keep t' y hy) nofun nofun nofun (fun k' hk => ?_) nofun nofun (fun t' ht => upd_ne _ _ ht) (fun _ _ => rfl)⟩
    cases hk
    show s.m k ∈ upd s.seen t [s.m k] t
    rw [upd_same]
    exact List.mem_cons_self
  | load t k src h0 =>
    refine ⟨L, I.thread h t (.got k src (s.loc (bi k) src)) nofun (fun t' y _ hy => keep t' y hy) nofun (fun k' y hy => ?_) nofun (fun k' hk => ?_) nofun nofun (fun _ _ => rfl) (fun _ _ => rfl)⟩
    · exact h.after t k' y (by rw [h0]; cases src <;> exact hy)
    · exact h.cur t k' (by rw [h0]; exact hk)
  | expose t k src p h0 =>
    refine ⟨L, I.thread h t (.exposed k src p) nofun (fun t' y _ hy => keep t' y hy) nofun (fun k' y hy => ?_) nofun (fun k' hk => ?_) nofun nofun (fun _ _ => rfl) (fun _ _ => rfl)⟩
    · exact h.after t k' y (by rw [h0]; cases src <;> exact hy)
    · exact h.cur t k' (by rw [h0]; exact hk)
  | same t k src p h0 hp =>
    refine ⟨L, I.thread h t (.cmp k p) nofun (fun t' y _ hy => keep t' y hy) nofun nofun (fun k' p' hp' => ?_) (fun k' hk => ?_) nofun nofun (fun _ _ => rfl) (fun _ _ => rfl)⟩
    · cases hp'
      have := I.place h (t := t) (k := k) (src := src) (fun x hx => by rw [h0, hx]; rfl) (by rw [h0]; rfl)
      rw [hp] at this
      exact this
    · exact h.cur t k' (by rw [h0]; exact hk)
  | differs t k src p h0 hp =>
    refine ⟨L, I.thread h t (.got k src (s.loc (bi k) src)) nofun (fun t' y _ hy => keep t' y hy) nofun (fun k' y hy => ?_) nofun (fun k' hk => ?_) nofun nofun (fun _ _ => rfl) (fun _ _ => rfl)⟩
    · exact h.after t k' y (by rw [h0]; cases src <;> exact hy)
    · exact h.cur t k' (by rw [h0]; exact hk)
  | nil t k h0 =>
    refine ⟨L, I.thread h t (.gret none) nofun (fun t' y _ hy => keep t' y hy) nofun nofun nofun nofun (fun r hr => ?_) nofun (fun _ _ => rfl) (fun _ _ => rfl)⟩
    cases hr
    obtain ⟨l, h1, _, _, h4⟩ := h.cmp t k none h0
    cases h1
    rcases h4 with h4 | ⟨a, ha, _⟩
    · exact h4
    · cases ha
  | hit t k n h0 hk =>
    refine ⟨L, I.thread h t (.gret (some (s.vl n))) nofun (fun t' y _ hy => keep t' y hy) nofun nofun nofun nofun (fun r hr => ?_) nofun (fun _ _ => rfl) (fun _ _ => rfl)⟩
    cases hr
    obtain ⟨l, h1, _, h3, _⟩ := h.cmp t k (some n) h0
    cases h1 with
    | cons h1 => exact h3 n List.mem_cons_self hk
  | pass t k n h0 hk =>
    refine ⟨L, I.thread h t (.get k (some n)) nofun (fun t' y _ hy => keep t' y hy) nofun (fun k' y hy => ?_) nofun (fun k' hk => ?_) nofun nofun (fun _ _ => rfl) (fun _ _ => rfl)⟩
    · cases hy
      exact ⟨h.cmp t k (some n) h0, hk⟩
    · exact h.cur t k' (by rw [h0]; exact hk)
  | gdone t r h0 =>
    exact ⟨L, I.thread h t .idle nofun (fun t' y _ hy => keep t' y hy) nofun nofun nofun nofun nofun nofun (fun _ _ => rfl) (fun _ _ => rfl)⟩
  | clear t h0 hc =>
    exact ⟨L, I.thread h t (.clk 0) nofun (fun t' y _ hy => keep t' y hy) nofun nofun nofun nofun nofun nofun (fun _ _ => rfl) (fun _ _ => rfl)⟩
  | clock t i h0 hi hl =>
    refine ⟨L, I.thread h t (.clr i) ?_ ?_ nofun nofun nofun nofun nofun nofun (fun _ _ => rfl) (fun _ _ => rfl)⟩
    · intro y hy
      cases hy
      exact upd_same ..
    · intro t' y ht hy
      have := keep t' y hy
      show upd s.lk (mb i) (some t) y = some t'
      rw [upd_ne _ _ (by rintro rfl; rw [hl] at this; cases this)]
      exact this
  | wipe t i h0 =>
    refine ⟨upd L i [], I.change hm h t i (.clu i) (h.mem.wipe i) (Nat.le_refl _) (fun _ _ => rfl) (fun _ _ => rfl) (fun o l hp hl => ⟨l, hp, fun a ha => ⟨hl a ha, .inl ha⟩, fun a ha => .inl ha⟩)
      (fun b' hb => ⟨upd_ne _ _ hb, upd_ne _ _ hb, fun _ _ _ h => h⟩) rfl (by rw [h0]; rfl) rfl nofun nofun nofun (fun _ _ => rfl)⟩
  | cunlock t i h0 =>
    refine ⟨L, I.thread h t (.clk (i + 1)) nofun (fun t' y ht hy => ?_) nofun nofun nofun nofun nofun nofun (fun _ _ => rfl) (fun _ _ => rfl)⟩
    have l1 := keep t' y hy
    have l2 := keep t (mb i) (by rw [h0]; rfl)
    show upd s.lk (mb i) none y = some t'
    rw [upd_ne _ _ (by rintro rfl; rw [l1] at l2; cases l2; exact ht rfl)]
    exact l1
  | cend t i h0 hi =>
    exact ⟨L, I.thread h t .clz nofun (fun t' y _ hy => keep t' y hy) nofun nofun nofun nofun nofun nofun (fun _ _ => rfl) (fun _ _ => rfl)⟩
  | zero t h0 =>
    exact ⟨L, I.thread h t .idle nofun (fun t' y _ hy => keep t' y hy) nofun nofun nofun nofun nofun nofun (fun _ _ => rfl) (fun _ _ => rfl)⟩
  | reclaim n hg hr hz => exact ⟨L, h⟩

theorem Reach.inv {bi mi mb : Nat → Nat} {nb : Nat} {gc cl : Bool} (hm : ∀ k, mi k = mb (bi k)) {s : S} (h : Reach bi mi mb nb gc cl s) : ∃ L, s.I bi mi mb L := by
  induction h with
  | init => exact ⟨_, I.init bi mi mb⟩
  | step _ hs ih => exact ih.elim fun L hL => I.step hm hL hs

end Verif.Sync.HashMap
