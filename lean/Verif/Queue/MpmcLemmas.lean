import Verif.Queue.MpmcSpec
/-!
# Invariant of the MPMC/MPSC queue
-/

namespace Verif.Queue.Mpmc

open Verif.Lin

variable {V : Type}

/-- Ghost state: values in claim order; which positions are published, which released. -/
structure Ghost (V : Type) where
  log : List V
  pub : Nat → Bool
  rel : Nat → Bool

/-- Position a producer has claimed but not published. -/
def prodPos : PC V → Option Nat
  | .eWrite _ p => some p
  | .ePub p => some p
  | _ => none

/-- Position a consumer has claimed but not released. -/
def consPos : PC V → Option Nat
  | .dRead p => some p
  | .dRel _ p => some p
  | _ => none

/-- Consumer states before the claim. -/
def popping : PC V → Bool
  | .dLoad _ | .dSeq _ _ | .dCas _ _ | .dEmpty _ _ => true
  | _ => false

/-- What a thread knows. -/
def ThrInv (k : Cfg) (c : Conf V) (g : Ghost V) : PC V → Prop
  | .eSeq _ _ pos => pos ≤ c.enq
  | .eCas _ _ pos => pos < c.enq ∨ pos < k.cap ∨ (k.cap ≤ pos ∧ g.rel (pos - k.cap) = true)
  | .eFull _ _ pos => pos ≤ c.enq
  | .eWrite v pos => pos < c.enq ∧ g.pub pos = false ∧ g.log[pos]? = some v
  | .ePub pos => pos < c.enq ∧ g.pub pos = false ∧ g.log[pos]? = some (c.data (pos % k.cap))
  | .dSeq _ pos => pos ≤ c.deq ∧ (k.sc = true → pos = c.deq)
  | .dCas _ pos => g.pub pos = true ∧ (k.sc = true → pos = c.deq)
  | .dEmpty _ pos => pos ≤ c.deq
  | .dRead pos => pos < c.deq ∧ g.pub pos = true ∧ g.rel pos = false
  | .dRel v pos => pos < c.deq ∧ g.pub pos = true ∧ g.rel pos = false ∧ g.log[pos]? = some v
  | .sDeq e => e ≤ c.deq + k.cap
  | _ => True

/-- How far the operation of a thread has got, for the specification. -/
def PhaseOf (g : Ghost V) : PC V → Phase (Op V) (Res V) → Prop
  | .idle, p => p = .idle
  | .eLoad v b, p => p = .called (.push v b)
  | .eSeq v b _, p => p = .called (.push v b)
  | .eCas v b _, p => p = .called (.push v b)
  | .eFull v b _, p => p = .called (.push v b)
  | .eWrite _ _, p => p = .effected .ok
  | .ePub _, p => p = .effected .ok
  | .dLoad b, p => p = .called (.pop b)
  | .dSeq b _, p => p = .called (.pop b)
  | .dCas b _, p => p = .called (.pop b)
  | .dEmpty b _, p => p = .called (.pop b)
  | .dRead pos, p => ∃ v, g.log[pos]? = some v ∧ p = .effected (.val v)
  | .dRel v _, p => p = .effected (.val v)
  | .sEnq, p => p = .called .size
  | .sDeq _, p => p = .called .size
  | .done r, p => p = .effected r

structure Inv (k : Cfg) (c : Conf V) (g : Ghost V) : Prop where
  capGe : 2 ≤ k.cap
  len : g.log.length = c.enq
  deqLe : c.deq ≤ c.enq
  pubLt : ∀ p, g.pub p = true → p < c.enq
  relLt : ∀ p, g.rel p = true → p < c.deq ∧ g.pub p = true
  relOld : ∀ p, p + k.cap < c.enq → g.rel p = true
  seqNew : ∀ p, p < k.cap → c.enq ≤ p → c.seq p = p
  seqCur : ∀ p, p < c.enq → c.enq ≤ p + k.cap →
    c.seq (p % k.cap) = if g.rel p then p + k.cap else if g.pub p then p + 1 else p
  dat : ∀ p, g.pub p = true → g.rel p = false → g.log[p]? = some (c.data (p % k.cap))
  thr : ∀ t, ThrInv k c g (c.pc t)
  ownP : ∀ t t' p, prodPos (c.pc t) = some p → prodPos (c.pc t') = some p → t = t'
  ownC : ∀ t t' p, consPos (c.pc t) = some p → consPos (c.pc t') = some p → t = t'
  pend : ∀ p, p < c.enq → g.pub p = false → ∃ t, prodPos (c.pc t) = some p
  pendC : ∀ p, p < c.deq → g.rel p = false → ∃ t, consPos (c.pc t) = some p
  single : k.sc = true → ∀ t, popping (c.pc t) = true → t = 0

theorem mod_ne {cap e p q : Nat} (hp : p < e) (hq : q < e) (hp' : e ≤ p + cap) (hq' : e ≤ q + cap) (hne : p ≠ q) :
    p % cap ≠ q % cap := by
  intro h
  rcases Nat.lt_or_gt_of_ne hne with hlt | hlt
  · have := Nat.sub_mod_eq_zero_of_mod_eq h.symm
    rw [Nat.mod_eq_of_lt (by omega)] at this; omega
  · have := Nat.sub_mod_eq_zero_of_mod_eq h
    rw [Nat.mod_eq_of_lt (by omega)] at this; omega

theorem sub_cap_mod {cap p : Nat} (h : cap ≤ p) : (p - cap) % cap = p % cap := by
  conv => rhs; rw [show p = p - cap + cap by omega, Nat.add_mod_right]

section
variable {k : Cfg} {c : Conf V} {g : Ghost V}

theorem Inv.enqLe (i : Inv k c g) : c.enq ≤ c.deq + k.cap := by
  rcases Nat.lt_or_ge k.cap c.enq with h | h
  · have := i.relLt _ (i.relOld (c.enq - 1 - k.cap) (by omega)); omega
  · omega

theorem Inv.window (i : Inv k c g) {p : Nat} (h : g.rel p = false) : c.enq ≤ p + k.cap := by
  rcases Nat.lt_or_ge (p + k.cap) c.enq with h' | h'
  · have := i.relOld p h'; rw [h] at this; simp at this
  · exact h'

theorem Inv.rel_of_not_pub (i : Inv k c g) {p : Nat} (h : g.pub p = false) : g.rel p = false := by
  cases hr : g.rel p with
  | false => rfl
  | true => have := (i.relLt p hr).2; rw [h] at this; simp at this

/-- What a producer learns from the sequence number. -/
theorem Inv.seq_eq (i : Inv k c g) {pos : Nat} (hp : pos ≤ c.enq) (hs : c.seq (pos % k.cap) = pos) :
    pos < c.enq ∨ pos < k.cap ∨ (k.cap ≤ pos ∧ g.rel (pos - k.cap) = true) := by
  have h2 := i.capGe
  rcases Nat.lt_or_ge pos c.enq with h | h
  · exact .inl h
  · rcases Nat.lt_or_ge pos k.cap with h' | h'
    · exact .inr (.inl h')
    · refine .inr (.inr ⟨h', ?_⟩)
      have := i.seqCur (pos - k.cap) (by omega) (by omega)
      rw [sub_cap_mod h', hs] at this
      cases hr : g.rel (pos - k.cap) with
      | true => rfl
      | false =>
        rw [hr] at this
        cases hb : g.pub (pos - k.cap) <;> rw [hb] at this <;> simp at this <;> omega

/-- What a consumer learns from the sequence number. -/
theorem Inv.seq_eq_succ (i : Inv k c g) {pos : Nat} (hp : pos ≤ c.enq) (hs : c.seq (pos % k.cap) = pos + 1) :
    g.pub pos = true := by
  have h2 := i.capGe
  rcases Nat.lt_or_ge pos c.enq with h | h
  · rcases Nat.lt_or_ge (pos + k.cap) c.enq with h' | h'
    · exact (i.relLt pos (i.relOld pos h')).2
    · have := i.seqCur pos h h'
      rw [hs] at this
      cases hr : g.rel pos with
      | true => rw [hr] at this; simp at this; omega
      | false =>
        rw [hr] at this
        cases hb : g.pub pos with
        | true => rfl
        | false => rw [hb] at this; simp at this
  · exfalso
    rcases Nat.lt_or_ge pos k.cap with h' | h'
    · have := i.seqNew pos h' h
      rw [Nat.mod_eq_of_lt h', this] at hs; omega
    · have := i.seqCur (pos - k.cap) (by omega) (by omega)
      rw [sub_cap_mod h', hs] at this
      cases hr : g.rel (pos - k.cap) <;> rw [hr] at this <;> simp at this
      · split at this <;> omega
      · omega

/-- The sequence number of the position to be claimed next when its slot is free. -/
theorem Inv.seq_next (i : Inv k c g) (h : c.enq < k.cap ∨ (k.cap ≤ c.enq ∧ g.rel (c.enq - k.cap) = true)) :
    c.seq (c.enq % k.cap) = c.enq := by
  have h2 := i.capGe
  rcases h with h | ⟨h, hr⟩
  · rw [Nat.mod_eq_of_lt h]; exact i.seqNew _ h (Nat.le_refl _)
  · have := i.seqCur (c.enq - k.cap) (by omega) (by omega)
    rw [sub_cap_mod h, hr] at this
    simp at this; omega

/-- A step that only changes the state of thread `t`, neither claiming nor giving up a position. -/
theorem Inv.move (i : Inv k c g) (t : Nat) (x : PC V) (hx : ThrInv k c g x) (hp : prodPos x = prodPos (c.pc t))
    (hc : consPos x = consPos (c.pc t)) (hs : k.sc = true → popping x = true → t = 0) :
    Inv k { c with pc := upd c.pc t x } g where
  capGe := i.capGe
  len := i.len
  deqLe := i.deqLe
  pubLt := i.pubLt
  relLt := i.relLt
  relOld := i.relOld
  seqNew := i.seqNew
  seqCur := i.seqCur
  dat := i.dat
  thr := by
    intro t'
    have key : ThrInv k c g (upd c.pc t x t') := by
      by_cases e : t' = t
      · subst e; rw [upd_same]; exact hx
      · rw [upd_ne _ _ e]; exact i.thr t'
    revert key
    show ThrInv k c g (upd c.pc t x t') → ThrInv k { c with pc := upd c.pc t x } g (upd c.pc t x t')
    cases upd c.pc t x t' <;> exact fun h => h
  ownP := by
    have h : ∀ t', prodPos (upd c.pc t x t') = prodPos (c.pc t') := by
      intro t'; by_cases e : t' = t
      · subst e; rw [upd_same, hp]
      · rw [upd_ne _ _ e]
    intro t1 t2 p h1 h2
    simp only [h] at h1 h2
    exact i.ownP t1 t2 p h1 h2
  ownC := by
    have h : ∀ t', consPos (upd c.pc t x t') = consPos (c.pc t') := by
      intro t'; by_cases e : t' = t
      · subst e; rw [upd_same, hc]
      · rw [upd_ne _ _ e]
    intro t1 t2 p h1 h2
    simp only [h] at h1 h2
    exact i.ownC t1 t2 p h1 h2
  pend := by
    intro p h1 h2
    obtain ⟨t', ht'⟩ := i.pend p h1 h2
    refine ⟨t', ?_⟩
    by_cases e : t' = t
    · subst e; simp only [upd_same, hp, ht']
    · simp only [upd_ne _ _ e, ht']
  pendC := by
    intro p h1 h2
    obtain ⟨t', ht'⟩ := i.pendC p h1 h2
    refine ⟨t', ?_⟩
    by_cases e : t' = t
    · subst e; simp only [upd_same, hc, ht']
    · simp only [upd_ne _ _ e, ht']
  single := by
    intro h t' h'
    by_cases e : t' = t
    · subst e; simp only [upd_same] at h'; exact hs h h'
    · simp only [upd_ne _ _ e] at h'; exact i.single h t' h'

theorem getElem?_snoc {l : List V} {v w : V} {p : Nat} (h : l[p]? = some w) : (l ++ [v])[p]? = some w := by
  rw [List.getElem?_append_left]
  · exact h
  · exact (List.getElem?_eq_some_iff.1 h).1

/-- Claiming a position for a push. -/
theorem Inv.claim (i : Inv k c g) (t : Nat) (v : V) (b : Bool) (hpc : c.pc t = .eCas v b c.enq) :
    Inv k { c with enq := c.enq + 1, pc := upd c.pc t (.eWrite v c.enq) } ⟨g.log ++ [v], g.pub, g.rel⟩ := by
  have ht := i.thr t
  rw [hpc] at ht
  have hfree : c.enq < k.cap ∨ (k.cap ≤ c.enq ∧ g.rel (c.enq - k.cap) = true) := by
    rcases ht with h | h | h
    · omega
    · exact .inl h
    · exact .inr h
  have hnp : g.pub c.enq = false := by
    cases h : g.pub c.enq with
    | false => rfl
    | true => have := i.pubLt _ h; omega
  constructor
  · exact i.capGe
  · simp [i.len]
  · have := i.deqLe; show c.deq ≤ c.enq + 1; omega
  · intro p hp; have := i.pubLt p hp; show p < c.enq + 1; omega
  · exact i.relLt
  · intro p hp
    have hp : p + k.cap < c.enq + 1 := hp
    rcases Nat.lt_or_ge (p + k.cap) c.enq with h | h
    · exact i.relOld p h
    · rcases hfree with h' | ⟨h', hr⟩
      · omega
      · rw [show c.enq - k.cap = p by omega] at hr; exact hr
  · intro p h1 h2; have h2 : c.enq + 1 ≤ p := h2; exact i.seqNew p h1 (by omega)
  · intro p h1 h2
    have h1 : p < c.enq + 1 := h1
    have h2 : c.enq + 1 ≤ p + k.cap := h2
    rcases Nat.lt_or_ge p c.enq with h | h
    · exact i.seqCur p h (by omega)
    · have : p = c.enq := by omega
      subst this
      have hr := i.rel_of_not_pub hnp
      simp only [hnp, hr]
      exact i.seq_next hfree
  · intro p h1 h2; exact getElem?_snoc (i.dat p h1 h2)
  · intro t'
    by_cases e : t' = t
    · subst e
      simp only [upd_same]
      refine ⟨Nat.lt_succ_self _, hnp, ?_⟩
      simp only
      rw [List.getElem?_append_right (by rw [i.len]; exact Nat.le_refl _), i.len]
      simp
    · simp only [upd_ne _ _ e]
      have ht' := i.thr t'
      revert ht'
      cases c.pc t' <;> simp only [ThrInv] <;> intro ht' <;> try exact ht'
      · omega
      · rcases ht' with h | h
        · left; omega
        · exact .inr h
      · omega
      · exact ⟨by omega, ht'.2.1, getElem?_snoc ht'.2.2⟩
      · exact ⟨by omega, ht'.2.1, getElem?_snoc ht'.2.2⟩
      · exact ⟨ht'.1, ht'.2.1, ht'.2.2.1, getElem?_snoc ht'.2.2.2⟩
  · have hlt : ∀ t' p, t' ≠ t → prodPos (c.pc t') = some p → p < c.enq := by
      intro t' p _ hp
      have ht' := i.thr t'
      revert ht' hp
      cases c.pc t' <;> simp only [ThrInv, prodPos] <;> intro hp ht' <;> first | (injection hp with hp; subst hp; exact ht'.1) | (exact absurd hp (by simp))
    intro t1 t2 p h1 h2
    by_cases e1 : t1 = t <;> by_cases e2 : t2 = t
    · rw [e1, e2]
    · subst e1
      simp only [upd_same, upd_ne _ _ e2, prodPos] at h1 h2
      have := hlt t2 p e2 h2
      injection h1 with h1; omega
    · subst e2
      simp only [upd_same, upd_ne _ _ e1, prodPos] at h1 h2
      have := hlt t1 p e1 h1
      injection h2 with h2; omega
    · simp only [upd_ne _ _ e1, upd_ne _ _ e2] at h1 h2
      exact i.ownP t1 t2 p h1 h2
  · intro t1 t2 p h1 h2
    have hc : ∀ t', consPos (upd c.pc t (.eWrite v c.enq) t') = consPos (c.pc t') := by
      intro t'; by_cases e : t' = t
      · subst e; rw [upd_same, hpc]; rfl
      · rw [upd_ne _ _ e]
    simp only [hc] at h1 h2
    exact i.ownC t1 t2 p h1 h2
  · intro p h1 h2
    have h1 : p < c.enq + 1 := h1
    rcases Nat.lt_or_ge p c.enq with h | h
    · obtain ⟨t', ht'⟩ := i.pend p h h2
      refine ⟨t', ?_⟩
      by_cases e : t' = t
      · subst e; rw [hpc] at ht'; simp [prodPos] at ht'
      · simp only [upd_ne _ _ e, ht']
    · refine ⟨t, ?_⟩
      simp only [upd_same, prodPos]
      congr 1; omega
  · intro p h1 h2
    obtain ⟨t', ht'⟩ := i.pendC p h1 h2
    refine ⟨t', ?_⟩
    by_cases e : t' = t
    · subst e; rw [hpc] at ht'; simp [consPos] at ht'
    · simp only [upd_ne _ _ e, ht']
  · intro h t' h'
    by_cases e : t' = t
    · subst e; simp [popping] at h'
    · simp only [upd_ne _ _ e] at h'; exact i.single h t' h'

/-- Writing the element. -/
theorem Inv.write (i : Inv k c g) (t : Nat) (v : V) (pos : Nat) (hpc : c.pc t = .eWrite v pos) :
    Inv k { c with data := upd c.data (pos % k.cap) v, pc := upd c.pc t (.ePub pos) } g := by
  have ht := i.thr t
  rw [hpc] at ht
  obtain ⟨hlt, hnp, hlog⟩ := ht
  have hwin := i.window (i.rel_of_not_pub hnp)
  have hother : ∀ p, p < c.enq → c.enq ≤ p + k.cap → p ≠ pos → p % k.cap ≠ pos % k.cap := fun p h1 h2 h3 =>
    mod_ne h1 hlt h2 hwin h3
  constructor
  · exact i.capGe
  · exact i.len
  · exact i.deqLe
  · exact i.pubLt
  · exact i.relLt
  · exact i.relOld
  · exact i.seqNew
  · exact i.seqCur
  · intro p h1 h2
    have hne : p ≠ pos := by rintro rfl; rw [hnp] at h1; simp at h1
    simp only [upd_ne _ _ (hother p (i.pubLt p h1) (i.window h2) hne)]
    exact i.dat p h1 h2
  · intro t'
    by_cases e : t' = t
    · subst e
      simp only [upd_same]
      refine ⟨hlt, hnp, ?_⟩
      simp only [upd_same]; exact hlog
    · simp only [upd_ne _ _ e]
      have ht' := i.thr t'
      have hown := i.ownP t' t
      revert ht' hown
      cases hq : c.pc t' <;> simp only [ThrInv] <;> intro ht' hown <;> try exact ht'
      rename_i q
      refine ⟨ht'.1, ht'.2.1, ?_⟩
      have hne : q ≠ pos := by
        rintro rfl
        exact e (hown q rfl (by rw [hpc]; rfl))
      simp only [upd_ne _ _ (hother q ht'.1 (i.window (i.rel_of_not_pub ht'.2.1)) hne)]
      exact ht'.2.2
  · intro t1 t2 p h1 h2
    have hc : ∀ t', prodPos (upd c.pc t (.ePub pos) t') = prodPos (c.pc t') := by
      intro t'; by_cases e : t' = t
      · subst e; rw [upd_same, hpc]; rfl
      · rw [upd_ne _ _ e]
    simp only [hc] at h1 h2
    exact i.ownP t1 t2 p h1 h2
  · intro t1 t2 p h1 h2
    have hc : ∀ t', consPos (upd c.pc t (.ePub pos) t') = consPos (c.pc t') := by
      intro t'; by_cases e : t' = t
      · subst e; rw [upd_same, hpc]; rfl
      · rw [upd_ne _ _ e]
    simp only [hc] at h1 h2
    exact i.ownC t1 t2 p h1 h2
  · intro p h1 h2
    obtain ⟨t', ht'⟩ := i.pend p h1 h2
    refine ⟨t', ?_⟩
    by_cases e : t' = t
    · subst e; rw [hpc] at ht'; simp only [upd_same]; exact ht'
    · simp only [upd_ne _ _ e, ht']
  · intro p h1 h2
    obtain ⟨t', ht'⟩ := i.pendC p h1 h2
    refine ⟨t', ?_⟩
    by_cases e : t' = t
    · subst e; rw [hpc] at ht'; simp [consPos] at ht'
    · simp only [upd_ne _ _ e, ht']
  · intro h t' h'
    by_cases e : t' = t
    · subst e; simp [popping] at h'
    · simp only [upd_ne _ _ e] at h'; exact i.single h t' h'

/-- Publishing the element. -/
theorem Inv.publish (i : Inv k c g) (t : Nat) (pos : Nat) (hpc : c.pc t = .ePub pos) :
    Inv k { c with seq := upd c.seq (pos % k.cap) (pos + 1), pc := upd c.pc t (.done .ok) }
      ⟨g.log, upd g.pub pos true, g.rel⟩ := by
  have ht := i.thr t
  rw [hpc] at ht
  obtain ⟨hlt, hnp, hlog⟩ := ht
  have hnr := i.rel_of_not_pub hnp
  have hwin := i.window hnr
  have hother : ∀ p, p < c.enq → c.enq ≤ p + k.cap → p ≠ pos → p % k.cap ≠ pos % k.cap := fun p h1 h2 h3 =>
    mod_ne h1 hlt h2 hwin h3
  have mono : ∀ p, g.pub p = true → upd g.pub pos true p = true := by
    intro p hp; by_cases e : p = pos
    · subst e; simp
    · rw [upd_ne _ _ e]; exact hp
  constructor
  · exact i.capGe
  · exact i.len
  · exact i.deqLe
  · intro p hp
    by_cases e : p = pos
    · subst e; exact hlt
    · simp only [upd_ne _ _ e] at hp; exact i.pubLt p hp
  · intro p hp; exact ⟨(i.relLt p hp).1, mono p (i.relLt p hp).2⟩
  · exact i.relOld
  · intro p h1 h2
    have h2 : c.enq ≤ p := h2
    have : p ≠ pos % k.cap := by
      rw [Nat.mod_eq_of_lt (by omega)]; omega
    simp only [upd_ne _ _ this]
    exact i.seqNew p h1 h2
  · intro p h1 h2
    by_cases e : p = pos
    · subst e; simp [hnr]
    · simp only [upd_ne _ _ e, upd_ne _ _ (hother p h1 h2 e)]
      exact i.seqCur p h1 h2
  · intro p h1 h2
    by_cases e : p = pos
    · subst e; exact hlog
    · simp only [upd_ne _ _ e] at h1; exact i.dat p h1 h2
  · intro t'
    by_cases e : t' = t
    · subst e; simp only [upd_same]; trivial
    · simp only [upd_ne _ _ e]
      have ht' := i.thr t'
      have hown := i.ownP t' t
      revert ht' hown
      cases hq : c.pc t' <;> simp only [ThrInv] <;> intro ht' hown <;> try exact ht'
      · rename_i w q
        have hne : q ≠ pos := by
          rintro rfl
          exact e (hown q rfl (by rw [hpc]; rfl))
        exact ⟨ht'.1, by rw [upd_ne _ _ hne]; exact ht'.2.1, ht'.2.2⟩
      · rename_i q
        have hne : q ≠ pos := by
          rintro rfl
          exact e (hown q rfl (by rw [hpc]; rfl))
        exact ⟨ht'.1, by rw [upd_ne _ _ hne]; exact ht'.2.1, ht'.2.2⟩
      · exact ⟨mono _ ht'.1, ht'.2⟩
      · exact ⟨ht'.1, mono _ ht'.2.1, ht'.2.2⟩
      · exact ⟨ht'.1, mono _ ht'.2.1, ht'.2.2⟩
  · intro t1 t2 p h1 h2
    by_cases e1 : t1 = t
    · subst e1; simp [prodPos] at h1
    · by_cases e2 : t2 = t
      · subst e2; simp [prodPos] at h2
      · simp only [upd_ne _ _ e1, upd_ne _ _ e2] at h1 h2
        exact i.ownP t1 t2 p h1 h2
  · intro t1 t2 p h1 h2
    by_cases e1 : t1 = t
    · subst e1; simp [consPos] at h1
    · by_cases e2 : t2 = t
      · subst e2; simp [consPos] at h2
      · simp only [upd_ne _ _ e1, upd_ne _ _ e2] at h1 h2
        exact i.ownC t1 t2 p h1 h2
  · intro p h1 h2
    by_cases ep : p = pos
    · subst ep; simp at h2
    · simp only [upd_ne _ _ ep] at h2
      obtain ⟨t', ht'⟩ := i.pend p h1 h2
      refine ⟨t', ?_⟩
      by_cases e : t' = t
      · subst e; rw [hpc] at ht'; simp only [prodPos] at ht'; injection ht' with ht'; exact absurd ht'.symm ep
      · simp only [upd_ne _ _ e, ht']
  · intro p h1 h2
    obtain ⟨t', ht'⟩ := i.pendC p h1 h2
    refine ⟨t', ?_⟩
    by_cases e : t' = t
    · subst e; rw [hpc] at ht'; simp [consPos] at ht'
    · simp only [upd_ne _ _ e, ht']
  · intro h t' h'
    by_cases e : t' = t
    · subst e; simp [popping] at h'
    · simp only [upd_ne _ _ e] at h'; exact i.single h t' h'

/-- Claiming a position for a pop. -/
theorem Inv.take (i : Inv k c g) (t : Nat) (b : Bool) (hpc : c.pc t = .dCas b c.deq) :
    Inv k { c with deq := c.deq + 1, pc := upd c.pc t (.dRead c.deq) } g := by
  have ht := i.thr t
  rw [hpc] at ht
  obtain ⟨hpub, -⟩ := ht
  have hlt := i.pubLt _ hpub
  have hnr : g.rel c.deq = false := by
    cases h : g.rel c.deq with
    | false => rfl
    | true => have := (i.relLt _ h).1; omega
  have hcl : ∀ t' p, consPos (c.pc t') = some p → p < c.deq := by
    intro t' p hp
    have ht' := i.thr t'
    revert ht' hp
    cases c.pc t' <;> simp only [ThrInv, consPos] <;> intro hp ht' <;> first | (injection hp with hp; subst hp; exact ht'.1) | (exact absurd hp (by simp))
  constructor
  · exact i.capGe
  · exact i.len
  · exact hlt
  · exact i.pubLt
  · intro p hp; have := i.relLt p hp; exact ⟨by show p < c.deq + 1; omega, this.2⟩
  · exact i.relOld
  · exact i.seqNew
  · exact i.seqCur
  · exact i.dat
  · intro t'
    by_cases e : t' = t
    · subst e; simp only [upd_same]; exact ⟨Nat.lt_succ_self _, hpub, hnr⟩
    · simp only [upd_ne _ _ e]
      have ht' := i.thr t'
      have hsing : k.sc = true → popping (c.pc t') = true → False := fun h1 h2 =>
        e ((i.single h1 t' h2).trans (i.single h1 t (by rw [hpc]; rfl)).symm)
      revert ht' hsing
      cases hq : c.pc t' <;> simp only [ThrInv, popping] <;> intro ht' hsing <;> try exact ht'
      · exact ⟨by omega, fun h => (hsing h trivial).elim⟩
      · exact ⟨ht'.1, fun h => (hsing h trivial).elim⟩
      · omega
      · exact ⟨by omega, ht'.2⟩
      · exact ⟨by omega, ht'.2⟩
      · omega
  · intro t1 t2 p h1 h2
    by_cases e1 : t1 = t
    · subst e1; simp [prodPos] at h1
    · by_cases e2 : t2 = t
      · subst e2; simp [prodPos] at h2
      · simp only [upd_ne _ _ e1, upd_ne _ _ e2] at h1 h2
        exact i.ownP t1 t2 p h1 h2
  · intro t1 t2 p h1 h2
    by_cases e1 : t1 = t <;> by_cases e2 : t2 = t
    · rw [e1, e2]
    · subst e1
      simp only [upd_same, upd_ne _ _ e2, consPos] at h1 h2
      have := hcl t2 p h2
      injection h1 with h1; omega
    · subst e2
      simp only [upd_same, upd_ne _ _ e1, consPos] at h1 h2
      have := hcl t1 p h1
      injection h2 with h2; omega
    · simp only [upd_ne _ _ e1, upd_ne _ _ e2] at h1 h2
      exact i.ownC t1 t2 p h1 h2
  · intro p h1 h2
    obtain ⟨t', ht'⟩ := i.pend p h1 h2
    refine ⟨t', ?_⟩
    by_cases e : t' = t
    · subst e; rw [hpc] at ht'; simp [prodPos] at ht'
    · simp only [upd_ne _ _ e, ht']
  · intro p h1 h2
    have h1 : p < c.deq + 1 := h1
    rcases Nat.lt_or_ge p c.deq with h | h
    · obtain ⟨t', ht'⟩ := i.pendC p h h2
      refine ⟨t', ?_⟩
      by_cases e : t' = t
      · subst e; rw [hpc] at ht'; simp [consPos] at ht'
      · simp only [upd_ne _ _ e, ht']
    · refine ⟨t, ?_⟩
      simp only [upd_same, consPos]
      congr 1; omega
  · intro h t' h'
    by_cases e : t' = t
    · subst e; simp [popping] at h'
    · simp only [upd_ne _ _ e] at h'; exact i.single h t' h'

/-- Releasing the slot. -/
theorem Inv.release (i : Inv k c g) (t : Nat) (v : V) (pos : Nat) (hpc : c.pc t = .dRel v pos) :
    Inv k { c with seq := upd c.seq (pos % k.cap) (pos + k.cap), pc := upd c.pc t (.done (.val v)) }
      ⟨g.log, g.pub, upd g.rel pos true⟩ := by
  have ht := i.thr t
  rw [hpc] at ht
  obtain ⟨hlt, hpub, hnr, hlog⟩ := ht
  have hwin := i.window hnr
  have hE := i.pubLt _ hpub
  have hother : ∀ p, p < c.enq → c.enq ≤ p + k.cap → p ≠ pos → p % k.cap ≠ pos % k.cap := fun p h1 h2 h3 =>
    mod_ne h1 hE h2 hwin h3
  have mono : ∀ p, g.rel p = true → upd g.rel pos true p = true := by
    intro p hp; by_cases e : p = pos
    · subst e; simp
    · rw [upd_ne _ _ e]; exact hp
  constructor
  · exact i.capGe
  · exact i.len
  · exact i.deqLe
  · exact i.pubLt
  · intro p hp
    by_cases e : p = pos
    · subst e; exact ⟨hlt, hpub⟩
    · simp only [upd_ne _ _ e] at hp; exact i.relLt p hp
  · intro p hp; exact mono p (i.relOld p hp)
  · intro p h1 h2
    have h2 : c.enq ≤ p := h2
    have : p ≠ pos % k.cap := by
      rw [Nat.mod_eq_of_lt (by omega)]; omega
    simp only [upd_ne _ _ this]
    exact i.seqNew p h1 h2
  · intro p h1 h2
    by_cases e : p = pos
    · subst e; simp
    · simp only [upd_ne _ _ e, upd_ne _ _ (hother p h1 h2 e)]
      exact i.seqCur p h1 h2
  · intro p h1 h2
    by_cases e : p = pos
    · subst e; simp at h2
    · simp only [upd_ne _ _ e] at h2; exact i.dat p h1 h2
  · intro t'
    by_cases e : t' = t
    · subst e; simp only [upd_same]; trivial
    · simp only [upd_ne _ _ e]
      have ht' := i.thr t'
      have hown := i.ownC t' t
      revert ht' hown
      cases hq : c.pc t' <;> simp only [ThrInv] <;> intro ht' hown <;> try exact ht'
      · rcases ht' with h | h | h
        · exact .inl h
        · exact .inr (.inl h)
        · exact .inr (.inr ⟨h.1, mono _ h.2⟩)
      · rename_i q
        have hne : q ≠ pos := by
          rintro rfl
          exact e (hown q rfl (by rw [hpc]; rfl))
        exact ⟨ht'.1, ht'.2.1, by rw [upd_ne _ _ hne]; exact ht'.2.2⟩
      · rename_i w q
        have hne : q ≠ pos := by
          rintro rfl
          exact e (hown q rfl (by rw [hpc]; rfl))
        exact ⟨ht'.1, ht'.2.1, by rw [upd_ne _ _ hne]; exact ht'.2.2.1, ht'.2.2.2⟩
  · intro t1 t2 p h1 h2
    by_cases e1 : t1 = t
    · subst e1; simp [prodPos] at h1
    · by_cases e2 : t2 = t
      · subst e2; simp [prodPos] at h2
      · simp only [upd_ne _ _ e1, upd_ne _ _ e2] at h1 h2
        exact i.ownP t1 t2 p h1 h2
  · intro t1 t2 p h1 h2
    by_cases e1 : t1 = t
    · subst e1; simp [consPos] at h1
    · by_cases e2 : t2 = t
      · subst e2; simp [consPos] at h2
      · simp only [upd_ne _ _ e1, upd_ne _ _ e2] at h1 h2
        exact i.ownC t1 t2 p h1 h2
  · intro p h1 h2
    obtain ⟨t', ht'⟩ := i.pend p h1 h2
    refine ⟨t', ?_⟩
    by_cases e : t' = t
    · subst e; rw [hpc] at ht'; simp [prodPos] at ht'
    · simp only [upd_ne _ _ e, ht']
  · intro p h1 h2
    by_cases ep : p = pos
    · subst ep; simp at h2
    · simp only [upd_ne _ _ ep] at h2
      obtain ⟨t', ht'⟩ := i.pendC p h1 h2
      refine ⟨t', ?_⟩
      by_cases e : t' = t
      · subst e; rw [hpc] at ht'; simp only [consPos] at ht'; injection ht' with ht'; exact absurd ht'.symm ep
      · simp only [upd_ne _ _ e, ht']
  · intro h t' h'
    by_cases e : t' = t
    · subst e; simp [popping] at h'
    · simp only [upd_ne _ _ e] at h'; exact i.single h t' h'

end

end Verif.Queue.Mpmc
