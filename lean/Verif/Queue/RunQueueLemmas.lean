import Verif.Queue.RunQueueSpec
import Verif.Queue.MpmcLemmas
/-!
# Invariant of the fiber run queue
-/

namespace Verif.Queue.RunQ

open Verif.Lin
open Verif.Queue.Mpmc (mod_ne sub_cap_mod)

variable {V : Type}

/-- Ghost state: fibers in claim order; which positions are published, which released. -/
structure Ghost (V : Type) where
  log : List (V × Bool)
  pub : Nat → Bool
  rel : Nat → Bool

/-- Start and length of the range of positions a producer has claimed but not published. -/
def range : PC V → Nat × Nat
  | .bChk _ rest _ pos => (pos, rest.length + 1)
  | .wFib _ rest _ pos => (pos, rest.length + 1)
  | .wFlag _ rest _ pos => (pos, rest.length + 1)
  | .wPub _ rest _ pos => (pos, rest.length + 1)
  | _ => (0, 0)

/-- A producer has claimed but not published `p`. -/
def OwnP (x : PC V) (p : Nat) : Prop := (range x).1 ≤ p ∧ p < (range x).1 + (range x).2

/-- Position a consumer has claimed but not released. -/
def consPos : PC V → Option Nat
  | .dRead p => some p
  | .dRel _ p => some p
  | _ => none

/-- The slot of position `q` has been released by its previous owner, if there was one. -/
def Free (cap : Nat) (g : Ghost V) (q : Nat) : Prop := q < cap ∨ (cap ≤ q ∧ g.rel (q - cap) = true)

/-- The fibers `vs` are still to be written from position `pos` on. -/
def Fill (c : Conf V) (g : Ghost V) (vs : List V) (f : Bool) (pos : Nat) : Prop :=
  pos + vs.length ≤ c.enq ∧
    ∀ (j : Nat) v, vs[j]? = some v → g.pub (pos + j) = false ∧ g.log[pos + j]? = some (v, f)

/-- What a thread knows. -/
def ThrInv (cap : Nat) (c : Conf V) (g : Ghost V) : PC V → Prop
  | .eSeq _ _ _ pos => pos ≤ c.enq
  | .eCas _ _ pos => pos < c.enq ∨ Free cap g pos
  | .bHead _ _ pos => pos ≤ c.enq
  | .bScan vs _ pos i => pos ≤ c.enq ∧ i < vs.length ∧
      (pos < c.enq ∨ (vs.length < cap ∧ Free cap g (pos + vs.length) ∧ ∀ j, j < i → Free cap g (pos + j)))
  | .bCas vs _ pos => pos < c.enq ∨ (vs.length < cap ∧ ∀ j, j < vs.length → Free cap g (pos + j))
  | .bChk v rest f pos => Fill c g (v :: rest) f pos
  | .wFib v rest f pos => Fill c g (v :: rest) f pos
  | .wFlag v rest f pos => Fill c g (v :: rest) f pos ∧ c.data (pos % cap) = v
  | .wPub v rest f pos => Fill c g (v :: rest) f pos ∧ c.data (pos % cap) = v ∧ c.flag (pos % cap) = f
  | .dSeq _ pos => pos ≤ c.deq
  | .dTest pos => g.pub pos = true ∧ pos ≤ c.deq
  | .dCas m pos => g.pub pos = true ∧ (m = .steal → pos < c.deq ∨ ∃ v, g.log[pos]? = some (v, false))
  | .dRead pos => pos < c.deq ∧ g.rel pos = false
  | .dRel v pos => pos < c.deq ∧ g.rel pos = false ∧ ∃ f, g.log[pos]? = some (v, f)
  | .abort => False
  | _ => True

/-- How far the operation of a thread has got, for the specification. -/
def PhaseOf (g : Ghost V) : PC V → Phase (Op V) (Res V) → Prop
  | .idle, p => p = .idle
  | .eLoad v f _, p => p = .called (.push v f)
  | .eSeq v f _ _, p => p = .called (.push v f)
  | .eCas v f _, p => p = .called (.push v f)
  | .bLoad vs f, p => p = .called (.batch vs f)
  | .bHead vs f _, p => p = .called (.batch vs f)
  | .bScan vs f _ _, p => p = .called (.batch vs f)
  | .bCas vs f _, p => p = .called (.batch vs f)
  | .bChk _ _ _ _, p => p = .effected .ok
  | .wFib _ _ _ _, p => p = .effected .ok
  | .wFlag _ _ _ _, p => p = .effected .ok
  | .wPub _ _ _ _, p => p = .effected .ok
  | .dLoad m, p => p = .called (if m = .steal then .steal else .pop)
  | .dSeq m _, p => p = .called (if m = .steal then .steal else .pop)
  | .dTest _, p => p = .called .steal
  | .dCas m _, p => p = .called (if m = .steal then .steal else .pop)
  | .dRead pos, p => ∃ v f, g.log[pos]? = some (v, f) ∧ p = .effected (.val v)
  | .dRel v _, p => p = .effected (.val v)
  | .sFirst hf, p => p = .called (.size hf)
  | .sSecond hf _, p => p = .called (.size hf)
  | .abort, _ => False
  | .done r, p => p = .effected r

/-- The part of the invariant that does not mention program counters. -/
structure Sh (cap : Nat) (c : Conf V) (g : Ghost V) : Prop where
  capGe : 2 ≤ cap
  len : g.log.length = c.enq
  deqLe : c.deq ≤ c.enq
  pubLt : ∀ p, g.pub p = true → p < c.enq
  deqPub : ∀ p, p < c.deq → g.pub p = true
  relLt : ∀ p, g.rel p = true → p < c.deq
  relOld : ∀ p, p + cap < c.enq → g.rel p = true
  seqNew : ∀ p, p < cap → c.enq ≤ p → c.seq p = p
  seqCur : ∀ p, p < c.enq → c.enq ≤ p + cap →
    c.seq (p % cap) = if g.rel p then p + cap else if g.pub p then p + 1 else p
  dat : ∀ p, g.pub p = true → g.rel p = false → g.log[p]? = some (c.data (p % cap), c.flag (p % cap))

structure Inv (cap : Nat) (c : Conf V) (g : Ghost V) : Prop where
  sh : Sh cap c g
  thr : ∀ t, ThrInv cap c g (c.pc t)
  ownP : ∀ t t' p, OwnP (c.pc t) p → OwnP (c.pc t') p → t = t'
  ownC : ∀ t t' p, consPos (c.pc t) = some p → consPos (c.pc t') = some p → t = t'
  pend : ∀ p, p < c.enq → g.pub p = false → ∃ t, OwnP (c.pc t) p
  pendC : ∀ p, p < c.deq → g.rel p = false → ∃ t, consPos (c.pc t) = some p

section
variable {cap : Nat} {c c' : Conf V} {g g' : Ghost V}

theorem Sh.enqLe (i : Sh cap c g) : c.enq ≤ c.deq + cap := by
  rcases Nat.lt_or_ge cap c.enq with h | h
  · have := i.relLt _ (i.relOld (c.enq - 1 - cap) (by omega)); omega
  · omega

theorem Sh.window (i : Sh cap c g) {p : Nat} (h : g.rel p = false) : c.enq ≤ p + cap := by
  rcases Nat.lt_or_ge (p + cap) c.enq with h' | h'
  · have := i.relOld p h'; rw [h] at this; simp at this
  · exact h'

theorem Sh.rel_of_not_pub (i : Sh cap c g) {p : Nat} (h : g.pub p = false) : g.rel p = false := by
  cases hr : g.rel p with
  | false => rfl
  | true => have := i.deqPub p (i.relLt p hr); rw [h] at this; simp at this

/-- Sequence numbers stay below the next lap. -/
theorem Sh.seq_lt (i : Sh cap c g) (q : Nat) : c.seq (q % cap) < c.enq + cap := by
  have h2 := i.capGe
  have hm : q % cap < cap := Nat.mod_lt _ (by omega)
  rcases Nat.lt_or_ge (q % cap) c.enq with h | h
  · -- the latest claimed position in this slot
    let r := q % cap
    have hr : r < c.enq := h
    let p := r + cap * ((c.enq - 1 - r) / cap)
    have hd := Nat.div_add_mod (c.enq - 1 - r) cap
    have hlt := Nat.mod_lt (c.enq - 1 - r) (show 0 < cap by omega)
    have hp : p < c.enq := by show r + cap * ((c.enq - 1 - r) / cap) < c.enq; omega
    have hp' : c.enq ≤ p + cap := by show c.enq ≤ r + cap * ((c.enq - 1 - r) / cap) + cap; omega
    have hmod : p % cap = q % cap := by
      show (q % cap + cap * _) % cap = q % cap
      rw [Nat.add_mul_mod_self_left, Nat.mod_mod]
    have := i.seqCur p hp hp'
    rw [hmod] at this
    rw [this]
    split
    · omega
    · split <;> omega
  · rw [i.seqNew _ hm h]; omega

/-- What a producer learns from the sequence number of a slot ahead. -/
theorem Sh.free_of_seq (i : Sh cap c g) {q : Nat} (h1 : c.enq ≤ q) (h2 : q < c.enq + cap)
    (hs : c.seq (q % cap) = q) : Free cap g q := by
  have hc := i.capGe
  rcases Nat.lt_or_ge q cap with h' | h'
  · exact .inl h'
  · refine .inr ⟨h', ?_⟩
    have := i.seqCur (q - cap) (by omega) (by omega)
    rw [sub_cap_mod h', hs] at this
    cases hr : g.rel (q - cap) with
    | true => rfl
    | false =>
      rw [hr] at this
      cases hb : g.pub (q - cap) <;> rw [hb] at this <;> simp at this <;> omega

/-- The sequence number of a free slot ahead. -/
theorem Sh.seq_of_free (i : Sh cap c g) {q : Nat} (h1 : c.enq ≤ q) (h2 : q < c.enq + cap)
    (hf : Free cap g q) : c.seq (q % cap) = q := by
  have hc := i.capGe
  rcases hf with h | ⟨h, hr⟩
  · rw [Nat.mod_eq_of_lt h]; exact i.seqNew _ h h1
  · have := i.seqCur (q - cap) (by omega) (by omega)
    rw [sub_cap_mod h, hr] at this
    simp at this; omega

/-- What a consumer learns from the sequence number. -/
theorem Sh.seq_eq_succ (i : Sh cap c g) {pos : Nat} (hp : pos ≤ c.enq) (hs : c.seq (pos % cap) = pos + 1) :
    g.pub pos = true := by
  have h2 := i.capGe
  rcases Nat.lt_or_ge pos c.enq with h | h
  · rcases Nat.lt_or_ge (pos + cap) c.enq with h' | h'
    · exact i.deqPub _ (i.relLt pos (i.relOld pos h'))
    · have := i.seqCur pos h h'
      rw [hs] at this
      cases hr : g.rel pos with
      | true => rw [hr] at this; simp at this; omega
      | false =>
        rw [hr] at this
        cases hb : g.pub pos with
        | true => rfl
        | false => rw [hb] at this; simp at this
  · exfalso
    rcases Nat.lt_or_ge pos cap with h' | h'
    · have := i.seqNew pos h' h
      rw [Nat.mod_eq_of_lt h', this] at hs; omega
    · have := i.seqCur (pos - cap) (by omega) (by omega)
      rw [sub_cap_mod h', hs] at this
      cases hr : g.rel (pos - cap) <;> rw [hr] at this <;> simp at this
      · split at this <;> omega
      · omega

/-- The key to the consistency check of `BatchPush`: if the node behind the range is free, a node of the range is
free or its sequence number makes the scan bail out. -/
theorem Sh.scan (i : Sh cap c g) {n j : Nat} (hn : n < cap) (hj : j < n) (hf : Free cap g (c.enq + n)) :
    Free cap g (c.enq + j) ∨ (c.seq ((c.enq + j) % cap) ≠ c.enq + j ∧
      c.seq ((c.enq + j) % cap) + cap = c.enq + j + 1) := by
  have hc := i.capGe
  rcases Nat.lt_or_ge (c.enq + j) cap with h | h
  · exact .inl (.inl h)
  · rcases hf with hf | ⟨-, hf⟩
    · omega
    · cases hr : g.rel (c.enq + j - cap) with
      | true => exact .inl (.inr ⟨h, hr⟩)
      | false =>
        have hpub := i.deqPub (c.enq + j - cap) (by have := i.relLt _ hf; omega)
        have := i.seqCur (c.enq + j - cap) (by omega) (by omega)
        rw [sub_cap_mod h, hr, hpub] at this
        simp at this
        right
        omega

theorem Free.mono {q : Nat} (h : Free cap g q) (hr : ∀ p, g.rel p = true → g'.rel p = true) : Free cap g' q := by
  rcases h with h | ⟨h1, h2⟩
  · exact .inl h
  · exact .inr ⟨h1, hr _ h2⟩

theorem Fill.mono {vs : List V} {f : Bool} {pos : Nat} (h : Fill c g vs f pos) (he : c.enq ≤ c'.enq)
    (hl : ∀ (n : Nat) w, g.log[n]? = some w → g'.log[n]? = some w)
    (hp : ∀ p, pos ≤ p → p < pos + vs.length → g'.pub p = g.pub p) : Fill c' g' vs f pos := by
  refine ⟨Nat.le_trans h.1 he, ?_⟩
  intro j v hj
  obtain ⟨h1, h2⟩ := h.2 j v hj
  have hlt := (List.getElem?_eq_some_iff.1 hj).1
  exact ⟨by rw [hp _ (by omega) (by omega)]; exact h1, hl _ _ h2⟩

/-- Frame rule for the knowledge of a thread. -/
theorem ThrInv.frame {x : PC V} (h : ThrInv cap c g x) (he : c.enq ≤ c'.enq) (hd : c.deq ≤ c'.deq)
    (hpub : ∀ p, g.pub p = true → g'.pub p = true) (hrel : ∀ p, g.rel p = true → g'.rel p = true)
    (hl : ∀ (n : Nat) w, g.log[n]? = some w → g'.log[n]? = some w)
    (hP : ∀ p, OwnP x p → g'.pub p = g.pub p ∧ c'.data (p % cap) = c.data (p % cap) ∧
      c'.flag (p % cap) = c.flag (p % cap))
    (hC : ∀ p, consPos x = some p → g'.rel p = g.rel p) : ThrInv cap c' g' x := by
  cases x with
  | idle => trivial
  | eLoad => trivial
  | bLoad => trivial
  | dLoad => trivial
  | sFirst => trivial
  | sSecond => trivial
  | done => trivial
  | abort => exact h
  | eSeq => exact Nat.le_trans h he
  | bHead => exact Nat.le_trans h he
  | eCas =>
    rcases h with h | h
    · exact .inl (by omega)
    · exact .inr (h.mono hrel)
  | bScan =>
    obtain ⟨h1, h2, h3⟩ := h
    refine ⟨by omega, h2, ?_⟩
    rcases h3 with h3 | ⟨h3, h4, h5⟩
    · exact .inl (by omega)
    · exact .inr ⟨h3, h4.mono hrel, fun j hj => (h5 j hj).mono hrel⟩
  | bCas =>
    rcases h with h | ⟨h3, h5⟩
    · exact .inl (by omega)
    · exact .inr ⟨h3, fun j hj => (h5 j hj).mono hrel⟩
  | bChk v rest f pos => exact Fill.mono h he hl (fun p h1 h2 => (hP p ⟨h1, h2⟩).1)
  | wFib v rest f pos => exact Fill.mono h he hl (fun p h1 h2 => (hP p ⟨h1, h2⟩).1)
  | wFlag v rest f pos =>
    refine ⟨Fill.mono h.1 he hl (fun p h1 h2 => (hP p ⟨h1, h2⟩).1), ?_⟩
    rw [(hP pos ⟨Nat.le_refl _, by simp only [range]; omega⟩).2.1]; exact h.2
  | wPub v rest f pos =>
    have hp := hP pos ⟨Nat.le_refl _, by simp only [range]; omega⟩
    refine ⟨Fill.mono h.1 he hl (fun p h1 h2 => (hP p ⟨h1, h2⟩).1), ?_, ?_⟩
    · rw [hp.2.1]; exact h.2.1
    · rw [hp.2.2]; exact h.2.2
  | dSeq => exact Nat.le_trans h hd
  | dTest => exact ⟨hpub _ h.1, Nat.le_trans h.2 hd⟩
  | dCas m pos =>
    refine ⟨hpub _ h.1, fun e => ?_⟩
    rcases h.2 e with h2 | ⟨v, h2⟩
    · exact .inl (by omega)
    · exact .inr ⟨v, hl _ _ h2⟩
  | dRead pos => exact ⟨Nat.lt_of_lt_of_le h.1 hd, by rw [hC pos rfl]; exact h.2⟩
  | dRel v pos =>
    obtain ⟨h1, h2, f, h3⟩ := h
    exact ⟨Nat.lt_of_lt_of_le h1 hd, by rw [hC pos rfl]; exact h2, f, hl _ _ h3⟩

theorem OwnP.lt {x : PC V} {p : Nat} (h : ThrInv cap c g x) (ho : OwnP x p) : p < c.enq ∧ g.pub p = false := by
  have key : ∀ (v : V) rest f pos, Fill c g (v :: rest) f pos → pos ≤ p → p < pos + (rest.length + 1) →
      p < c.enq ∧ g.pub p = false := by
    intro v rest f pos hf h1 h2
    have hl := hf.1
    simp only [List.length_cons] at hl
    refine ⟨by omega, ?_⟩
    have hlt : p - pos < (v :: rest).length := by simp only [List.length_cons]; omega
    have := (hf.2 (p - pos) _ (List.getElem?_eq_getElem hlt)).1
    rw [show pos + (p - pos) = p by omega] at this
    exact this
  cases x <;> first
    | (exact key _ _ _ _ h ho.1 ho.2)
    | (exact key _ _ _ _ h.1 ho.1 ho.2)
    | (obtain ⟨h1, h2⟩ := ho; simp only [range] at h1 h2; omega)

theorem consPos.lt {x : PC V} {p : Nat} (h : ThrInv cap c g x) (ho : consPos x = some p) :
    p < c.deq ∧ g.rel p = false := by
  cases x <;> simp only [consPos] at ho <;> first
    | (injection ho with ho; subst ho; exact ⟨h.1, h.2⟩)
    | (injection ho with ho; subst ho; exact ⟨h.1, h.2.1⟩)
    | exact absurd ho (by simp)

/-- One step of thread `t`. -/
theorem Inv.step (i : Inv cap c g) (t : Nat) (x : PC V) (hpc : c'.pc = upd c.pc t x) (hsh : Sh cap c' g')
    (hx : ThrInv cap c' g' x) (he : c.enq ≤ c'.enq) (hd : c.deq ≤ c'.deq)
    (hpub : ∀ p, g.pub p = true → g'.pub p = true) (hrel : ∀ p, g.rel p = true → g'.rel p = true)
    (hl : ∀ (n : Nat) w, g.log[n]? = some w → g'.log[n]? = some w)
    (hP : ∀ p, p < c.enq → g.pub p = false → ¬ OwnP (c.pc t) p → g'.pub p = g.pub p ∧
      c'.data (p % cap) = c.data (p % cap) ∧ c'.flag (p % cap) = c.flag (p % cap))
    (hC : ∀ p, consPos (c.pc t) ≠ some p → g'.rel p = g.rel p)
    (hoP : ∀ p, OwnP x p → OwnP (c.pc t) p ∨ c.enq ≤ p)
    (hoC : ∀ p, consPos x = some p → consPos (c.pc t) = some p ∨ c.deq ≤ p)
    (hpP : ∀ p, p < c'.enq → g'.pub p = false → OwnP x p ∨ (p < c.enq ∧ ¬ OwnP (c.pc t) p))
    (hpC : ∀ p, p < c'.deq → g'.rel p = false → consPos x = some p ∨ (p < c.deq ∧ consPos (c.pc t) ≠ some p)) :
    Inv cap c' g' where
  sh := hsh
  thr := by
    intro t'
    rw [hpc]
    by_cases e : t' = t
    · subst e; rw [upd_same]; exact hx
    · rw [upd_ne _ _ e]
      refine (i.thr t').frame he hd hpub hrel hl ?_ ?_
      · intro p ho
        have hlt := OwnP.lt (i.thr t') ho
        exact hP p hlt.1 hlt.2 (fun h => e (i.ownP _ _ _ ho h))
      · intro p ho
        exact hC p (fun h => e (i.ownC _ _ _ ho h))
  ownP := by
    intro t1 t2 p h1 h2
    rw [hpc] at h1 h2
    have key : ∀ t', t' ≠ t → OwnP (c.pc t') p → OwnP x p → False := by
      intro t' ne ho hx
      rcases hoP p hx with h | h
      · exact ne (i.ownP _ _ _ ho h)
      · have := (OwnP.lt (i.thr t') ho).1; omega
    by_cases e1 : t1 = t <;> by_cases e2 : t2 = t
    · rw [e1, e2]
    · subst e1; rw [upd_same] at h1; rw [upd_ne _ _ e2] at h2; exact (key t2 e2 h2 h1).elim
    · subst e2; rw [upd_same] at h2; rw [upd_ne _ _ e1] at h1; exact (key t1 e1 h1 h2).elim
    · rw [upd_ne _ _ e1] at h1; rw [upd_ne _ _ e2] at h2; exact i.ownP _ _ _ h1 h2
  ownC := by
    intro t1 t2 p h1 h2
    rw [hpc] at h1 h2
    have key : ∀ t', t' ≠ t → consPos (c.pc t') = some p → consPos x = some p → False := by
      intro t' ne ho hx
      rcases hoC p hx with h | h
      · exact ne (i.ownC _ _ _ ho h)
      · have := (consPos.lt (i.thr t') ho).1; omega
    by_cases e1 : t1 = t <;> by_cases e2 : t2 = t
    · rw [e1, e2]
    · subst e1; rw [upd_same] at h1; rw [upd_ne _ _ e2] at h2; exact (key t2 e2 h2 h1).elim
    · subst e2; rw [upd_same] at h2; rw [upd_ne _ _ e1] at h1; exact (key t1 e1 h1 h2).elim
    · rw [upd_ne _ _ e1] at h1; rw [upd_ne _ _ e2] at h2; exact i.ownC _ _ _ h1 h2
  pend := by
    intro p h1 h2
    rw [hpc]
    rcases hpP p h1 h2 with h | ⟨h, hn⟩
    · exact ⟨t, by rw [upd_same]; exact h⟩
    · have hnp : g.pub p = false := by
        cases hb : g.pub p with
        | false => rfl
        | true => have := hpub p hb; rw [h2] at this; simp at this
      obtain ⟨t', ht'⟩ := i.pend p h hnp
      have e : t' ≠ t := by rintro rfl; exact hn ht'
      exact ⟨t', by rw [upd_ne _ _ e]; exact ht'⟩
  pendC := by
    intro p h1 h2
    rw [hpc]
    rcases hpC p h1 h2 with h | ⟨h, hn⟩
    · exact ⟨t, by rw [upd_same]; exact h⟩
    · have hnp : g.rel p = false := by
        cases hb : g.rel p with
        | false => rfl
        | true => have := hrel p hb; rw [h2] at this; simp at this
      obtain ⟨t', ht'⟩ := i.pendC p h hnp
      have e : t' ≠ t := by rintro rfl; exact hn ht'
      exact ⟨t', by rw [upd_ne _ _ e]; exact ht'⟩

/-- A step that only changes the state of thread `t`, neither claiming nor giving up a position. -/
theorem Inv.move (i : Inv cap c g) (t : Nat) (x : PC V) (hx : ThrInv cap c g x) (hp : range x = range (c.pc t))
    (hc : consPos x = consPos (c.pc t)) : Inv cap { c with pc := upd c.pc t x } g := by
  have ho : ∀ p, OwnP x p ↔ OwnP (c.pc t) p := by intro p; simp only [OwnP, hp]
  refine i.step t x rfl ?_ ?_ (Nat.le_refl _) (Nat.le_refl _) (fun _ h => h) (fun _ h => h) (fun _ _ h => h)
    (fun _ _ _ _ => ⟨rfl, rfl, rfl⟩) (fun _ _ => rfl) (fun p h => .inl ((ho p).1 h)) (fun p h => .inl (hc ▸ h)) ?_ ?_
  · have s := i.sh
    exact ⟨s.capGe, s.len, s.deqLe, s.pubLt, s.deqPub, s.relLt, s.relOld, s.seqNew, s.seqCur, s.dat⟩
  · exact hx.frame (Nat.le_refl _) (Nat.le_refl _) (fun _ h => h) (fun _ h => h) (fun _ _ h => h)
      (fun _ _ => ⟨rfl, rfl, rfl⟩) (fun _ _ => rfl)
  · intro p h1 _
    by_cases h : OwnP x p
    · exact .inl h
    · exact .inr ⟨h1, fun h' => h ((ho p).2 h')⟩
  · intro p h1 _
    by_cases h : consPos x = some p
    · exact .inl h
    · exact .inr ⟨h1, fun h' => h (hc ▸ h')⟩

theorem getElem?_app {α : Type} {l m : List α} {w : α} {p : Nat} (h : l[p]? = some w) : (l ++ m)[p]? = some w := by
  rw [List.getElem?_append_left]
  · exact h
  · exact (List.getElem?_eq_some_iff.1 h).1

/-- Claiming positions for a push or a batch push. -/
theorem Inv.claim (i : Inv cap c g) (t : Nat) (vs : List V) (f : Bool) (x : PC V) (hn : vs.length < cap)
    (hfree : ∀ j, j < vs.length → Free cap g (c.enq + j)) (hp0 : (range (c.pc t)).2 = 0)
    (hc : consPos x = none) (hc0 : consPos (c.pc t) = none)
    (hr : vs.length = 0 ∧ (range x).2 = 0 ∨ range x = (c.enq, vs.length))
    (hx : ∀ c' g', Fill c' g' vs f c.enq → ThrInv cap c' g' x) :
    Inv cap { c with enq := c.enq + vs.length, pc := upd c.pc t x }
      ⟨g.log ++ vs.map (fun v => (v, f)), g.pub, g.rel⟩ := by
  have s := i.sh
  have hcap := s.capGe
  have hdq := s.deqLe
  have hnp : ∀ p, c.enq ≤ p → g.pub p = false := by
    intro p hp
    cases h : g.pub p with
    | false => rfl
    | true => have := s.pubLt _ h; omega
  have hno : ∀ p, ¬ OwnP (c.pc t) p := by
    intro p h; obtain ⟨h1, h2⟩ := h; omega
  refine i.step t x rfl ?_ ?_ (Nat.le_add_right _ _) (Nat.le_refl _) (fun _ h => h) (fun _ h => h)
    (fun _ _ => getElem?_app) (fun _ _ _ _ => ⟨rfl, rfl, rfl⟩) (fun _ _ => rfl) ?_ ?_ ?_ ?_
  · constructor
    · exact hcap
    · simp [s.len]
    · show c.deq ≤ c.enq + vs.length; omega
    · intro p hp; have := s.pubLt p hp; show p < c.enq + vs.length; omega
    · exact s.deqPub
    · exact s.relLt
    · intro p hp
      have hp : p + cap < c.enq + vs.length := hp
      rcases Nat.lt_or_ge (p + cap) c.enq with h | h
      · exact s.relOld p h
      · rcases hfree (p + cap - c.enq) (by omega) with h' | ⟨h', hr⟩
        · omega
        · rw [show c.enq + (p + cap - c.enq) - cap = p by omega] at hr; exact hr
    · intro p h1 h2; have h2 : c.enq + vs.length ≤ p := h2; exact s.seqNew p h1 (by omega)
    · intro p h1 h2
      have h1 : p < c.enq + vs.length := h1
      have h2 : c.enq + vs.length ≤ p + cap := h2
      rcases Nat.lt_or_ge p c.enq with h | h
      · exact s.seqCur p h (by omega)
      · have hb := hnp p h
        have hr := s.rel_of_not_pub hb
        simp only [hb, hr]
        have hf := hfree (p - c.enq) (by omega)
        rw [show c.enq + (p - c.enq) = p by omega] at hf
        exact s.seq_of_free h (by omega) hf
    · intro p h1 h2; exact getElem?_app (s.dat p h1 h2)
  · refine hx _ _ ⟨Nat.le_refl _, ?_⟩
    intro j v hj
    refine ⟨hnp _ (by omega), ?_⟩
    simp only
    rw [List.getElem?_append_right (by rw [s.len]; omega), s.len, List.getElem?_map,
      show c.enq + j - c.enq = j by omega, hj]
    rfl
  · intro p h
    right
    obtain ⟨h1, h2⟩ := h
    rcases hr with ⟨-, hr⟩ | hr
    · omega
    · rw [hr] at h1; exact h1
  · intro p h; rw [hc] at h; simp at h
  · intro p h1 h2
    have h1 : p < c.enq + vs.length := h1
    rcases Nat.lt_or_ge p c.enq with h | h
    · exact .inr ⟨h, hno p⟩
    · left
      rcases hr with ⟨hr, -⟩ | hr
      · omega
      · exact ⟨by rw [hr]; exact h, by rw [hr]; exact h1⟩
  · intro p h1 _; exact .inr ⟨h1, by rw [hc0]; simp⟩

/-- The slot of an unpublished position is not the slot of another live one. -/
theorem Sh.other (s : Sh cap c g) {pos : Nat} (hlt : pos < c.enq) (hr : g.rel pos = false) (p : Nat) (h1 : p < c.enq)
    (h2 : c.enq ≤ p + cap) (h3 : p ≠ pos) : p % cap ≠ pos % cap :=
  mod_ne h1 hlt h2 (s.window hr) h3

theorem Fill.head {v : V} {rest : List V} {f : Bool} {pos : Nat} (h : Fill c g (v :: rest) f pos) :
    pos < c.enq ∧ g.pub pos = false ∧ g.log[pos]? = some (v, f) := by
  have h1 := h.1
  simp only [List.length_cons] at h1
  exact ⟨by omega, h.2 0 v rfl⟩

theorem Fill.tail {v : V} {rest : List V} {f : Bool} {pos : Nat} (h : Fill c g (v :: rest) f pos) :
    Fill c g rest f (pos + 1) := by
  have h1 := h.1
  simp only [List.length_cons] at h1
  refine ⟨by omega, ?_⟩
  intro j w hj
  have := h.2 (j + 1) w (by simpa using hj)
  rw [show pos + (j + 1) = pos + 1 + j by omega] at this
  exact this

/-- Writing the fiber. -/
theorem Inv.write (i : Inv cap c g) (t : Nat) (v : V) (rest : List V) (f : Bool) (pos : Nat)
    (hpc : c.pc t = .wFib v rest f pos) :
    Inv cap { c with data := upd c.data (pos % cap) v, pc := upd c.pc t (.wFlag v rest f pos) } g := by
  have s := i.sh
  have ht := i.thr t
  rw [hpc] at ht
  obtain ⟨hlt, hnp, hlog⟩ := Fill.head ht
  have hoth := s.other hlt (s.rel_of_not_pub hnp)
  have hown : OwnP (c.pc t) pos := by rw [hpc]; exact ⟨Nat.le_refl _, by simp only [range]; omega⟩
  refine i.step t _ rfl ?_ ?_ (Nat.le_refl _) (Nat.le_refl _) (fun _ h => h) (fun _ h => h) (fun _ _ h => h)
    ?_ (fun _ _ => rfl) (fun p h => .inl (by rw [hpc]; exact h)) (fun p h => by simp [consPos] at h) ?_ ?_
  · refine ⟨s.capGe, s.len, s.deqLe, s.pubLt, s.deqPub, s.relLt, s.relOld, s.seqNew, s.seqCur, ?_⟩
    intro p h1 h2
    have hne : p ≠ pos := by rintro rfl; rw [hnp] at h1; simp at h1
    simp only [upd_ne _ _ (hoth p (s.pubLt p h1) (s.window h2) hne)]
    exact s.dat p h1 h2
  · refine ⟨Fill.mono ht (Nat.le_refl _) (fun _ _ h => h) (fun _ _ _ => rfl), ?_⟩
    simp only [upd_same]
  · intro p h1 h2 h3
    have hne : p ≠ pos := by rintro rfl; exact h3 hown
    refine ⟨rfl, ?_, rfl⟩
    simp only [upd_ne _ _ (hoth p h1 (s.window (s.rel_of_not_pub h2)) hne)]
  · intro p h1 _
    by_cases h : OwnP (c.pc t) p
    · left; rw [hpc] at h; exact h
    · exact .inr ⟨h1, h⟩
  · intro p h1 _; exact .inr ⟨h1, by rw [hpc]; simp [consPos]⟩

/-- Writing the flag. -/
theorem Inv.mark (i : Inv cap c g) (t : Nat) (v : V) (rest : List V) (f : Bool) (pos : Nat)
    (hpc : c.pc t = .wFlag v rest f pos) :
    Inv cap { c with flag := upd c.flag (pos % cap) f, pc := upd c.pc t (.wPub v rest f pos) } g := by
  have s := i.sh
  have ht := i.thr t
  rw [hpc] at ht
  obtain ⟨hlt, hnp, hlog⟩ := Fill.head ht.1
  have hoth := s.other hlt (s.rel_of_not_pub hnp)
  have hown : OwnP (c.pc t) pos := by rw [hpc]; exact ⟨Nat.le_refl _, by simp only [range]; omega⟩
  refine i.step t _ rfl ?_ ?_ (Nat.le_refl _) (Nat.le_refl _) (fun _ h => h) (fun _ h => h) (fun _ _ h => h)
    ?_ (fun _ _ => rfl) (fun p h => .inl (by rw [hpc]; exact h)) (fun p h => by simp [consPos] at h) ?_ ?_
  · refine ⟨s.capGe, s.len, s.deqLe, s.pubLt, s.deqPub, s.relLt, s.relOld, s.seqNew, s.seqCur, ?_⟩
    intro p h1 h2
    have hne : p ≠ pos := by rintro rfl; rw [hnp] at h1; simp at h1
    simp only [upd_ne _ _ (hoth p (s.pubLt p h1) (s.window h2) hne)]
    exact s.dat p h1 h2
  · refine ⟨Fill.mono ht.1 (Nat.le_refl _) (fun _ _ h => h) (fun _ _ _ => rfl), ht.2, ?_⟩
    simp only [upd_same]
  · intro p h1 h2 h3
    have hne : p ≠ pos := by rintro rfl; exact h3 hown
    refine ⟨rfl, rfl, ?_⟩
    simp only [upd_ne _ _ (hoth p h1 (s.window (s.rel_of_not_pub h2)) hne)]
  · intro p h1 _
    by_cases h : OwnP (c.pc t) p
    · left; rw [hpc] at h; exact h
    · exact .inr ⟨h1, h⟩
  · intro p h1 _; exact .inr ⟨h1, by rw [hpc]; simp [consPos]⟩

theorem range_fillNext (rest : List V) (f : Bool) (pos : Nat) :
    (rest.length = 0 ∧ (range (fillNext rest f pos)).2 = 0) ∨ range (fillNext rest f pos) = (pos, rest.length) := by
  cases rest with
  | nil => exact .inl ⟨rfl, rfl⟩
  | cons => exact .inr rfl

theorem OwnP_fillNext (rest : List V) (f : Bool) (pos p : Nat) :
    OwnP (fillNext rest f pos) p ↔ pos ≤ p ∧ p < pos + rest.length := by
  cases rest with
  | nil => simp only [OwnP, fillNext, range, List.length_nil]; omega
  | cons => simp only [OwnP, fillNext, range, List.length_cons]

theorem consPos_fillNext (rest : List V) (f : Bool) (pos : Nat) : consPos (fillNext rest f pos) = none := by
  cases rest <;> rfl

theorem thr_fillNext {rest : List V} {f : Bool} {pos : Nat} (h : Fill c g rest f pos) :
    ThrInv cap c g (fillNext rest f pos) := by
  cases rest with
  | nil => trivial
  | cons => exact h

/-- Publishing the fiber. -/
theorem Inv.publish (i : Inv cap c g) (t : Nat) (v : V) (rest : List V) (f : Bool) (pos : Nat)
    (hpc : c.pc t = .wPub v rest f pos) :
    Inv cap { c with seq := upd c.seq (pos % cap) (pos + 1), pc := upd c.pc t (fillNext rest f (pos + 1)) }
      ⟨g.log, upd g.pub pos true, g.rel⟩ := by
  have s := i.sh
  have ht := i.thr t
  rw [hpc] at ht
  obtain ⟨hlt, hnp, hlog⟩ := Fill.head ht.1
  have hnr := s.rel_of_not_pub hnp
  have hoth := s.other hlt hnr
  have hown : OwnP (c.pc t) pos := by rw [hpc]; exact ⟨Nat.le_refl _, by simp only [range]; omega⟩
  have mono : ∀ p, g.pub p = true → upd g.pub pos true p = true := by
    intro p hp; by_cases e : p = pos
    · subst e; simp
    · rw [upd_ne _ _ e]; exact hp
  refine i.step t _ rfl ?_ ?_ (Nat.le_refl _) (Nat.le_refl _) mono (fun _ h => h) (fun _ _ h => h)
    ?_ (fun _ _ => rfl) ?_ (fun p h => by rw [consPos_fillNext] at h; simp at h) ?_ ?_
  · constructor
    · exact s.capGe
    · exact s.len
    · exact s.deqLe
    · intro p hp
      by_cases e : p = pos
      · subst e; exact hlt
      · simp only [upd_ne _ _ e] at hp; exact s.pubLt p hp
    · intro p hp; exact mono p (s.deqPub p hp)
    · exact s.relLt
    · exact s.relOld
    · intro p h1 h2
      have h2 : c.enq ≤ p := h2
      have : p ≠ pos % cap := by
        rw [Nat.mod_eq_of_lt (by omega)]; omega
      simp only [upd_ne _ _ this]
      exact s.seqNew p h1 h2
    · intro p h1 h2
      by_cases e : p = pos
      · subst e; simp [hnr]
      · simp only [upd_ne _ _ e, upd_ne _ _ (hoth p h1 h2 e)]
        exact s.seqCur p h1 h2
    · intro p h1 h2
      by_cases e : p = pos
      · subst e; simp only [ht.2.1, ht.2.2]; exact hlog
      · simp only [upd_ne _ _ e] at h1; exact s.dat p h1 h2
  · apply thr_fillNext
    refine Fill.mono ht.1.tail (Nat.le_refl _) (fun _ _ h => h) ?_
    intro p h1 _
    simp only
    rw [upd_ne _ _ (by omega)]
  · intro p h1 h2 h3
    have hne : p ≠ pos := by rintro rfl; exact h3 hown
    refine ⟨?_, rfl, rfl⟩
    simp only [upd_ne _ _ hne]
  · intro p h
    rw [OwnP_fillNext] at h
    left; rw [hpc]; exact ⟨by simp only [range]; omega, by simp only [range]; omega⟩
  · intro p h1 h2
    have hne : p ≠ pos := by rintro rfl; simp at h2
    by_cases h : OwnP (c.pc t) p
    · left
      rw [OwnP_fillNext]
      rw [hpc] at h
      obtain ⟨h3, h4⟩ := h
      simp only [range] at h3 h4
      omega
    · exact .inr ⟨h1, h⟩
  · intro p h1 _; exact .inr ⟨h1, by rw [hpc]; simp [consPos]⟩

/-- Claiming a position for a pop. -/
theorem Inv.take (i : Inv cap c g) (t : Nat) (m : Mode) (hpc : c.pc t = .dCas m c.deq) :
    Inv cap { c with deq := c.deq + 1, pc := upd c.pc t (.dRead c.deq) } g := by
  have s := i.sh
  have ht := i.thr t
  rw [hpc] at ht
  have hpub := ht.1
  have hlt := s.pubLt _ hpub
  have hnr : g.rel c.deq = false := by
    cases h : g.rel c.deq with
    | false => rfl
    | true => have := s.relLt _ h; omega
  refine i.step t _ rfl ?_ ?_ (Nat.le_refl _) (Nat.le_succ _) (fun _ h => h) (fun _ h => h) (fun _ _ h => h)
    (fun _ _ _ _ => ⟨rfl, rfl, rfl⟩) (fun _ _ => rfl) ?_ ?_ ?_ ?_
  · refine ⟨s.capGe, s.len, hlt, s.pubLt, ?_, ?_, s.relOld, s.seqNew, s.seqCur, s.dat⟩
    · intro p hp
      have hp : p < c.deq + 1 := hp
      rcases Nat.lt_or_ge p c.deq with h | h
      · exact s.deqPub p h
      · rw [show p = c.deq by omega]; exact hpub
    · intro p hp; have := s.relLt p hp; show p < c.deq + 1; omega
  · exact ⟨Nat.lt_succ_self _, hnr⟩
  · intro p h; obtain ⟨h1, h2⟩ := h; simp only [range] at h1 h2; omega
  · intro p h; right; simp only [consPos] at h; injection h with h; omega
  · intro p h1 _; exact .inr ⟨h1, by rw [hpc]; intro h; obtain ⟨h1, h2⟩ := h; simp only [range] at h1 h2; omega⟩
  · intro p h1 _
    have h1 : p < c.deq + 1 := h1
    rcases Nat.lt_or_ge p c.deq with h | h
    · exact .inr ⟨h, by rw [hpc]; simp [consPos]⟩
    · left; simp only [consPos]; congr 1; omega

/-- Releasing the slot. -/
theorem Inv.release (i : Inv cap c g) (t : Nat) (v : V) (pos : Nat) (hpc : c.pc t = .dRel v pos) :
    Inv cap { c with seq := upd c.seq (pos % cap) (pos + cap), pc := upd c.pc t (.done (.val v)) }
      ⟨g.log, g.pub, upd g.rel pos true⟩ := by
  have s := i.sh
  have ht := i.thr t
  rw [hpc] at ht
  obtain ⟨hlt, hnr, -⟩ := ht
  have hE : pos < c.enq := by have := s.deqLe; omega
  have hoth := s.other hE hnr
  have mono : ∀ p, g.rel p = true → upd g.rel pos true p = true := by
    intro p hp; by_cases e : p = pos
    · subst e; simp
    · rw [upd_ne _ _ e]; exact hp
  refine i.step t _ rfl ?_ ?_ (Nat.le_refl _) (Nat.le_refl _) (fun _ h => h) mono (fun _ _ h => h)
    (fun _ _ _ _ => ⟨rfl, rfl, rfl⟩) ?_ ?_ ?_ ?_ ?_
  · constructor
    · exact s.capGe
    · exact s.len
    · exact s.deqLe
    · exact s.pubLt
    · exact s.deqPub
    · intro p hp
      by_cases e : p = pos
      · subst e; exact hlt
      · simp only [upd_ne _ _ e] at hp; exact s.relLt p hp
    · intro p hp; exact mono p (s.relOld p hp)
    · intro p h1 h2
      have h2 : c.enq ≤ p := h2
      have : p ≠ pos % cap := by
        rw [Nat.mod_eq_of_lt (by omega)]; omega
      simp only [upd_ne _ _ this]
      exact s.seqNew p h1 h2
    · intro p h1 h2
      by_cases e : p = pos
      · subst e; simp
      · simp only [upd_ne _ _ e, upd_ne _ _ (hoth p h1 h2 e)]
        exact s.seqCur p h1 h2
    · intro p h1 h2
      by_cases e : p = pos
      · subst e; simp at h2
      · simp only [upd_ne _ _ e] at h2; exact s.dat p h1 h2
  · trivial
  · intro p h
    have hne : p ≠ pos := by rintro rfl; exact h (by rw [hpc]; rfl)
    simp only [upd_ne _ _ hne]
  · intro p h; obtain ⟨h1, h2⟩ := h; simp only [range] at h1 h2; omega
  · intro p h; simp [consPos] at h
  · intro p h1 _; exact .inr ⟨h1, by rw [hpc]; intro h; obtain ⟨h1, h2⟩ := h; simp only [range] at h1 h2; omega⟩
  · intro p h1 h2
    have hne : p ≠ pos := by rintro rfl; simp at h2
    exact .inr ⟨h1, by rw [hpc]; simp only [consPos]; intro h; injection h with h; exact hne h.symm⟩

end

end Verif.Queue.RunQ
