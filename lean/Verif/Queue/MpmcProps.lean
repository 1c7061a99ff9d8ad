import Verif.Queue.MpmcLemmas
import Verif.Common.Conservation
/-!
# Properties C19 and C37: the bounded MPMC and MPSC queues
-/

namespace Verif.Queue.Mpmc

open Verif.Lin

variable {V : Type}

/-- Concrete configuration against specification state. -/
def Rel (k : Cfg) (c : Conf V) (s : State (Op V) (Res V) (List V)) : Prop :=
  ∃ g, Inv k c g ∧ s.abs = g.log.drop c.deq ∧ ∀ t, PhaseOf g (c.pc t) (s.phase t)

theorem inv_init (k : Cfg) (d : V) (hk : 2 ≤ k.cap) : Inv k (init d) ⟨[], fun _ => false, fun _ => false⟩ where
  capGe := hk
  len := rfl
  deqLe := Nat.le_refl _
  pubLt := by simp
  relLt := by simp
  relOld := by intro p h; simp [init] at h
  seqNew := by intro p _ _; rfl
  seqCur := by intro p h; simp [init] at h
  dat := by simp
  thr := by intro t; trivial
  ownP := by intro t t' p h; simp [init, prodPos] at h
  ownC := by intro t t' p h; simp [init, consPos] at h
  pend := by intro p h; simp [init] at h
  pendC := by intro p h; simp [init] at h
  single := by intro _ t h; simp [init, popping] at h

theorem PhaseOf.mono {g g' : Ghost V} {x : PC V} {p : Phase (Op V) (Res V)} (h : PhaseOf g x p)
    (hl : ∀ (n : Nat) v, g.log[n]? = some v → g'.log[n]? = some v) : PhaseOf g' x p := by
  cases x <;> try exact h
  obtain ⟨v, h1, h2⟩ := h
  exact ⟨v, hl _ _ h1, h2⟩

theorem phases_upd {g g' : Ghost V} {pc : Nat → PC V} {ph : Nat → Phase (Op V) (Res V)} {t : Nat} {x : PC V}
    {p : Phase (Op V) (Res V)} (h : ∀ t, PhaseOf g (pc t) (ph t))
    (hl : ∀ (n : Nat) v, g.log[n]? = some v → g'.log[n]? = some v) (hx : PhaseOf g' x p) :
    ∀ t', PhaseOf g' (upd pc t x t') (upd ph t p t') := by
  intro t'
  by_cases e : t' = t
  · subst e; simp only [upd_same]; exact hx
  · simp only [upd_ne _ _ e]; exact (h t').mono hl

theorem phases_upd' {g g' : Ghost V} {pc : Nat → PC V} {ph : Nat → Phase (Op V) (Res V)} {t : Nat} {x : PC V}
    (h : ∀ t, PhaseOf g (pc t) (ph t))
    (hl : ∀ (n : Nat) v, g.log[n]? = some v → g'.log[n]? = some v) (hx : PhaseOf g' x (ph t)) :
    ∀ t', PhaseOf g' (upd pc t x t') (ph t') := by
  intro t'
  by_cases e : t' = t
  · subst e; simp only [upd_same]; exact hx
  · simp only [upd_ne _ _ e]; exact (h t').mono hl

/-- Every internal step is matched by the specification. -/
theorem sim_tau {k : Cfg} {c c' : Conf V} {s : State (Op V) (Res V) (List V)} {t : Nat} {spur : Bool}
    (h : Rel k c s) (hs : tstep k c t spur = some c') :
    ∃ s', Sim (fifo k.cap k.sc) s none s' ∧ Rel k c' s' := by
  obtain ⟨g, i, ha, hph⟩ := h
  have ht := i.thr t
  have hp := hph t
  have idl : ∀ (n : Nat) v, g.log[n]? = some v → g.log[n]? = some v := fun _ _ h => h
  -- a step without effect
  have quiet : ∀ x, ThrInv k c g x → prodPos x = prodPos (c.pc t) → consPos x = consPos (c.pc t) →
      (k.sc = true → popping x = true → popping (c.pc t) = true) → PhaseOf g x (s.phase t) →
      ∃ s', Sim (fifo k.cap k.sc) s none s' ∧ Rel k { c with pc := upd c.pc t x } s' := by
    intro x h1 h2 h3 h4 h5
    exact ⟨s, .tau s, g, i.move t x h1 h2 h3 (fun a b => i.single a t (h4 a b)), ha, phases_upd' hph idl h5⟩
  -- a step in which the operation takes effect without changing the shared state
  have eff : ∀ x op r, ThrInv k c g x → prodPos x = prodPos (c.pc t) → consPos x = consPos (c.pc t) →
      (k.sc = true → popping x = true → popping (c.pc t) = true) → s.phase t = .called op →
      fifo k.cap k.sc s.abs op r s.abs → PhaseOf g x (.effected r) →
      ∃ s', Sim (fifo k.cap k.sc) s none s' ∧ Rel k { c with pc := upd c.pc t x } s' := by
    intro x op r h1 h2 h3 h4 h5 h6 h7
    exact ⟨_, .eff h5 h6, g, i.move t x h1 h2 h3 (fun a b => i.single a t (h4 a b)), ha, phases_upd hph idl h7⟩
  have habs : s.abs.length = c.enq - c.deq := by rw [ha, List.length_drop, i.len]
  have hcap := i.enqLe
  have hdq := i.deqLe
  unfold tstep at hs
  cases hpc : c.pc t with
  | idle => rw [hpc] at hs; simp at hs
  | done r => rw [hpc] at hs; simp at hs
  | eLoad v b =>
    rw [hpc] at hs hp ht quiet; simp only [Option.some.injEq] at hs; subst hs
    exact quiet _ (Nat.le_refl _) rfl rfl (fun _ h => h) hp
  | eSeq v b pos =>
    rw [hpc] at hs hp ht quiet; simp only [Option.some.injEq] at hs; subst hs
    unfold afterESeq
    split
    · next h => exact quiet _ (i.seq_eq ht h) rfl rfl (fun _ h => h) hp
    · split
      · exact quiet _ ht rfl rfl (fun _ h => h) hp
      · exact quiet _ trivial rfl rfl (fun _ h => h) hp
  | eCas v b pos =>
    rw [hpc] at hs hp ht quiet; simp only at hs
    split at hs
    · next h =>
      obtain ⟨h, -⟩ := h
      subst h
      simp only [Option.some.injEq] at hs; subst hs
      have i' := i.claim t v b hpc
      have hsp : fifo k.cap k.sc s.abs (.push v b) .ok (s.abs ++ [v]) := by
        refine ⟨?_, rfl⟩
        have := i'.enqLe
        have : c.enq + 1 ≤ c.deq + k.cap := this
        omega
      refine ⟨_, .eff hp hsp, _, i', ?_, phases_upd hph (fun _ _ => getElem?_snoc) rfl⟩
      simp only [ha]
      rw [List.drop_append_of_le_length (by rw [i.len]; exact hdq)]
    · simp only [Option.some.injEq] at hs; subst hs
      exact quiet _ trivial rfl rfl (fun _ h => h) hp
  | eFull v b pos =>
    rw [hpc] at hs hp ht quiet eff; simp only at hs
    split at hs
    · next h =>
      simp only [Option.some.injEq] at hs; subst hs
      have ht : pos ≤ c.enq := ht
      have := i.capGe
      exact eff _ (.push v b) .full trivial rfl rfl (fun _ h => h) hp ⟨by omega, h.2, rfl⟩ rfl
    · simp only [Option.some.injEq] at hs; subst hs
      exact quiet _ trivial rfl rfl (fun _ h => h) hp
  | eWrite v pos =>
    rw [hpc] at hs hp; simp only [Option.some.injEq] at hs; subst hs
    exact ⟨s, .tau s, g, i.write t v pos hpc, ha, phases_upd' hph idl hp⟩
  | ePub pos =>
    rw [hpc] at hs hp; simp only [Option.some.injEq] at hs; subst hs
    exact ⟨s, .tau s, _, i.publish t pos hpc, ha, phases_upd' hph idl hp⟩
  | dLoad b =>
    rw [hpc] at hs hp ht quiet; simp only [Option.some.injEq] at hs; subst hs
    exact quiet _ ⟨Nat.le_refl _, fun _ => rfl⟩ rfl rfl (fun _ h => h) hp
  | dSeq b pos =>
    rw [hpc] at hs hp ht quiet eff; simp only [Option.some.injEq] at hs; subst hs
    obtain ⟨ht1, ht2⟩ := ht
    unfold afterDSeq
    split
    · next h => exact quiet _ ⟨i.seq_eq_succ (by omega) h, ht2⟩ rfl rfl (fun _ h => h) hp
    · split
      · next h =>
        exact eff _ (.pop b) .empty trivial rfl rfl (fun _ h => by simp [popping] at h) hp ⟨.inl h, rfl⟩ rfl
      · split
        · exact quiet _ ht1 rfl rfl (fun _ h => h) hp
        · exact quiet _ trivial rfl rfl (fun _ h => h) hp
  | dCas b pos =>
    rw [hpc] at hs hp ht quiet; simp only at hs
    obtain ⟨ht1, ht2⟩ := ht
    split at hs
    · next h =>
      have hpos : pos = c.deq := by
        rcases h with h | h
        · exact ht2 h
        · exact h.1.symm
      subst hpos
      simp only [Option.some.injEq] at hs; subst hs
      have hlt := i.pubLt _ ht1
      have hlen : c.deq < g.log.length := by rw [i.len]; exact hlt
      have hcons : g.log.drop c.deq = g.log[c.deq] :: g.log.drop (c.deq + 1) := List.drop_eq_getElem_cons hlen
      have hsp : fifo k.cap k.sc s.abs (.pop b) (.val g.log[c.deq]) (g.log.drop (c.deq + 1)) := by
        rw [ha]; exact hcons
      exact ⟨_, .eff hp hsp, g, i.take t b hpc, rfl, phases_upd hph idl ⟨_, List.getElem?_eq_getElem hlen, rfl⟩⟩
    · simp only [Option.some.injEq] at hs; subst hs
      exact quiet _ trivial rfl rfl (fun _ h => h) hp
  | dEmpty b pos =>
    rw [hpc] at hs hp ht quiet eff; simp only at hs
    split at hs
    · next h =>
      simp only [Option.some.injEq] at hs; subst hs
      have ht : pos ≤ c.deq := ht
      have hnil : s.abs = [] := List.length_eq_zero_iff.1 (by omega)
      exact eff _ (.pop b) .empty trivial rfl rfl (fun _ h => by simp [popping] at h) hp
        ⟨.inr ⟨hnil, h.2⟩, rfl⟩ rfl
    · simp only [Option.some.injEq] at hs; subst hs
      exact quiet _ trivial rfl rfl (fun _ h => h) hp
  | dRead pos =>
    rw [hpc] at hs hp ht quiet; simp only [Option.some.injEq] at hs; subst hs
    obtain ⟨v, h1, h2⟩ := hp
    have hd := i.dat pos ht.2.1 ht.2.2
    rw [h1] at hd
    injection hd with hd
    subst hd
    exact quiet _ ⟨ht.1, ht.2.1, ht.2.2, h1⟩ rfl rfl (fun _ h => by simp [popping] at h) h2
  | dRel v pos =>
    rw [hpc] at hs hp; simp only [Option.some.injEq] at hs; subst hs
    exact ⟨s, .tau s, _, i.release t v pos hpc, ha, phases_upd' hph idl hp⟩
  | sEnq =>
    rw [hpc] at hs hp quiet; simp only [Option.some.injEq] at hs; subst hs
    exact quiet _ hcap rfl rfl (fun _ h => by simp [popping] at h) hp
  | sDeq e =>
    rw [hpc] at hs hp ht eff; simp only [Option.some.injEq] at hs; subst hs
    have ht : e ≤ c.deq + k.cap := ht
    exact eff _ .size (.size (e - c.deq)) trivial rfl rfl (fun _ h => by simp [popping] at h) hp
      ⟨by omega, rfl⟩ rfl

theorem sim_step {k : Cfg} {c c' : Conf V} {s : State (Op V) (Res V) (List V)} {e}
    (h : Rel k c s) (hs : Step k c e c') : ∃ s', Sim (fifo k.cap k.sc) s e s' ∧ Rel k c' s' := by
  cases hs with
  | tau t spur _ hst => exact sim_tau h hst
  | call t op hid hal =>
    obtain ⟨g, i, ha, hph⟩ := h
    have hp := hph t
    rw [hid] at hp
    refine ⟨_, .call hp, g, i.move t (entry op) ?_ ?_ ?_ ?_, ha, phases_upd hph (fun _ _ h => h) ?_⟩
    · cases op <;> trivial
    · rw [hid]; cases op <;> rfl
    · rw [hid]; cases op <;> rfl
    · intro hsc hpop
      cases op with
      | pop b => exact hal hsc
      | push => simp [entry, popping] at hpop
      | size => simp [entry, popping] at hpop
    · cases op <;> rfl
  | ret t r hd =>
    obtain ⟨g, i, ha, hph⟩ := h
    have hp := hph t
    rw [hd] at hp
    exact ⟨_, .ret hp, g, i.move t .idle trivial (by rw [hd]; rfl) (by rw [hd]; rfl)
      (fun _ h => by simp [popping] at h), ha, phases_upd hph (fun _ _ h => h) rfl⟩

/-! ## C19 -/

/-- **C19.**  Every history of the MPMC queue of capacity at least 2 is linearizable for the bounded FIFO: no
element lost, duplicated or reordered; a push fails only when the queue is full and a pop only when it is
empty at the moment it takes effect. -/
theorem C19_mpmc_linearizable (cap : Nat) (hcap : 2 ≤ cap) (d : V) (h : List (Vis (Op V) (Res V))) (c : Conf V)
    (he : Exec (Step ⟨cap, false⟩) (init d) h c) : Linearizable (fifo cap false) [] h :=
  (linearizable_of_sim (Rel ⟨cap, false⟩) ⟨_, inv_init _ d hcap, rfl, fun _ => rfl⟩
    (fun _ _ _ _ h1 h2 => sim_step h1 h2) he).1

/-- **C19, occupancy.**  At most `cap` elements are stored at any moment. -/
theorem C19_at_most_capacity (cap : Nat) (hcap : 2 ≤ cap) (d : V) (h : List (Vis (Op V) (Res V))) (c : Conf V)
    (he : Exec (Step ⟨cap, false⟩) (init d) h c) : c.deq ≤ c.enq ∧ c.enq - c.deq ≤ cap := by
  obtain ⟨-, s, g, i, -, -⟩ := linearizable_of_sim (Rel ⟨cap, false⟩) ⟨_, inv_init _ d hcap, rfl, fun _ => rfl⟩
    (fun _ _ _ _ h1 h2 => sim_step h1 h2) he
  have := i.enqLe
  exact ⟨i.deqLe, by have h : c.enq ≤ c.deq + cap := this; omega⟩

/-! ### Counting elements -/

/-- Number of `Push` calls with an element satisfying `P`. -/
def pushed (P : V → Bool) (h : List (Vis (Op V) (Res V))) : Nat :=
  h.countP (fun e => match e with | .call _ (.push v _) => P v | _ => false)

/-- Number of pops that returned an element satisfying `P`. -/
def popped (P : V → Bool) (h : List (Vis (Op V) (Res V))) : Nat :=
  h.countP (fun e => match e with | .ret _ (.val v) => P v | _ => false)

def fIn (P : V → Bool) : Op V → Int
  | .push v _ => if P v then 1 else 0
  | _ => 0

def gOut (P : V → Bool) : Res V → Int
  | .val v => if P v then -1 else 0
  | _ => 0

theorem total_eq (P : V → Bool) (h : List (Vis (Op V) (Res V))) :
    total (fIn P) (gOut P) h = pushed P h - popped P h := by
  induction h with
  | nil => rfl
  | cons e h ih =>
    rw [total_cons, ih]
    rcases e with ⟨t, op⟩ | ⟨t, r⟩
    · cases op <;> simp only [pushed, popped, List.countP_cons, contrib, fIn] <;> split <;> simp_all <;> omega
    · cases r <;> simp only [pushed, popped, List.countP_cons, contrib, gOut] <;> split <;> simp_all <;> omega

theorem fifo_count (cap : Nat) (w : Bool) (P : V → Bool) (q : List V) (op : Op V) (r : Res V) (q' : List V)
    (h : fifo cap w q op r q') : (q'.countP P : Int) ≤ q.countP P + fIn P op + gOut P r := by
  cases op <;> cases r <;> try exact False.elim h
  · obtain ⟨-, rfl⟩ := h
    simp only [List.countP_append, List.countP_cons, List.countP_nil, fIn, gOut]
    split <;> simp
  · obtain ⟨-, -, rfl⟩ := h
    simp only [fIn, gOut]
    split <;> omega
  · have h : q = _ :: q' := h
    subst h
    simp only [List.countP_cons, fIn, gOut]
    split <;> simp <;> omega
  · obtain ⟨-, rfl⟩ := h
    simp [fIn, gOut]
  · obtain ⟨-, rfl⟩ := h
    simp [fIn, gOut]

/-- **C19/C37, at most once.**  For every set `P` of elements, at any moment no more elements of `P` have been popped
than pushed. -/
theorem C19_at_most_once (k : Cfg) (hcap : 2 ≤ k.cap) (d : V) (h : List (Vis (Op V) (Res V))) (c : Conf V)
    (he : Exec (Step k) (init d) h c) (P : V → Bool) : popped P h ≤ pushed P h := by
  have hl := (linearizable_of_sim (Rel k) ⟨_, inv_init _ d hcap, rfl, fun _ => rfl⟩
    (fun _ _ _ _ h1 h2 => sim_step h1 h2) he).1
  have := total_nonneg (spec := fifo k.cap k.sc) (fIn P) (gOut P) (fun q => (q.countP P : Int))
    (fun q op r q' h => fifo_count k.cap k.sc P q op r q' h) (fun _ => by omega)
    (fun op => by cases op <;> simp only [fIn] <;> (try split) <;> omega)
    (fun r => by cases r <;> simp only [gOut] <;> (try split) <;> omega) (a := []) rfl hl
  rw [total_eq] at this
  omega

/-! ### Progress when nobody else is active -/

theorem Exec.tau {k : Cfg} {i c c' : Conf V} {h} (t : Nat) (spur : Bool) (he : Exec (Step k) i h c)
    (hs : tstep k c t spur = some c') : Exec (Step k) i h c' := by
  have := Exec.step he (.tau c t spur c' hs)
  simpa using this

/-- A pop by `t` on a quiescent non-empty queue. -/
theorem solo_pop {k : Cfg} {ini c : Conf V} {g : Ghost V} {h} (he : Exec (Step k) ini h c) (i : Inv k c g)
    (hid : ∀ t, c.pc t = .idle) (t : Nat) (b : Bool) (ht : k.sc = true → t = 0) {v : V} (hv : g.log[c.deq]? = some v) :
    ∃ c', Exec (Step k) ini (h ++ [.call t (.pop b), .ret t (.val v)]) c' ∧ (∀ t, c'.pc t = .idle) := by
  have hlt : c.deq < c.enq := by
    have := (List.getElem?_eq_some_iff.1 hv).1; rw [i.len] at this; exact this
  have hpub : g.pub c.deq = true := by
    cases hb : g.pub c.deq with
    | true => rfl
    | false =>
      obtain ⟨t', ht'⟩ := i.pend _ hlt hb
      rw [hid] at ht'; simp [prodPos] at ht'
  have hnr : g.rel c.deq = false := by
    cases hr : g.rel c.deq with
    | false => rfl
    | true => have := (i.relLt _ hr).1; omega
  have hseq : c.seq (c.deq % k.cap) = c.deq + 1 := by
    have := i.seqCur c.deq hlt (i.window hnr)
    simpa [hpub, hnr] using this
  have hdat : c.data (c.deq % k.cap) = v := by
    have := i.dat _ hpub hnr; rw [hv] at this; injection this with this; exact this.symm
  have e0 := Exec.step he (.call c t (.pop b) (hid t) ht)
  have e1 := Exec.tau t false e0 (by simp only [tstep, upd_same, entry]; rfl)
  have e2 := Exec.tau t false e1 (by simp only [tstep, upd_same, afterDSeq, hseq, if_true]; rfl)
  have e3 := Exec.tau t false e2 (by simp only [tstep, upd_same, true_and, or_true, if_true]; rfl)
  have e4 := Exec.tau t false e3 (by simp only [tstep, upd_same, hdat]; rfl)
  have e5 := Exec.tau t false e4 (by simp only [tstep, upd_same]; rfl)
  have e6 := Exec.step e5 (.ret _ t (.val v) (by simp only [upd_same]))
  refine ⟨_, by simpa using e6, ?_⟩
  intro t'
  by_cases e : t' = t
  · subst e; simp only [upd_same]
  · simp only [upd_ne _ _ e, hid]

/-- A push by `t` on a quiescent queue that is not full. -/
theorem solo_push {k : Cfg} {ini c : Conf V} {g : Ghost V} {h} (he : Exec (Step k) ini h c) (i : Inv k c g)
    (hid : ∀ t, c.pc t = .idle) (t : Nat) (v : V) (b : Bool) (hroom : c.enq - c.deq < k.cap) :
    ∃ c', Exec (Step k) ini (h ++ [.call t (.push v b), .ret t .ok]) c' ∧ (∀ t, c'.pc t = .idle) := by
  have hd := i.deqLe
  have hseq : c.seq (c.enq % k.cap) = c.enq := by
    apply i.seq_next
    rcases Nat.lt_or_ge c.enq k.cap with h | h
    · exact .inl h
    · refine .inr ⟨h, ?_⟩
      cases hr : g.rel (c.enq - k.cap) with
      | true => rfl
      | false =>
        obtain ⟨t', ht'⟩ := i.pendC _ (by omega) hr
        rw [hid] at ht'; simp [consPos] at ht'
  have e0 := Exec.step he (.call c t (.push v b) (hid t) trivial)
  have e1 := Exec.tau t false e0 (by simp only [tstep, upd_same, entry]; rfl)
  have e2 := Exec.tau t false e1 (by simp only [tstep, upd_same, afterESeq, hseq, if_true]; rfl)
  have e3 := Exec.tau t false e2 (by simp only [tstep, upd_same, and_self, if_true]; rfl)
  have e4 := Exec.tau t false e3 (by simp only [tstep, upd_same]; rfl)
  have e5 := Exec.tau t false e4 (by simp only [tstep, upd_same]; rfl)
  have e6 := Exec.step e5 (.ret _ t .ok (by simp only [upd_same]))
  refine ⟨_, by simpa using e6, ?_⟩
  intro t'
  by_cases e : t' = t
  · subst e; simp only [upd_same]
  · simp only [upd_ne _ _ e, hid]

/-- A non-blocking pop on a quiescent empty queue. -/
theorem solo_pop_empty {k : Cfg} {ini c : Conf V} {g : Ghost V} {h} (he : Exec (Step k) ini h c) (i : Inv k c g)
    (hid : ∀ t, c.pc t = .idle) (t : Nat) (ht : k.sc = true → t = 0) (hempty : c.enq = c.deq) :
    ∃ c', Exec (Step k) ini (h ++ [.call t (.pop false), .ret t .empty]) c' ∧ (∀ t, c'.pc t = .idle) := by
  have hseq : c.seq (c.deq % k.cap) = c.deq := by
    rw [← hempty]
    apply i.seq_next
    rcases Nat.lt_or_ge c.enq k.cap with h | h
    · exact .inl h
    · refine .inr ⟨h, ?_⟩
      have := i.capGe
      cases hr : g.rel (c.enq - k.cap) with
      | true => rfl
      | false =>
        obtain ⟨t', ht'⟩ := i.pendC _ (by omega) hr
        rw [hid] at ht'; simp [consPos] at ht'
  have e0 := Exec.step he (.call c t (.pop false) (hid t) ht)
  have e1 := Exec.tau t false e0 (by simp only [tstep, upd_same, entry]; rfl)
  have e2 := Exec.tau t false e1 (by simp only [tstep, upd_same, hseq]; rfl)
  by_cases hsc : k.sc = true
  · have ha : afterDSeq k.sc false c.deq c.deq = (PC.done .empty : PC V) := by simp [afterDSeq, hsc]
    simp only [ha] at e2
    have e6 := Exec.step e2 (.ret _ t .empty (by simp only [upd_same]))
    refine ⟨_, by simpa using e6, ?_⟩
    intro t'
    by_cases e : t' = t
    · subst e; simp only [upd_same]
    · simp only [upd_ne _ _ e, hid]
  · have ha : afterDSeq k.sc false c.deq c.deq = (PC.dEmpty false c.deq : PC V) := by simp [afterDSeq, hsc]
    simp only [ha] at e2
    have e3 := Exec.tau t false e2 (by simp only [tstep, upd_same, hempty, and_self, if_true]; rfl)
    have e6 := Exec.step e3 (.ret _ t .empty (by simp only [upd_same]))
    refine ⟨_, by simpa using e6, ?_⟩
    intro t'
    by_cases e : t' = t
    · subst e; simp only [upd_same]
    · simp only [upd_ne _ _ e, hid]

/-- A non-blocking push on a quiescent full queue. -/
theorem solo_push_full {k : Cfg} {ini c : Conf V} {g : Ghost V} {h} (he : Exec (Step k) ini h c) (i : Inv k c g)
    (hid : ∀ t, c.pc t = .idle) (t : Nat) (v : V) (hfull : c.enq = c.deq + k.cap) :
    ∃ c', Exec (Step k) ini (h ++ [.call t (.push v false), .ret t .full]) c' ∧ (∀ t, c'.pc t = .idle) := by
  have hcap := i.capGe
  have hlt : c.deq < c.enq := by omega
  have hpub : g.pub c.deq = true := by
    cases hb : g.pub c.deq with
    | true => rfl
    | false =>
      obtain ⟨t', ht'⟩ := i.pend _ hlt hb
      rw [hid] at ht'; simp [prodPos] at ht'
  have hnr : g.rel c.deq = false := by
    cases hr : g.rel c.deq with
    | false => rfl
    | true => have := (i.relLt _ hr).1; omega
  have hseq : c.seq (c.enq % k.cap) = c.deq + 1 := by
    have := i.seqCur c.deq hlt (i.window hnr)
    rw [hfull, Nat.add_mod_right]
    simpa [hpub, hnr] using this
  have e0 := Exec.step he (.call c t (.push v false) (hid t) trivial)
  have e1 := Exec.tau t false e0 (by simp only [tstep, upd_same, entry]; rfl)
  have ha : afterESeq v false c.enq (c.deq + 1) = PC.eFull v false c.enq := by
    unfold afterESeq
    rw [if_neg (by omega), if_pos (by omega)]
  have e2 := Exec.tau t false e1 (by simp only [tstep, upd_same, hseq, ha]; rfl)
  have hd : c.enq - c.deq = k.cap := by omega
  have e3 := Exec.tau t false e2 (by simp only [tstep, upd_same, hd, and_self, if_true]; rfl)
  have e6 := Exec.step e3 (.ret _ t .full (by simp only [upd_same]))
  refine ⟨_, by simpa using e6, ?_⟩
  intro t'
  by_cases e : t' = t
  · subst e; simp only [upd_same]
  · simp only [upd_ne _ _ e, hid]

/-- **C19/C37, nothing is stuck.**  When no operation is in progress, the contents `q` of the queue according to a
linearization of the whole history are really there: a pop returns the oldest element, or "empty" if there
is none, and a push succeeds if `q` is not full and reports "full" if it is. -/
theorem C19_quiescent_operations_succeed (k : Cfg) (hcap : 2 ≤ k.cap) (d : V) (h : List (Vis (Op V) (Res V)))
    (c : Conf V) (he : Exec (Step k) (init d) h c) (hid : ∀ t, c.pc t = .idle) :
    ∃ ext s, Run (fifo k.cap k.sc) ⟨[], fun _ => .idle⟩ ext s ∧ ext.filterMap Ext.vis = h ∧
      (∀ v q, s.abs = v :: q → ∀ t b, (k.sc = true → t = 0) →
        ∃ c', Exec (Step k) (init d) (h ++ [.call t (.pop b), .ret t (.val v)]) c' ∧ ∀ t, c'.pc t = .idle) ∧
      (s.abs.length < k.cap → ∀ t v b,
        ∃ c', Exec (Step k) (init d) (h ++ [.call t (.push v b), .ret t .ok]) c' ∧ ∀ t, c'.pc t = .idle) ∧
      (s.abs = [] → ∀ t, (k.sc = true → t = 0) →
        ∃ c', Exec (Step k) (init d) (h ++ [.call t (.pop false), .ret t .empty]) c' ∧ ∀ t, c'.pc t = .idle) ∧
      (s.abs.length = k.cap → ∀ t v,
        ∃ c', Exec (Step k) (init d) (h ++ [.call t (.push v false), .ret t .full]) c' ∧ ∀ t, c'.pc t = .idle) := by
  have key : ∃ ext s, Run (fifo k.cap k.sc) ⟨[], fun _ => .idle⟩ ext s ∧ ext.filterMap Ext.vis = h ∧ Rel k c s := by
    clear hid
    induction he with
    | start => exact ⟨[], _, .nil _, rfl, _, inv_init _ d hcap, rfl, fun _ => rfl⟩
    | step _ hst ih =>
      obtain ⟨ext, s, h1, h2, h3⟩ := ih
      obtain ⟨s', ⟨ext', g1, g2⟩, g3⟩ := sim_step h3 hst
      exact ⟨ext ++ ext', s', h1.append g1, by rw [List.filterMap_append, h2, g2], g3⟩
  obtain ⟨ext, s, h1, h2, g, i, ha, -⟩ := key
  have hdq := i.deqLe
  refine ⟨ext, s, h1, h2, ?_, ?_, ?_, ?_⟩
  · intro v q hq t b ht
    refine solo_pop he i hid t b ht ?_
    rw [ha] at hq
    have := congrArg (·[0]?) hq
    simpa using this
  · intro hl t v b
    refine solo_push he i hid t v b ?_
    rw [ha, List.length_drop, i.len] at hl
    exact hl
  · intro hl t ht
    refine solo_pop_empty he i hid t ht ?_
    have hl := congrArg List.length hl
    rw [ha, List.length_drop, i.len, List.length_nil] at hl
    omega
  · intro hl t v
    refine solo_push_full he i hid t v ?_
    rw [ha, List.length_drop, i.len] at hl
    have := i.capGe
    omega

/-! ### Capacity -/

theorem roundLoop_spec (n : UInt64) (hn : n.toNat < 2 ^ 63) (fuel : Nat) (tmp : UInt64) (j : Nat)
    (hj : tmp.toNat = 2 ^ j) (hf : 64 ≤ fuel + j) (hle : j = 0 ∨ 2 ^ j ≤ 2 * n.toNat) :
    ∃ r i, roundLoop fuel tmp n = some r ∧ r.toNat = 2 ^ i ∧ n.toNat < r.toNat ∧
      (r.toNat = 1 ∨ r.toNat ≤ 2 * n.toNat) := by
  have hj63 : j ≤ 63 := by
    have h1 := tmp.toNat_lt
    rw [hj] at h1
    have := (Nat.pow_lt_pow_iff_right (by omega : 1 < 2)).1 h1
    omega
  induction fuel generalizing tmp j with
  | zero => omega
  | succ fuel ih =>
    unfold roundLoop
    by_cases h : tmp ≤ n
    · rw [if_pos h]
      rw [UInt64.le_iff_toNat_le, hj] at h
      have hj2 : j < 63 := by
        have := Nat.lt_of_le_of_lt h hn
        exact (Nat.pow_lt_pow_iff_right (by omega : 1 < 2)).1 this
      have hshift : (tmp <<< 1).toNat = 2 ^ (j + 1) := by
        rw [UInt64.toNat_shiftLeft, hj]
        have : (1 : UInt64).toNat % 64 = 1 := by decide
        rw [this, Nat.shiftLeft_eq, Nat.pow_one, ← Nat.pow_succ]
        apply Nat.mod_eq_of_lt
        exact Nat.pow_lt_pow_right (by omega) (by omega)
      refine ih _ (j + 1) hshift (by omega) (.inr ?_) (by omega)
      rw [Nat.pow_succ]; omega
    · rw [if_neg h]
      rw [UInt64.le_iff_toNat_le] at h
      refine ⟨tmp, j, rfl, hj, by omega, ?_⟩
      rcases hle with h0 | h0
      · subst h0; exact .inl hj
      · exact .inr (by omega)

/-- **C19, capacity.**  `Init(n)` with `1 ≤ n < 2⁶³` gives a capacity that is a power of two, at least 2, at least
`n` and at most `2·n`. -/
theorem C19_capacity (n : UInt64) (h1 : 1 ≤ n.toNat) (hn : n.toNat < 2 ^ 63) :
    ∃ r i, roundUp n = some r ∧ r.toNat = 2 ^ i ∧ 2 ≤ r.toNat ∧ n.toNat ≤ r.toNat ∧ r.toNat ≤ 2 * n.toNat := by
  unfold roundUp
  split
  · next h =>
    simp only [Bool.and_eq_true, decide_eq_true_eq, beq_iff_eq] at h
    obtain ⟨h2, h3⟩ := h
    have h2 : (2 : UInt64) ≤ n := h2
    rw [UInt64.le_iff_toNat_le] at h2
    have h2' : 2 ≤ n.toNat := h2
    have h4 : n.toNat &&& (n.toNat - 1) = 0 := by
      have h3 := congrArg UInt64.toNat h3
      rw [UInt64.toNat_and, UInt64.toNat_sub_of_le n 1 (by rw [UInt64.le_iff_toNat_le]; exact h1)] at h3
      exact h3
    obtain ⟨i, hi⟩ := (Nat.and_sub_one_eq_zero_iff_isPowerOfTwo (by omega)).1 h4
    exact ⟨n, i, rfl, hi, h2', Nat.le_refl _, by omega⟩
  · obtain ⟨r, i, e1, e2, e3, e4⟩ := roundLoop_spec n hn 65 1 0 rfl (by omega) (.inl rfl)
    exact ⟨r, i, e1, e2, by omega, by omega, by omega⟩

/-- The slot index `pos & (capacity_ - 1)` is `pos % capacity_`. -/
theorem C19_mask (pos cap : UInt64) (i : Nat) (h : cap.toNat = 2 ^ i) :
    (pos &&& (cap - 1)).toNat = pos.toNat % cap.toNat := by
  have h1 : (1 : UInt64) ≤ cap := by
    rw [UInt64.le_iff_toNat_le, h]; exact Nat.one_le_two_pow
  rw [UInt64.toNat_and, UInt64.toNat_sub_of_le cap 1 h1, h]
  exact Nat.and_two_pow_sub_one_eq_mod _ _

/-- Outside the quantifier: `Init(0)` gives capacity 1, for which the queue is broken: two pushes both succeed
(the second overwrites the first) and from then on no pop ever returns. -/
theorem C19_capacity_one_broken (d a b : V) :
    roundUp 0 = some 1 ∧
    ∃ c, Exec (Step ⟨1, false⟩) (init d) [.call 0 (.push a false), .ret 0 .ok, .call 0 (.push b false), .ret 0 .ok] c ∧
      (∀ t, c.pc t = .idle) ∧ c.enq - c.deq = 2 ∧
      ∀ c' c'' : Conf V, c'.seq = c.seq → c'.deq = c.deq → ∀ t bl, (c'.pc t = .dLoad bl ∨ c'.pc t = .dSeq bl 0) →
        ∀ spur, tstep ⟨1, false⟩ c' t spur = some c'' →
          c''.seq = c.seq ∧ c''.deq = c.deq ∧ (c''.pc t = .dLoad bl ∨ c''.pc t = .dSeq bl 0) := by
  refine ⟨by decide, ?_⟩
  let k : Cfg := ⟨1, false⟩
  have e0 := Exec.step (Exec.start (step := Step k) (init := init d)) (.call _ 0 (.push a false) rfl trivial)
  have e1 := Exec.tau 0 false e0 (by simp only [tstep, upd_same, entry]; rfl)
  have e2 := Exec.tau 0 false e1 (by simp only [tstep, upd_same, afterESeq, init, k, Nat.mod_one, if_true]; rfl)
  have e3 := Exec.tau 0 false e2 (by simp only [tstep, upd_same, and_self, if_true]; rfl)
  have e4 := Exec.tau 0 false e3 (by simp only [tstep, upd_same]; rfl)
  have e5 := Exec.tau 0 false e4 (by simp only [tstep, upd_same]; rfl)
  have e6 := Exec.step e5 (.ret _ 0 .ok (by simp only [upd_same]))
  have f0 := Exec.step e6 (.call _ 0 (.push b false) (by simp only [upd_same]) trivial)
  have f1 := Exec.tau 0 false f0 (by simp only [tstep, upd_same, entry]; rfl)
  have f2 := Exec.tau 0 false f1 (by simp only [tstep, upd_same, afterESeq, k, Nat.mod_one, Nat.zero_add, if_true]; rfl)
  have f3 := Exec.tau 0 false f2 (by simp only [tstep, upd_same, and_self, if_true]; rfl)
  have f4 := Exec.tau 0 false f3 (by simp only [tstep, upd_same]; rfl)
  have f5 := Exec.tau 0 false f4 (by simp only [tstep, upd_same]; rfl)
  have f6 := Exec.step f5 (.ret _ 0 .ok (by simp only [upd_same]))
  refine ⟨_, by simpa using f6, ?_, rfl, ?_⟩
  · intro t'
    by_cases e : t' = 0
    · subst e; simp only [upd_same]
    · simp only [upd_ne _ _ e]
  · intro c' c'' h1 h2 t bl hp spur hs
    have hseq : c'.seq 0 = 2 := by rw [h1]; simp [k]
    have hdeq : c'.deq = 0 := h2
    rcases hp with hp | hp
    · simp only [tstep, hp, Option.some.injEq] at hs
      subst hs
      exact ⟨h1, h2, .inr (by simp only [upd_same, hdeq])⟩
    · simp only [tstep, hp, Option.some.injEq] at hs
      subst hs
      refine ⟨h1, h2, .inl ?_⟩
      simp [upd_same, afterDSeq, hseq]

/-! ## C37: the MPSC queue -/

/-- **C37.**  Every history of the MPSC queue (one consumer, any number of producers) is linearizable for the
bounded FIFO in which a pop may report "empty" at any time. -/
theorem C37_mpsc_linearizable_partial (cap : Nat) (hcap : 2 ≤ cap) (d : V) (h : List (Vis (Op V) (Res V))) (c : Conf V)
    (he : Exec (Step ⟨cap, true⟩) (init d) h c) : Linearizable (fifo cap true) [] h :=
  (linearizable_of_sim (Rel ⟨cap, true⟩) ⟨_, inv_init _ d hcap, rfl, fun _ => rfl⟩
    (fun _ _ _ _ h1 h2 => sim_step h1 h2) he).1

/-- **C37, refutation.**  A pop can report "empty" although an element was pushed and its push has returned before
the pop was called: thread 1 has claimed the first position and stalls, thread 2 pushes into the second. -/
theorem C37_completed_push_not_seen (cap : Nat) (hcap : 2 ≤ cap) (d a b : V) :
    ∃ c, Exec (Step ⟨cap, true⟩) (init d)
      [.call 1 (.push a false), .call 2 (.push b false), .ret 2 .ok, .call 0 (.pop false), .ret 0 .empty] c := by
  let k : Cfg := ⟨cap, true⟩
  have e0 := Exec.step (Exec.start (step := Step k) (init := init d)) (.call _ 1 (.push a false) rfl trivial)
  have e1 := Exec.tau 1 false e0 (by simp only [tstep, upd_same, entry]; rfl)
  have e2 := Exec.tau 1 false e1 (by simp only [tstep, upd_same, afterESeq, init, Nat.zero_mod, if_true]; rfl)
  have e3 := Exec.tau 1 false e2 (by simp only [tstep, upd_same, and_self, if_true]; rfl)
  have h12 : (2 : Nat) ≠ 1 := by decide
  have f0 := Exec.step e3 (.call _ 2 (.push b false) (by simp only [upd_ne _ _ h12]) trivial)
  have f1 := Exec.tau 2 false f0 (by simp only [tstep, upd_same, entry]; rfl)
  have hm : (0 + 1) % cap = 0 + 1 := Nat.mod_eq_of_lt (by omega)
  have f2 := Exec.tau 2 false f1 (by simp only [tstep, upd_same, afterESeq, show k.cap = cap from rfl, hm, if_true]; rfl)
  have f3 := Exec.tau 2 false f2 (by simp only [tstep, upd_same, and_self, if_true]; rfl)
  have f4 := Exec.tau 2 false f3 (by simp only [tstep, upd_same]; rfl)
  have f5 := Exec.tau 2 false f4 (by simp only [tstep, upd_same]; rfl)
  have f6 := Exec.step f5 (.ret _ 2 .ok (by simp only [upd_same]))
  have h01 : (0 : Nat) ≠ 1 := by decide
  have h02 : (0 : Nat) ≠ 2 := by decide
  have g0 := Exec.step f6 (.call _ 0 (.pop false) (by simp only [upd_ne _ _ h01, upd_ne _ _ h02]) (fun _ => rfl))
  have g1 := Exec.tau 0 false g0 (by simp only [tstep, upd_same, entry]; rfl)
  have hm0 : (0 : Nat) % cap ≠ (0 + 1) % cap := by rw [hm]; simp
  have hm1 : (0 : Nat) ≠ (0 + 1) := by simp
  have g2 := Exec.tau 0 false g1 (c' := _) (by simp only [tstep, upd_same]; rfl)
  have hps : afterDSeq k.sc false 0 0 = (PC.done .empty : PC V) := by simp [afterDSeq, k]
  have g3 := Exec.step g2 (.ret _ 0 .empty (by
    simp only [upd_same, Nat.zero_mod]
    rw [upd_ne _ _ (by rw [show k.cap = cap from rfl, hm]; simp)]
    exact hps))
  exact ⟨_, by simpa using g3⟩

/-- What the specification knows along the history of `C37_completed_push_not_seen`. -/
structure Trace (a b : V) (rest : List (Vis (Op V) (Res V))) (s : State (Op V) (Res V) (List V)) : Prop where
  noPop : ∀ t, t ≠ 0 → ∀ op, s.phase t = .called op → ∃ v bl, op = .push v bl
  at_ :
    (rest = [.call 1 (.push a false), .call 2 (.push b false), .ret 2 .ok, .call 0 (.pop false), .ret 0 .empty] ∧
      s.phase 0 = .idle ∧ s.phase 2 = .idle) ∨
    (rest = [.call 2 (.push b false), .ret 2 .ok, .call 0 (.pop false), .ret 0 .empty] ∧
      s.phase 0 = .idle ∧ s.phase 2 = .idle) ∨
    (rest = [.ret 2 .ok, .call 0 (.pop false), .ret 0 .empty] ∧ s.phase 0 = .idle ∧
      (s.phase 2 = .effected .ok → s.abs ≠ [])) ∨
    (rest = [.call 0 (.pop false), .ret 0 .empty] ∧ s.phase 0 = .idle ∧ s.abs ≠ []) ∨
    (rest = [.ret 0 .empty] ∧ ((s.phase 0 = .called (.pop false) ∧ s.abs ≠ []) ∨ ∃ v, s.phase 0 = .effected (.val v)))

theorem noPop_upd {ph : Nat → Phase (Op V) (Res V)} (h : ∀ t, t ≠ 0 → ∀ op, ph t = .called op → ∃ v bl, op = Op.push v bl)
    (t0 : Nat) (p : Phase (Op V) (Res V)) (hp : ∀ op, p = .called op → t0 = 0 ∨ ∃ v bl, op = Op.push v bl) :
    ∀ t, t ≠ 0 → ∀ op, upd ph t0 p t = .called op → ∃ v bl, op = Op.push v bl := by
  intro t ht op ho
  by_cases e : t = t0
  · subst e
    rw [upd_same] at ho
    rcases hp op ho with h | h
    · exact absurd h ht
    · exact h
  · rw [upd_ne _ _ e] at ho; exact h t ht op ho

theorem trace_false {cap : Nat} {a b : V} {s s' : State (Op V) (Res V) (List V)} {ext : List (Ext (Op V) (Res V))}
    (hr : Run (fifo cap false) s ext s') : ∀ rest, ext.filterMap Ext.vis = rest → Trace a b rest s → False := by
  induction hr with
  | nil s =>
    intro rest hv h
    simp only [List.filterMap_nil] at hv
    rcases h.at_ with h | h | h | h | h <;> rw [← hv] at h <;> simp at h
  | @call s l s' t op hid r ih =>
    intro rest hv h
    simp only [List.filterMap_cons, Ext.vis] at hv
    rcases h.at_ with g | g | g | g | g <;> obtain ⟨g0, g⟩ := g <;> rw [← hv] at g0 <;>
      simp only [List.cons.injEq, Vis.call.injEq, reduceCtorEq, false_and] at g0
    · obtain ⟨⟨rfl, rfl⟩, g1⟩ := g0
      refine ih _ g1 ⟨noPop_upd h.noPop _ _ (fun op he => .inr ?_), .inr (.inl ⟨rfl, ?_, ?_⟩)⟩
      · cases he; exact ⟨_, _, rfl⟩
      · have h0 := g.1; simpa [upd_apply] using h0
      · have h0 := g.2; simpa [upd_apply] using h0
    · obtain ⟨⟨rfl, rfl⟩, g1⟩ := g0
      refine ih _ g1 ⟨noPop_upd h.noPop _ _ (fun op he => .inr ?_), .inr (.inr (.inl ⟨rfl, ?_, ?_⟩))⟩
      · cases he; exact ⟨_, _, rfl⟩
      · have h0 := g.1; simpa [upd_apply] using h0
      · intro he; simp only [upd_same] at he; cases he
    · obtain ⟨⟨rfl, rfl⟩, g1⟩ := g0
      refine ih _ g1 ⟨noPop_upd h.noPop _ _ (fun op he => .inl rfl), .inr (.inr (.inr (.inr ⟨rfl, .inl ⟨?_, g.2⟩⟩)))⟩
      simp only [upd_same]
  | @eff s l s' t op res a' hc hs r ih =>
    intro rest hv h
    simp only [List.filterMap_cons, Ext.vis] at hv
    have np : ∀ t', t' ≠ 0 → ∀ op, upd s.phase t (.effected res) t' = .called op → ∃ v bl, op = Op.push v bl :=
      noPop_upd h.noPop _ _ (fun op he => by cases he)
    -- an effect of a push keeps the queue non-empty, and a successful one makes it so
    have key : t ≠ 0 → (s.abs ≠ [] → a' ≠ []) ∧ (res = .ok → a' ≠ []) := by
      intro ht
      obtain ⟨v, bl, rfl⟩ := h.noPop t ht op hc
      cases res with
      | ok => obtain ⟨-, rfl⟩ := hs; simp
      | full => obtain ⟨-, -, rfl⟩ := hs; simp
      | val => exact absurd hs (by simp [fifo])
      | empty => exact absurd hs (by simp [fifo])
      | size => exact absurd hs (by simp [fifo])
    refine ih rest hv ⟨np, ?_⟩
    by_cases t0 : t = 0
    · subst t0
      rcases h.at_ with g | g | g | g | ⟨g0, g⟩
      · rw [g.2.1] at hc; cases hc
      · rw [g.2.1] at hc; cases hc
      · rw [g.2.1] at hc; cases hc
      · rw [g.2.1] at hc; cases hc
      · refine .inr (.inr (.inr (.inr ⟨g0, .inr ?_⟩)))
        rcases g with ⟨g1, g2⟩ | ⟨v, g1⟩
        · rw [hc] at g1
          cases g1
          cases res with
          | val v => exact ⟨v, by simp only [upd_same]⟩
          | empty =>
            obtain ⟨h1, -⟩ := hs
            rcases h1 with h1 | ⟨h1, -⟩
            · cases h1
            · exact absurd h1 g2
          | ok => exact absurd hs (by simp [fifo])
          | full => exact absurd hs (by simp [fifo])
          | size => exact absurd hs (by simp [fifo])
        · rw [hc] at g1; cases g1
    · obtain ⟨k1, k2⟩ := key t0
      have e0 : ∀ p, upd s.phase t p 0 = s.phase 0 := fun p => upd_ne _ _ (Ne.symm t0)
      simp only [e0]
      rcases h.at_ with g | g | g | g | ⟨g0, g⟩
      · refine .inl ⟨g.1, g.2.1, ?_⟩
        by_cases e : t = 2
        · subst e; rw [g.2.2] at hc; cases hc
        · exact (upd_ne _ _ (Ne.symm e)).trans g.2.2
      · refine .inr (.inl ⟨g.1, g.2.1, ?_⟩)
        by_cases e : t = 2
        · subst e; rw [g.2.2] at hc; cases hc
        · exact (upd_ne _ _ (Ne.symm e)).trans g.2.2
      · refine .inr (.inr (.inl ⟨g.1, g.2.1, ?_⟩))
        by_cases e : t = 2
        · subst e
          simp only [upd_same]
          intro he
          injection he with he
          exact k2 he
        · simp only [upd_ne _ _ (Ne.symm e)]
          intro he
          exact k1 (g.2.2 he)
      · exact .inr (.inr (.inr (.inl ⟨g.1, g.2.1, k1 g.2.2⟩)))
      · refine .inr (.inr (.inr (.inr ⟨g0, ?_⟩)))
        rcases g with ⟨g1, g2⟩ | g
        · exact .inl ⟨g1, k1 g2⟩
        · exact .inr g
  | @ret s l s' t res he r ih =>
    intro rest hv h
    simp only [List.filterMap_cons, Ext.vis] at hv
    rcases h.at_ with g | g | g | g | g <;> obtain ⟨g0, g⟩ := g <;> rw [← hv] at g0 <;>
      simp only [List.cons.injEq, Vis.ret.injEq, reduceCtorEq, false_and] at g0
    · obtain ⟨⟨rfl, rfl⟩, g1⟩ := g0
      refine ih _ g1 ⟨noPop_upd h.noPop _ _ (fun op he => by cases he), .inr (.inr (.inr (.inl ⟨rfl, ?_, g.2 he⟩)))⟩
      have h0 := g.1; simpa [upd_apply] using h0
    · obtain ⟨⟨rfl, rfl⟩, g1⟩ := g0
      rcases g with ⟨g, -⟩ | ⟨v, g⟩ <;> rw [he] at g <;> cases g

/-- **C37, refutation, continued.**  The history of `C37_completed_push_not_seen` is not one of a FIFO queue. -/
theorem C37_not_fifo (cap : Nat) (a b : V) : ¬ Linearizable (fifo cap false) []
    [.call 1 (.push a false), .call 2 (.push b false), .ret 2 .ok, .call 0 (.pop false), .ret 0 .empty] := by
  rintro ⟨ext, s, h1, h2⟩
  exact trace_false (a := a) (b := b) h1 _ h2 ⟨by simp, .inl ⟨rfl, rfl, rfl⟩⟩

/-! Non-vacuity: a run with a producer and a consumer, and one in which a push finds the queue full. -/

example : ∃ c, Exec (Step ⟨2, false⟩) (init 0)
    [.call 5 (.push 7 false), .ret 5 .ok, .call 3 (.pop false), .ret 3 (.val 7)] c := by
  have e0 := Exec.step (Exec.start (step := Step ⟨2, false⟩) (init := init 0)) (.call _ 5 (.push 7 false) rfl trivial)
  have e1 := Exec.tau 5 false e0 rfl
  have e2 := Exec.tau 5 false e1 rfl
  have e3 := Exec.tau 5 false e2 rfl
  have e4 := Exec.tau 5 false e3 rfl
  have e5 := Exec.tau 5 false e4 rfl
  have e6 := Exec.step e5 (.ret _ 5 .ok rfl)
  have f0 := Exec.step e6 (.call _ 3 (.pop false) rfl (fun h => nomatch h))
  have f1 := Exec.tau 3 false f0 rfl
  have f2 := Exec.tau 3 false f1 rfl
  have f3 := Exec.tau 3 false f2 rfl
  have f4 := Exec.tau 3 false f3 rfl
  have f5 := Exec.tau 3 false f4 rfl
  have f6 := Exec.step f5 (.ret _ 3 (.val 7) rfl)
  exact ⟨_, f6⟩

/-- The specification is not trivially satisfied: an invented value, a lost one or a wrong "full" is rejected. -/
example : ¬ fifo (V := Nat) 2 false [1] (.pop false) (.val 2) [] ∧ ¬ fifo (V := Nat) 2 false [1] (.pop false) .empty [1] ∧
    ¬ fifo (V := Nat) 2 false [1] (.push 3 false) .full [1] := by
  simp [fifo]

end Verif.Queue.Mpmc
