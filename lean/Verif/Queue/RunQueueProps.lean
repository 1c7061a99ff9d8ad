import Verif.Queue.RunQueueLemmas
import Verif.Queue.MpmcProps
import Verif.Common.Conservation
/-!
# Properties C23 and C38: the fiber run queue
-/

namespace Verif.Queue.RunQ

open Verif.Lin

variable {V : Type}

/-- Concrete configuration against specification state. -/
def Rel (cap : Nat) (c : Conf V) (s : State (Op V) (Res V) (List (V × Bool))) : Prop :=
  ∃ g, Inv cap c g ∧ s.abs = g.log.drop c.deq ∧ ∀ t, PhaseOf g (c.pc t) (s.phase t)

theorem inv_init (cap : Nat) (d : V) (f : Bool) (hk : 2 ≤ cap) :
    Inv cap (init d f) ⟨[], fun _ => false, fun _ => false⟩ where
  sh :=
    { capGe := hk
      len := rfl
      deqLe := Nat.le_refl _
      pubLt := by simp
      deqPub := by intro p h; simp [init] at h
      relLt := by simp
      relOld := by intro p h; simp [init] at h
      seqNew := by intro p _ _; rfl
      seqCur := by intro p h; simp [init] at h
      dat := by simp }
  thr := by intro t; trivial
  ownP := by intro t t' p h; obtain ⟨h1, h2⟩ := h; simp only [init, range] at h1 h2; omega
  ownC := by intro t t' p h; simp [init, consPos] at h
  pend := by intro p h; simp [init] at h
  pendC := by intro p h; simp [init] at h

theorem PhaseOf.mono {g g' : Ghost V} {x : PC V} {p : Phase (Op V) (Res V)} (h : PhaseOf g x p)
    (hl : ∀ (n : Nat) v, g.log[n]? = some v → g'.log[n]? = some v) : PhaseOf g' x p := by
  cases x <;> try exact h
  obtain ⟨v, f, h1, h2⟩ := h
  exact ⟨v, f, hl _ _ h1, h2⟩

theorem phases_upd {g g' : Ghost V} {pc : Nat → PC V} {ph : Nat → Phase (Op V) (Res V)} {t : Nat} {x : PC V}
    {p : Phase (Op V) (Res V)} (h : ∀ t, PhaseOf g (pc t) (ph t))
    (hl : ∀ (n : Nat) v, g.log[n]? = some v → g'.log[n]? = some v) (hx : PhaseOf g' x p) :
    ∀ t', PhaseOf g' (upd pc t x t') (upd ph t p t') := by
  intro t'
  by_cases e : t' = t
  · subst e; simp only [upd_same]; exact hx
  · simp only [upd_ne _ _ e]; exact (h t').mono hl

theorem phases_upd' {g g' : Ghost V} {pc : Nat → PC V} {ph : Nat → Phase (Op V) (Res V)} {t : Nat} {x : PC V}
    (h : ∀ t, PhaseOf g (pc t) (ph t))
    (hl : ∀ (n : Nat) v, g.log[n]? = some v → g'.log[n]? = some v) (hx : PhaseOf g' x (ph t)) :
    ∀ t', PhaseOf g' (upd pc t x t') (ph t') := by
  intro t'
  by_cases e : t' = t
  · subst e; simp only [upd_same]; exact hx
  · simp only [upd_ne _ _ e]; exact (h t').mono hl

theorem phase_fillNext {g : Ghost V} {rest : List V} {f : Bool} {pos : Nat} {p : Phase (Op V) (Res V)}
    (h : p = .effected .ok) : PhaseOf g (fillNext rest f pos) p := by
  cases rest <;> exact h

theorem sizeOf_lt {cap : Nat} (h : 2 ≤ cap) (x y : Nat) : sizeOf cap x y < cap := by
  unfold sizeOf; split
  · omega
  · split <;> omega

/-- Every internal step is matched by the specification. -/
theorem sim_tau {cap : Nat} {c c' : Conf V} {s : State (Op V) (Res V) (List (V × Bool))} {t : Nat} {spur : Bool}
    (h : Rel cap c s) (hs : tstep cap c t spur = some c') :
    ∃ s', Sim (fifo cap) s none s' ∧ Rel cap c' s' := by
  obtain ⟨g, i, ha, hph⟩ := h
  have ht := i.thr t
  have hp := hph t
  have idl : ∀ (n : Nat) v, g.log[n]? = some v → g.log[n]? = some v := fun _ _ h => h
  -- a step without effect
  have quiet : ∀ x, ThrInv cap c g x → range x = range (c.pc t) → consPos x = consPos (c.pc t) →
      PhaseOf g x (s.phase t) →
      ∃ s', Sim (fifo cap) s none s' ∧ Rel cap { c with pc := upd c.pc t x } s' := by
    intro x h1 h2 h3 h5
    exact ⟨s, .tau s, g, i.move t x h1 h2 h3, ha, phases_upd' hph idl h5⟩
  -- a step in which the operation takes effect without changing the shared state
  have eff : ∀ x op r, ThrInv cap c g x → range x = range (c.pc t) → consPos x = consPos (c.pc t) →
      s.phase t = .called op → fifo cap s.abs op r s.abs → PhaseOf g x (.effected r) →
      ∃ s', Sim (fifo cap) s none s' ∧ Rel cap { c with pc := upd c.pc t x } s' := by
    intro x op r h1 h2 h3 h5 h6 h7
    exact ⟨_, .eff h5 h6, g, i.move t x h1 h2 h3, ha, phases_upd hph idl h7⟩
  have habs : s.abs.length = c.enq - c.deq := by rw [ha, List.length_drop, i.sh.len]
  have hcap := i.sh.enqLe
  have hdq := i.sh.deqLe
  have h2 := i.sh.capGe
  unfold tstep at hs
  cases hpc : c.pc t with
  | idle => rw [hpc] at hs; simp at hs
  | abort => rw [hpc] at hs; simp at hs
  | done r => rw [hpc] at hs; simp at hs
  | eLoad v f fast =>
    rw [hpc] at hs hp ht quiet; simp only [Option.some.injEq] at hs; subst hs
    exact quiet _ (Nat.le_refl _) rfl rfl hp
  | eSeq v f fast pos =>
    rw [hpc] at hs hp ht quiet eff; simp only [Option.some.injEq] at hs; subst hs
    have ht : pos ≤ c.enq := ht
    unfold afterESeq
    split
    · next h =>
      refine quiet _ ?_ rfl rfl hp
      rcases Nat.lt_or_ge pos c.enq with h' | h'
      · exact .inl h'
      · exact .inr (i.sh.free_of_seq h' (by omega) h)
    · split
      · exact eff _ (.push v f) .full trivial rfl rfl hp rfl rfl
      · exact quiet _ trivial rfl rfl hp
  | eCas v f pos =>
    rw [hpc] at hs hp ht quiet; simp only at hs
    split at hs
    · next h =>
      obtain ⟨h, -⟩ := h
      subst h
      simp only [Option.some.injEq] at hs; subst hs
      have hfree : Free cap g c.enq := by
        rcases ht with h | h
        · omega
        · exact h
      have i' := i.claim t [v] f (.wFib v [] f c.enq) (by simp only [List.length_singleton]; omega)
        (by intro j hj; simp only [List.length_singleton] at hj; rw [show c.enq + j = c.enq by omega]; exact hfree)
        (by rw [hpc]; rfl) rfl (by rw [hpc]; rfl) (.inr rfl) (fun _ _ h => h)
      have hsp : fifo cap s.abs (.push v f) .ok (s.abs ++ [(v, f)]) := by
        refine ⟨?_, rfl⟩
        have := i'.sh.enqLe
        have : c.enq + 1 ≤ c.deq + cap := this
        omega
      refine ⟨_, .eff hp hsp, _, i', ?_, phases_upd hph (fun _ _ => getElem?_app) rfl⟩
      simp only [ha, List.map_cons, List.map_nil]
      rw [List.drop_append_of_le_length (by rw [i.sh.len]; exact hdq)]
    · simp only [Option.some.injEq] at hs; subst hs
      exact quiet _ trivial rfl rfl hp
  | bLoad vs f =>
    rw [hpc] at hs hp ht quiet; simp only [Option.some.injEq] at hs; subst hs
    exact quiet _ (Nat.le_refl _) rfl rfl hp
  | bHead vs f pos =>
    rw [hpc] at hs hp ht quiet eff; simp only [Option.some.injEq] at hs; subst hs
    have ht : pos ≤ c.enq := ht
    unfold afterBHead
    split
    · next h =>
      have hlt := i.sh.seq_lt (pos + vs.length)
      have hf : pos < c.enq ∨ (vs.length < cap ∧ Free cap g (pos + vs.length)) := by
        rcases Nat.lt_or_ge pos c.enq with h' | h'
        · exact .inl h'
        · exact .inr ⟨by omega, i.sh.free_of_seq (by omega) (by omega) h⟩
      unfold scanNext
      split
      · next h0 =>
        refine quiet _ ?_ rfl rfl hp
        rcases hf with h' | h'
        · exact .inl h'
        · exact .inr ⟨h'.1, fun j hj => by omega⟩
      · next h0 =>
        refine quiet _ ⟨ht, by omega, ?_⟩ rfl rfl hp
        rcases hf with h' | h'
        · exact .inl h'
        · exact .inr ⟨h'.1, h'.2, fun j hj => by omega⟩
    · split
      · exact eff _ (.batch vs f) .full trivial rfl rfl hp rfl rfl
      · exact quiet _ trivial rfl rfl hp
  | bScan vs f pos j =>
    rw [hpc] at hs hp ht quiet eff; simp only [Option.some.injEq] at hs; subst hs
    obtain ⟨ht1, ht2, ht3⟩ := ht
    unfold afterBScan
    split
    · exact eff _ (.batch vs f) .full trivial rfl rfl hp rfl rfl
    · next hno =>
      have hf : pos < c.enq ∨ (vs.length < cap ∧ Free cap g (pos + vs.length) ∧
          ∀ k, k < j + 1 → Free cap g (pos + k)) := by
        rcases Nat.lt_or_ge pos c.enq with h' | h'
        · exact .inl h'
        · rcases ht3 with h3 | ⟨h3, h4, h5⟩
          · omega
          · refine .inr ⟨h3, h4, ?_⟩
            intro k hk
            rcases Nat.lt_or_ge k j with hk' | hk'
            · exact h5 k hk'
            · have hkj : k = j := by omega
              have hpe : pos = c.enq := by omega
              subst hkj
              rw [hpe] at h4 hno ⊢
              rcases i.sh.scan h3 ht2 h4 with h6 | h6
              · exact h6
              · exact absurd h6 hno
      unfold scanNext
      split
      · next h0 =>
        refine quiet _ ?_ rfl rfl hp
        rcases hf with h' | h'
        · exact .inl h'
        · exact .inr ⟨h'.1, fun k hk => h'.2.2 k (by omega)⟩
      · next h0 =>
        exact quiet _ ⟨ht1, by omega, hf⟩ rfl rfl hp
  | bCas vs f pos =>
    rw [hpc] at hs hp ht quiet; simp only at hs
    split at hs
    · next h =>
      obtain ⟨h, -⟩ := h
      subst h
      simp only [Option.some.injEq] at hs; subst hs
      obtain ⟨hn, hfree⟩ : vs.length < cap ∧ ∀ j, j < vs.length → Free cap g (c.enq + j) := by
        rcases ht with h | h
        · omega
        · exact h
      have i' := i.claim t vs f (fillNext vs f c.enq) hn hfree (by rw [hpc]; rfl) (consPos_fillNext _ _ _)
        (by rw [hpc]; rfl) (range_fillNext _ _ _) (fun _ _ h => thr_fillNext h)
      have hsp : fifo cap s.abs (.batch vs f) .ok (s.abs ++ vs.map (fun v => (v, f))) := by
        refine ⟨⟨hn, ?_⟩, rfl⟩
        have := i'.sh.enqLe
        have : c.enq + vs.length ≤ c.deq + cap := this
        omega
      refine ⟨_, .eff hp hsp, _, i', ?_, phases_upd hph (fun _ _ => getElem?_app) (phase_fillNext rfl)⟩
      simp only [ha]
      rw [List.drop_append_of_le_length (by rw [i.sh.len]; exact hdq)]
    · simp only [Option.some.injEq] at hs; subst hs
      exact quiet _ trivial rfl rfl hp
  | bChk v rest f pos =>
    rw [hpc] at hs hp ht quiet; simp only at hs
    have hd := Fill.head ht
    have hr := i.sh.rel_of_not_pub hd.2.1
    have hseq := i.sh.seqCur pos hd.1 (i.sh.window hr)
    rw [hr, hd.2.1] at hseq
    simp only [Bool.false_eq_true, if_false] at hseq
    rw [if_pos hseq] at hs
    simp only [Option.some.injEq] at hs; subst hs
    exact quiet _ ht rfl rfl hp
  | wFib v rest f pos =>
    rw [hpc] at hs hp; simp only [Option.some.injEq] at hs; subst hs
    exact ⟨s, .tau s, g, i.write t v rest f pos hpc, ha, phases_upd' hph idl hp⟩
  | wFlag v rest f pos =>
    rw [hpc] at hs hp; simp only [Option.some.injEq] at hs; subst hs
    exact ⟨s, .tau s, g, i.mark t v rest f pos hpc, ha, phases_upd' hph idl hp⟩
  | wPub v rest f pos =>
    rw [hpc] at hs hp; simp only [Option.some.injEq] at hs; subst hs
    exact ⟨s, .tau s, _, i.publish t v rest f pos hpc, ha, phases_upd' hph idl (phase_fillNext hp)⟩
  | dLoad m =>
    rw [hpc] at hs hp ht quiet; simp only [Option.some.injEq] at hs; subst hs
    exact quiet _ (Nat.le_refl _) rfl rfl hp
  | dSeq m pos =>
    rw [hpc] at hs hp ht quiet eff; simp only [Option.some.injEq] at hs; subst hs
    have ht : pos ≤ c.deq := ht
    unfold afterDSeq
    split
    · next h =>
      have hpub := i.sh.seq_eq_succ (by omega) h
      split
      · next hm => subst hm; exact quiet _ ⟨hpub, ht⟩ rfl rfl hp
      · next hm => exact quiet _ ⟨hpub, fun e => absurd e hm⟩ rfl rfl hp
    · split
      · next hm => subst hm; exact quiet _ trivial rfl rfl hp
      · split
        · refine eff _ _ .none trivial rfl rfl hp ?_ rfl
          split <;> rfl
        · exact quiet _ trivial rfl rfl hp
  | dTest pos =>
    rw [hpc] at hs hp ht quiet eff; simp only [Option.some.injEq] at hs; subst hs
    split
    · exact eff _ .steal .none trivial rfl rfl hp rfl rfl
    · next hf =>
      refine quiet _ ⟨ht.1, fun _ => ?_⟩ rfl rfl hp
      rcases Nat.lt_or_ge pos c.deq with h | h
      · exact .inl h
      · right
        have hnr : g.rel pos = false := by
          cases hr : g.rel pos with
          | false => rfl
          | true => have := i.sh.relLt _ hr; omega
        have := i.sh.dat pos ht.1 hnr
        rw [Bool.not_eq_true] at hf
        rw [hf] at this
        exact ⟨_, this⟩
  | dCas m pos =>
    rw [hpc] at hs hp ht quiet; simp only at hs
    obtain ⟨ht1, ht2⟩ := ht
    split at hs
    · next h =>
      obtain ⟨h, -⟩ := h
      subst h
      simp only [Option.some.injEq] at hs; subst hs
      have hlt := i.sh.pubLt _ ht1
      have hlen : c.deq < g.log.length := by rw [i.sh.len]; exact hlt
      have hcons : g.log.drop c.deq = g.log[c.deq] :: g.log.drop (c.deq + 1) := List.drop_eq_getElem_cons hlen
      have hsp : fifo cap s.abs (if m = .steal then .steal else .pop) (.val g.log[c.deq].1)
          (g.log.drop (c.deq + 1)) := by
        rw [ha]
        split
        · next hm =>
          rcases ht2 hm with h | ⟨v, h⟩
          · omega
          · rw [List.getElem?_eq_getElem hlen] at h
            injection h with h
            show g.log.drop c.deq = _
            rw [hcons, h]
        · exact ⟨_, hcons⟩
      exact ⟨_, .eff hp hsp, g, i.take t m hpc, rfl,
        phases_upd hph idl ⟨_, _, List.getElem?_eq_getElem hlen, rfl⟩⟩
    · simp only [Option.some.injEq] at hs; subst hs
      refine quiet _ trivial rfl rfl ?_
      cases m <;> exact hp
  | dRead pos =>
    rw [hpc] at hs hp ht quiet; simp only [Option.some.injEq] at hs; subst hs
    obtain ⟨v, f, h1, h2⟩ := hp
    have hd := i.sh.dat pos (i.sh.deqPub pos ht.1) ht.2
    rw [h1] at hd
    injection hd with hd
    injection hd with hd1 hd2
    subst hd1
    exact quiet _ ⟨ht.1, ht.2, f, h1⟩ rfl rfl h2
  | dRel v pos =>
    rw [hpc] at hs hp; simp only [Option.some.injEq] at hs; subst hs
    exact ⟨s, .tau s, _, i.release t v pos hpc, ha, phases_upd' hph idl hp⟩
  | sFirst hf =>
    rw [hpc] at hs hp quiet; simp only [Option.some.injEq] at hs; subst hs
    exact quiet _ trivial rfl rfl hp
  | sSecond hf x =>
    rw [hpc] at hs hp ht eff; simp only [Option.some.injEq] at hs; subst hs
    refine eff _ (.size hf) (.size (if hf then sizeOf cap x c.deq else sizeOf cap c.enq x)) trivial rfl rfl hp
      ⟨?_, rfl⟩ rfl
    split <;> exact sizeOf_lt h2 _ _

theorem sim_step {cap : Nat} {c c' : Conf V} {s : State (Op V) (Res V) (List (V × Bool))} {e}
    (h : Rel cap c s) (hs : Step cap c e c') : ∃ s', Sim (fifo cap) s e s' ∧ Rel cap c' s' := by
  cases hs with
  | tau t spur _ hst => exact sim_tau h hst
  | call t op hid =>
    obtain ⟨g, i, ha, hph⟩ := h
    have hp := hph t
    rw [hid] at hp
    refine ⟨_, .call hp, g, i.move t (entry op) ?_ ?_ ?_, ha, phases_upd hph (fun _ _ h => h) ?_⟩
    · cases op <;> trivial
    · rw [hid]; cases op <;> rfl
    · rw [hid]; cases op <;> rfl
    · cases op <;> rfl
  | ret t r hd =>
    obtain ⟨g, i, ha, hph⟩ := h
    have hp := hph t
    rw [hd] at hp
    exact ⟨_, .ret hp, g, i.move t .idle trivial (by rw [hd]; rfl) (by rw [hd]; rfl), ha,
      phases_upd hph (fun _ _ h => h) rfl⟩

theorem rel_init (cap : Nat) (hcap : 2 ≤ cap) (d : V) (f : Bool) : Rel cap (init d f) ⟨[], fun _ => .idle⟩ :=
  ⟨_, inv_init cap d f hcap, rfl, fun _ => rfl⟩

/-! ## C23 -/

/-- **C23.**  Every history of the run queue is linearizable for the FIFO of the specification: fibers leave in the
order in which they were claimed, each at most once; a batch is appended as a whole; a steal only ever takes a
fiber not pushed as unstealable. -/
theorem C23_linearizable (cap : Nat) (hcap : 2 ≤ cap) (d : V) (f : Bool) (h : List (Vis (Op V) (Res V))) (c : Conf V)
    (he : Exec (Step cap) (init d f) h c) : Linearizable (fifo cap) [] h :=
  (linearizable_of_sim (Rel cap) (rel_init cap hcap d f) (fun _ _ _ _ h1 h2 => sim_step h1 h2) he).1

/-- **C23, internal check.**  The `TRPC_CHECK_EQ` of `BatchPush` never fails. -/
theorem C23_check_never_fails (cap : Nat) (hcap : 2 ≤ cap) (d : V) (f : Bool) (h : List (Vis (Op V) (Res V)))
    (c : Conf V) (he : Exec (Step cap) (init d f) h c) (t : Nat) : c.pc t ≠ .abort := by
  obtain ⟨-, s, g, i, -, -⟩ := linearizable_of_sim (Rel cap) (rel_init cap hcap d f)
    (fun _ _ _ _ h1 h2 => sim_step h1 h2) he
  intro e
  have := i.thr t
  rw [e] at this
  exact this

/-- **C23, occupancy.** -/
theorem C23_at_most_capacity (cap : Nat) (hcap : 2 ≤ cap) (d : V) (f : Bool) (h : List (Vis (Op V) (Res V)))
    (c : Conf V) (he : Exec (Step cap) (init d f) h c) : c.deq ≤ c.enq ∧ c.enq - c.deq ≤ cap := by
  obtain ⟨-, s, g, i, -, -⟩ := linearizable_of_sim (Rel cap) (rel_init cap hcap d f)
    (fun _ _ _ _ h1 h2 => sim_step h1 h2) he
  have := i.sh.enqLe
  exact ⟨i.sh.deqLe, by omega⟩

/-! ### Counting fibers -/

/-- Number of fibers satisfying `P` in one push call. -/
def callCount (P : V → Bool) : Op V → Nat
  | .push v _ => if P v then 1 else 0
  | .batch vs _ => vs.countP P
  | _ => 0

/-- Number of fibers satisfying `P` in one result. -/
def resCount (P : V → Bool) : Res V → Nat
  | .val v => if P v then 1 else 0
  | _ => 0

/-- Fibers satisfying `P` passed to `Push` and `BatchPush`. -/
def pushed (P : V → Bool) : List (Vis (Op V) (Res V)) → Nat
  | [] => 0
  | .call _ op :: h => callCount P op + pushed P h
  | .ret _ _ :: h => pushed P h

/-- Fibers satisfying `P` returned by `Pop` and `Steal`. -/
def popped (P : V → Bool) : List (Vis (Op V) (Res V)) → Nat
  | [] => 0
  | .call _ _ :: h => popped P h
  | .ret _ r :: h => resCount P r + popped P h

theorem total_eq (P : V → Bool) (h : List (Vis (Op V) (Res V))) :
    total (fun op => (callCount P op : Int)) (fun r => -(resCount P r : Int)) h = pushed P h - popped P h := by
  induction h with
  | nil => rfl
  | cons e h ih =>
    rw [total_cons, ih]
    rcases e with ⟨t, op⟩ | ⟨t, r⟩ <;> simp only [pushed, popped, contrib] <;> omega

theorem fifo_count (cap : Nat) (P : V → Bool) (q : List (V × Bool)) (op : Op V) (r : Res V) (q' : List (V × Bool))
    (h : fifo cap q op r q') : (q'.countP (fun x => P x.1) : Int) ≤
      q.countP (fun x => P x.1) + callCount P op + -(resCount P r : Int) := by
  cases op <;> cases r <;> try exact False.elim h
  · obtain ⟨-, rfl⟩ := h
    simp only [List.countP_append, List.countP_cons, List.countP_nil, callCount, resCount]
    split <;> simp
  · have h : q' = q := h
    subst h
    simp only [resCount]; omega
  · obtain ⟨-, rfl⟩ := h
    simp only [List.countP_append, List.countP_map, callCount, resCount]
    simp [Function.comp_def]
  · have h : q' = q := h
    subst h
    simp only [resCount]; omega
  · obtain ⟨f, h⟩ := h
    subst h
    simp only [List.countP_cons, callCount, resCount]
    split <;> simp <;> omega
  · have h : q' = q := h
    subst h
    simp only [resCount]; omega
  · have h : q = _ :: q' := h
    subst h
    simp only [List.countP_cons, callCount, resCount]
    split <;> simp <;> omega
  · have h : q' = q := h
    subst h
    simp only [resCount]; omega
  · obtain ⟨-, rfl⟩ := h
    simp [callCount, resCount]

/-- **C23, at most once.**  For every set `P` of fibers, at any moment no more fibers of `P` have been popped or
stolen than pushed. -/
theorem C23_at_most_once (cap : Nat) (hcap : 2 ≤ cap) (d : V) (f : Bool) (h : List (Vis (Op V) (Res V))) (c : Conf V)
    (he : Exec (Step cap) (init d f) h c) (P : V → Bool) : popped P h ≤ pushed P h := by
  have hl := C23_linearizable cap hcap d f h c he
  have := total_nonneg (spec := fifo cap) (fun op => (callCount P op : Int)) (fun r => -(resCount P r : Int))
    (fun q => (q.countP (fun x => P x.1) : Int)) (fun q op r q' h => fifo_count cap P q op r q' h)
    (fun _ => by omega) (fun op => by omega) (fun r => by omega) (a := []) rfl hl
  rw [total_eq] at this
  omega

/-! ### Stealing -/

/-- The operation `t` called last. -/
def lastCall (t : Nat) : List (Vis (Op V) (Res V)) → Option (Op V) → Option (Op V)
  | [], o => o
  | .call t' op :: h, o => lastCall t h (if t' = t then some op else o)
  | .ret _ _ :: h, o => lastCall t h o

/-- `v` was passed to a push as stealable. -/
def PushedStealable (v : V) (h : List (Vis (Op V) (Res V))) : Prop :=
  ∃ t, .call t (.push v false) ∈ h ∨ ∃ vs, v ∈ vs ∧ .call t (.batch vs false) ∈ h

theorem lastCall_append (t : Nat) (h k : List (Vis (Op V) (Res V))) (o : Option (Op V)) :
    lastCall t (h ++ k) o = lastCall t k (lastCall t h o) := by
  induction h generalizing o with
  | nil => rfl
  | cons e h ih => cases e <;> simp only [List.cons_append, lastCall, ih]

theorem PushedStealable.mono {v : V} {h k : List (Vis (Op V) (Res V))} (hp : PushedStealable v h) :
    PushedStealable v (h ++ k) := by
  obtain ⟨t, hp | ⟨vs, hv, hp⟩⟩ := hp
  · exact ⟨t, .inl (List.mem_append_left _ hp)⟩
  · exact ⟨t, .inr ⟨vs, hv, List.mem_append_left _ hp⟩⟩

/-- What holds along a run of the specification after the visible history `h`. -/
structure StealInv (h : List (Vis (Op V) (Res V))) (s : State (Op V) (Res V) (List (V × Bool))) : Prop where
  queue : ∀ v, (v, false) ∈ s.abs → PushedStealable v h
  called : ∀ t op, s.phase t = .called op → lastCall t h none = some op ∧ .call t op ∈ h
  eff : ∀ t v, s.phase t = .effected (.val v) → lastCall t h none = some .steal → PushedStealable v h

theorem steal_run {cap : Nat} {s s' : State (Op V) (Res V) (List (V × Bool))} {ext}
    (hr : Run (fifo cap) s ext s') (h : List (Vis (Op V) (Res V))) (hi : StealInv h s) :
    StealInv (h ++ ext.filterMap Ext.vis) s' := by
  induction hr generalizing h with
  | nil s => simpa using hi
  | @call s l s' t op hid _ ih =>
    have := ih (h ++ [.call t op]) ⟨fun v hv => (hi.queue v hv).mono, ?_, ?_⟩
    · simpa [Ext.vis] using this
    · intro t' op' hp
      rw [lastCall_append]
      by_cases e : t' = t
      · subst e
        simp only [upd_same] at hp
        injection hp with hp
        subst hp
        exact ⟨by simp [lastCall], by simp⟩
      · simp only [upd_ne _ _ e] at hp
        obtain ⟨h1, h2⟩ := hi.called t' op' hp
        refine ⟨?_, List.mem_append_left _ h2⟩
        simp only [lastCall, if_neg (Ne.symm e)]; exact h1
    · intro t' v hp hl
      by_cases e : t' = t
      · subst e; simp only [upd_same] at hp; exact nomatch hp
      · simp only [upd_ne _ _ e] at hp
        rw [lastCall_append] at hl
        simp only [lastCall, if_neg (Ne.symm e)] at hl
        exact (hi.eff t' v hp hl).mono
  | @eff s l s' t op res a' hc hsp _ ih =>
    obtain ⟨hlc, hmem⟩ := hi.called t op hc
    have hq : (∀ v, (v, false) ∈ a' → PushedStealable v h) ∧
        (∀ v, res = .val v → op = .steal → PushedStealable v h) := by
      cases op <;> cases res <;> try exact False.elim hsp
      · obtain ⟨-, rfl⟩ := hsp
        refine ⟨fun v hv => ?_, fun v e => nomatch e⟩
        rcases List.mem_append.1 hv with hv | hv
        · exact hi.queue v hv
        · rw [List.mem_singleton] at hv
          injection hv with h1 h2
          subst h1 h2
          exact ⟨t, .inl hmem⟩
      · have hsp : a' = s.abs := hsp
        subst hsp
        exact ⟨hi.queue, fun v e => nomatch e⟩
      · obtain ⟨-, rfl⟩ := hsp
        refine ⟨fun v hv => ?_, fun v e => nomatch e⟩
        rcases List.mem_append.1 hv with hv | hv
        · exact hi.queue v hv
        · rw [List.mem_map] at hv
          obtain ⟨w, hw, e⟩ := hv
          injection e with h1 h2
          subst h1 h2
          exact ⟨t, .inr ⟨_, hw, hmem⟩⟩
      · have hsp : a' = s.abs := hsp
        subst hsp
        exact ⟨hi.queue, fun v e => nomatch e⟩
      · obtain ⟨f, hsp⟩ := hsp
        exact ⟨fun v hv => hi.queue v (by rw [hsp]; exact List.mem_cons_of_mem _ hv), fun v _ e => nomatch e⟩
      · have hsp : a' = s.abs := hsp
        subst hsp
        exact ⟨hi.queue, fun v e => nomatch e⟩
      · have hsp : s.abs = _ :: a' := hsp
        refine ⟨fun v hv => hi.queue v (by rw [hsp]; exact List.mem_cons_of_mem _ hv), fun v e _ => ?_⟩
        injection e with e
        subst e
        exact hi.queue _ (by rw [hsp]; exact List.mem_cons_self)
      · have hsp : a' = s.abs := hsp
        subst hsp
        exact ⟨hi.queue, fun v e => nomatch e⟩
      · obtain ⟨-, rfl⟩ := hsp
        exact ⟨hi.queue, fun v e => nomatch e⟩
    have := ih h ⟨hq.1, ?_, ?_⟩
    · rw [List.filterMap_cons_none rfl]; exact this
    · intro t' op' hp
      by_cases e : t' = t
      · subst e; simp only [upd_same] at hp; exact nomatch hp
      · simp only [upd_ne _ _ e] at hp; exact hi.called t' op' hp
    · intro t' v hp hl
      by_cases e : t' = t
      · subst e
        simp only [upd_same] at hp
        injection hp with hp
        rw [hlc] at hl
        injection hl with hl
        exact hq.2 v hp hl
      · simp only [upd_ne _ _ e] at hp; exact hi.eff t' v hp hl
  | @ret s l s' t r hd _ ih =>
    have := ih (h ++ [.ret t r]) ⟨fun v hv => (hi.queue v hv).mono, ?_, ?_⟩
    · simpa [Ext.vis] using this
    · intro t' op' hp
      by_cases e : t' = t
      · subst e; simp only [upd_same] at hp; exact nomatch hp
      · simp only [upd_ne _ _ e] at hp
        rw [lastCall_append]
        exact ⟨(hi.called t' op' hp).1, List.mem_append_left _ (hi.called t' op' hp).2⟩
    · intro t' v hp hl
      by_cases e : t' = t
      · subst e; simp only [upd_same] at hp; exact nomatch hp
      · simp only [upd_ne _ _ e] at hp
        rw [lastCall_append] at hl
        exact (hi.eff t' v hp hl).mono

/-- A run whose visible history ends with a return: the returned result had taken effect. -/
theorem run_last_ret {cap : Nat} {s s' : State (Op V) (Res V) (List (V × Bool))} {ext} (hr : Run (fifo cap) s ext s')
    {h : List (Vis (Op V) (Res V))} {t : Nat} {r : Res V} (hv : ext.filterMap Ext.vis = h ++ [.ret t r]) :
    ∃ ext1 s1, Run (fifo cap) s ext1 s1 ∧ ext1.filterMap Ext.vis = h ∧ s1.phase t = .effected r := by
  induction hr generalizing h with
  | nil s => simp at hv
  | @call s l s' t' op hid _ ih =>
    cases h with
    | nil => simp [Ext.vis] at hv
    | cons e h =>
      simp only [List.filterMap_cons, Ext.vis, List.cons_append, List.cons.injEq] at hv
      obtain ⟨rfl, hv⟩ := hv
      obtain ⟨ext1, s1, h1, h2, h3⟩ := ih hv
      exact ⟨.call t' op :: ext1, s1, .call t' op hid h1, by simp [Ext.vis, h2], h3⟩
  | @eff s l s' t' op res a' hc hsp _ ih =>
    rw [List.filterMap_cons_none rfl] at hv
    obtain ⟨ext1, s1, h1, h2, h3⟩ := ih hv
    exact ⟨.eff t' op res :: ext1, s1, .eff t' op res a' hc hsp h1, by rw [List.filterMap_cons_none rfl, h2], h3⟩
  | @ret s l s' t' r' hd _ ih =>
    cases h with
    | nil =>
      simp only [List.filterMap_cons, Ext.vis, List.nil_append, List.cons.injEq] at hv
      obtain ⟨hv, -⟩ := hv
      injection hv with e1 e2
      subst e1 e2
      exact ⟨[], s, .nil s, rfl, hd⟩
    | cons e h =>
      simp only [List.filterMap_cons, Ext.vis, List.cons_append, List.cons.injEq] at hv
      obtain ⟨rfl, hv⟩ := hv
      obtain ⟨ext1, s1, h1, h2, h3⟩ := ih hv
      exact ⟨.ret t' r' :: ext1, s1, .ret t' r' hd h1, by simp [Ext.vis, h2], h3⟩

/-- **C23, stealing.**  If `Steal` returns a fiber, that fiber was passed to `Push` or `BatchPush` as stealable. -/
theorem C23_unstealable_not_stolen (cap : Nat) (hcap : 2 ≤ cap) (d : V) (f : Bool) (h : List (Vis (Op V) (Res V)))
    (c : Conf V) (t : Nat) (v : V) (he : Exec (Step cap) (init d f) (h ++ [.ret t (.val v)]) c)
    (hst : lastCall t h none = some .steal) : PushedStealable v h := by
  obtain ⟨ext, s, hr, hv⟩ := C23_linearizable cap hcap d f _ c he
  obtain ⟨ext1, s1, h1, h2, h3⟩ := run_last_ret hr hv
  have h0 : StealInv [] (⟨[], fun _ => .idle⟩ : State (Op V) (Res V) (List (V × Bool))) :=
    ⟨by simp, (fun _ _ h => nomatch h), (fun _ _ h => nomatch h)⟩
  have := steal_run h1 [] h0
  rw [List.nil_append, h2] at this
  exact this.eff t v h3 hst

/-! ### Running alone -/

theorem Exec.tau {cap : Nat} {i c c' : Conf V} {h} (t : Nat) (spur : Bool) (he : Exec (Step cap) i h c)
    (hs : tstep cap c t spur = some c') : Exec (Step cap) i h c' := by
  have := Exec.step he (.tau c t spur c' hs)
  simpa using this

section
variable {cap : Nat} {ini c : Conf V} {g : Ghost V} {h : List (Vis (Op V) (Res V))}

theorem quiet_pub (i : Inv cap c g) (hid : ∀ t, c.pc t = .idle) {p : Nat} (hp : p < c.enq) : g.pub p = true := by
  cases hb : g.pub p with
  | true => rfl
  | false =>
    obtain ⟨t', h1, h2⟩ := i.pend _ hp hb
    rw [hid] at h1 h2; simp only [range] at h1 h2; omega

theorem quiet_rel (i : Inv cap c g) (hid : ∀ t, c.pc t = .idle) {p : Nat} (hp : p < c.deq) : g.rel p = true := by
  cases hb : g.rel p with
  | true => rfl
  | false =>
    obtain ⟨t', h1⟩ := i.pendC _ hp hb
    rw [hid] at h1; simp [consPos] at h1

theorem quiet_not_rel (i : Inv cap c g) {p : Nat} (hp : c.deq ≤ p) : g.rel p = false := by
  cases hr : g.rel p with
  | false => rfl
  | true => have := i.sh.relLt _ hr; omega

/-- The sequence number of a slot ahead that is free. -/
theorem quiet_seq_free (i : Inv cap c g) (hid : ∀ t, c.pc t = .idle) {n : Nat} (hn : c.enq - c.deq + n < cap) :
    c.seq ((c.enq + n) % cap) = c.enq + n := by
  have := i.sh.deqLe
  apply i.sh.seq_of_free (by omega) (by omega)
  rcases Nat.lt_or_ge (c.enq + n) cap with h | h
  · exact .inl h
  · exact .inr ⟨h, quiet_rel i hid (by omega)⟩

/-- The sequence number of a slot ahead that is occupied. -/
theorem quiet_seq_full (i : Inv cap c g) (hid : ∀ t, c.pc t = .idle) {n : Nat} (hn : cap ≤ c.enq - c.deq + n)
    (hn' : n < cap) : c.seq ((c.enq + n) % cap) + cap = c.enq + n + 1 := by
  have h1 := i.sh.deqLe
  have h2 := i.sh.enqLe
  have h3 := i.sh.capGe
  have := i.sh.seqCur (c.enq + n - cap) (by omega) (by omega)
  rw [quiet_not_rel i (by omega), quiet_pub i hid (by omega), Mpmc.sub_cap_mod (by omega)] at this
  simp only [Bool.false_eq_true, if_false, if_true] at this
  omega

/-- The sequence number at the tail of a non-empty queue. -/
theorem quiet_seq_tail (i : Inv cap c g) (hid : ∀ t, c.pc t = .idle) (hn : c.deq < c.enq) :
    c.seq (c.deq % cap) = c.deq + 1 := by
  have := i.sh.seqCur c.deq hn (i.sh.window (quiet_not_rel i (Nat.le_refl _)))
  rw [quiet_not_rel i (Nat.le_refl _), quiet_pub i hid hn] at this
  simpa using this

theorem idle_upd (hid : ∀ t, c.pc t = .idle) (t : Nat) (x : PC V) (t' : Nat) (e : t' ≠ t) :
    upd c.pc t x t' = .idle := by rw [upd_ne _ _ e, hid]

/-- Closing a solo run. -/
theorem solo_ret {t : Nat} {r : Res V} (he : Exec (Step cap) ini h c) (hd : c.pc t = .done r)
    (hid : ∀ t', t' ≠ t → c.pc t' = .idle) :
    ∃ c', Exec (Step cap) ini (h ++ [.ret t r]) c' ∧ ∀ t, c'.pc t = .idle := by
  refine ⟨_, Exec.step he (.ret _ t r hd), ?_⟩
  intro t'
  by_cases e : t' = t
  · subst e; simp only [upd_same]
  · simp only [upd_ne _ _ e, hid t' e]

theorem solo_push (he : Exec (Step cap) ini h c) (i : Inv cap c g) (hid : ∀ t, c.pc t = .idle) (t : Nat) (v : V)
    (f : Bool) (hroom : c.enq - c.deq < cap) :
    ∃ c', Exec (Step cap) ini (h ++ [.call t (.push v f), .ret t .ok]) c' ∧ ∀ t, c'.pc t = .idle := by
  have hseq := quiet_seq_free i hid (n := 0) (by omega)
  rw [Nat.add_zero] at hseq
  have e0 := Exec.step he (.call c t (.push v f) (hid t))
  have e1 := Exec.tau t false e0 (by simp only [tstep, upd_same, entry]; rfl)
  have e2 := Exec.tau t false e1 (by simp only [tstep, upd_same, afterESeq, hseq, if_true]; rfl)
  have e3 := Exec.tau t false e2 (by simp only [tstep, upd_same, and_self, if_true]; rfl)
  have e4 := Exec.tau t false e3 (by simp only [tstep, upd_same]; rfl)
  have e5 := Exec.tau t false e4 (by simp only [tstep, upd_same]; rfl)
  have e6 := Exec.tau t false e5 (by simp only [tstep, upd_same, fillNext]; rfl)
  obtain ⟨c', h1, h2⟩ := solo_ret (t := t) e6 (by simp only [upd_same]; rfl)
    (fun t' e => by simp only [upd_ne _ _ e, hid])
  exact ⟨c', by simpa using h1, h2⟩

theorem solo_push_full (he : Exec (Step cap) ini h c) (i : Inv cap c g) (hid : ∀ t, c.pc t = .idle) (t : Nat) (v : V)
    (f : Bool) (hfull : c.enq - c.deq = cap) :
    ∃ c', Exec (Step cap) ini (h ++ [.call t (.push v f), .ret t .full]) c' ∧ ∀ t, c'.pc t = .idle := by
  have hcap := i.sh.capGe
  have hseq := quiet_seq_full i hid (n := 0) (by omega) (by omega)
  rw [Nat.add_zero] at hseq
  have e0 := Exec.step he (.call c t (.push v f) (hid t))
  have e1 := Exec.tau t false e0 (by simp only [tstep, upd_same, entry]; rfl)
  have ha : afterESeq cap v f true c.enq (c.seq (c.enq % cap)) = .eLoad v f false := by
    unfold afterESeq; rw [if_neg (by omega), if_neg (by simp)]
  have e2 := Exec.tau t false e1 (by simp only [tstep, upd_same, ha]; rfl)
  have e3 := Exec.tau t false e2 (by simp only [tstep, upd_same]; rfl)
  have hb : afterESeq cap v f false c.enq (c.seq (c.enq % cap)) = .done .full := by
    unfold afterESeq; rw [if_neg (by omega), if_pos ⟨rfl, hseq⟩]
  have e4 := Exec.tau t false e3 (by simp only [tstep, upd_same, hb]; rfl)
  obtain ⟨c', h1, h2⟩ := solo_ret (t := t) e4 (by simp only [upd_same]; rfl)
    (fun t' e => by simp only [upd_ne _ _ e, hid])
  exact ⟨c', by simpa using h1, h2⟩

theorem solo_take {t : Nat} {m : Mode} (he : Exec (Step cap) ini h c) (i : Inv cap c g)
    (hoth : ∀ t', t' ≠ t → c.pc t' = .idle) (hpc : c.pc t = .dCas m c.deq) {v : V} {f : Bool}
    (hv : g.log[c.deq]? = some (v, f)) :
    ∃ c', Exec (Step cap) ini (h ++ [.ret t (.val v)]) c' ∧ ∀ t, c'.pc t = .idle := by
  have ht := i.thr t
  rw [hpc] at ht
  have hdat : c.data (c.deq % cap) = v := by
    have := i.sh.dat _ ht.1 (quiet_not_rel i (Nat.le_refl _)); rw [hv] at this; injection this with this
    injection this with this _; exact this.symm
  have e3 := Exec.tau t false he (by simp only [tstep, hpc, and_self, if_true]; rfl)
  have e4 := Exec.tau t false e3 (by simp only [tstep, upd_same, hdat]; rfl)
  have e5 := Exec.tau t false e4 (by simp only [tstep, upd_same]; rfl)
  exact solo_ret (t := t) e5 (by simp only [upd_same]) (fun t' e => by simp only [upd_ne _ _ e, hoth t' e])

theorem solo_pop (he : Exec (Step cap) ini h c) (i : Inv cap c g) (hid : ∀ t, c.pc t = .idle) (t : Nat) {v : V}
    {f : Bool} (hv : g.log[c.deq]? = some (v, f)) :
    ∃ c', Exec (Step cap) ini (h ++ [.call t .pop, .ret t (.val v)]) c' ∧ ∀ t, c'.pc t = .idle := by
  have hlt : c.deq < c.enq := by
    have := (List.getElem?_eq_some_iff.1 hv).1; rw [i.sh.len] at this; exact this
  have hseq := quiet_seq_tail i hid hlt
  have e0 := Exec.step he (.call c t .pop (hid t))
  have e1 := Exec.tau t false e0 (by simp only [tstep, upd_same, entry]; rfl)
  have ha : afterDSeq cap .fast c.deq (c.seq (c.deq % cap)) = (PC.dCas .fast c.deq : PC V) := by
    unfold afterDSeq; rw [if_pos hseq]; rfl
  have e2 := Exec.tau t false e1 (by simp only [tstep, upd_same, ha]; rfl)
  have i2 : Inv cap { c with pc := upd (upd (upd c.pc t (entry .pop)) t (.dSeq .fast c.deq)) t (.dCas .fast c.deq) } g := by
    have i0 := i.move t (entry .pop) trivial (by rw [hid]; rfl) (by rw [hid]; rfl)
    have i1 := i0.move t (.dSeq .fast c.deq) (Nat.le_refl _) (by simp only [upd_same]; rfl) (by simp only [upd_same]; rfl)
    exact i1.move t (.dCas .fast c.deq) ⟨quiet_pub i hid hlt, fun e => nomatch e⟩ (by simp only [upd_same]; rfl)
      (by simp only [upd_same]; rfl)
  obtain ⟨c', h1, h2⟩ := solo_take (t := t) e2 i2 (fun t' e => by simp only [upd_ne _ _ e, hid]) (by simp only [upd_same]; rfl) hv
  exact ⟨c', by simpa using h1, h2⟩

theorem solo_steal (he : Exec (Step cap) ini h c) (i : Inv cap c g) (hid : ∀ t, c.pc t = .idle) (t : Nat) {v : V}
    {f : Bool} (hv : g.log[c.deq]? = some (v, f)) :
    ∃ c', Exec (Step cap) ini (h ++ [.call t .steal, .ret t (if f then .none else .val v)]) c' ∧
      ∀ t, c'.pc t = .idle := by
  have hlt : c.deq < c.enq := by
    have := (List.getElem?_eq_some_iff.1 hv).1; rw [i.sh.len] at this; exact this
  have hseq := quiet_seq_tail i hid hlt
  have hflag : c.flag (c.deq % cap) = f := by
    have := i.sh.dat _ (quiet_pub i hid hlt) (quiet_not_rel i (Nat.le_refl _)); rw [hv] at this
    injection this with this; injection this with _ this; exact this.symm
  have e0 := Exec.step he (.call c t .steal (hid t))
  have e1 := Exec.tau t false e0 (by simp only [tstep, upd_same, entry]; rfl)
  have ha : afterDSeq cap .steal c.deq (c.seq (c.deq % cap)) = (PC.dTest c.deq : PC V) := by
    unfold afterDSeq; rw [if_pos hseq]; rfl
  have e2 := Exec.tau t false e1 (by simp only [tstep, upd_same, ha]; rfl)
  have e3 := Exec.tau t false e2 (by simp only [tstep, upd_same, hflag]; rfl)
  cases f with
  | true =>
    simp only [if_true] at e3
    obtain ⟨c', h1, h2⟩ := solo_ret (t := t) e3 (by simp only [upd_same]; rfl)
      (fun t' e => by simp only [upd_ne _ _ e, hid])
    exact ⟨c', by simpa using h1, h2⟩
  | false =>
    simp only [Bool.false_eq_true, if_false] at e3
    have i2 : Inv cap { c with
        pc := upd (upd (upd (upd c.pc t (entry .steal)) t (.dSeq .steal c.deq)) t (.dTest c.deq)) t
          (.dCas .steal c.deq) } g := by
      have i0 := i.move t (entry .steal) trivial (by rw [hid]; rfl) (by rw [hid]; rfl)
      have i1 := i0.move t (.dSeq .steal c.deq) (Nat.le_refl _) (by simp only [upd_same]; rfl)
        (by simp only [upd_same]; rfl)
      have i2 := i1.move t (.dTest c.deq) ⟨quiet_pub i hid hlt, Nat.le_refl _⟩ (by simp only [upd_same]; rfl)
        (by simp only [upd_same]; rfl)
      exact i2.move t (.dCas .steal c.deq) ⟨quiet_pub i hid hlt, fun _ => .inr ⟨v, hv⟩⟩ (by simp only [upd_same]; rfl)
        (by simp only [upd_same]; rfl)
    obtain ⟨c', h1, h2⟩ := solo_take (t := t) e3 i2 (fun t' e => by simp only [upd_ne _ _ e, hid]) (by simp only [upd_same]; rfl) hv
    exact ⟨c', by simpa using h1, h2⟩

theorem solo_empty (he : Exec (Step cap) ini h c) (i : Inv cap c g) (hid : ∀ t, c.pc t = .idle) (t : Nat)
    (hempty : c.enq = c.deq) (op : Op V) (hop : op = .pop ∨ op = .steal) :
    ∃ c', Exec (Step cap) ini (h ++ [.call t op, .ret t .none]) c' ∧ ∀ t, c'.pc t = .idle := by
  have hcap := i.sh.capGe
  have hseq := quiet_seq_free i hid (n := 0) (by omega)
  rw [Nat.add_zero, hempty] at hseq
  rcases hop with rfl | rfl
  · have e0 := Exec.step he (.call c t .pop (hid t))
    have e1 := Exec.tau t false e0 (by simp only [tstep, upd_same, entry]; rfl)
    have ha : afterDSeq cap .fast c.deq (c.seq (c.deq % cap)) = (PC.dLoad .slow : PC V) := by
      unfold afterDSeq; rw [if_neg (by omega)]; rfl
    have e2 := Exec.tau t false e1 (by simp only [tstep, upd_same, ha]; rfl)
    have e3 := Exec.tau t false e2 (by simp only [tstep, upd_same]; rfl)
    have hb : afterDSeq cap .slow c.deq (c.seq (c.deq % cap)) = (PC.done .none : PC V) := by
      unfold afterDSeq; rw [if_neg (by omega), if_neg (by simp), if_pos (.inl hseq)]
    have e4 := Exec.tau t false e3 (by simp only [tstep, upd_same, hb]; rfl)
    obtain ⟨c', h1, h2⟩ := solo_ret (t := t) e4 (by simp only [upd_same]; rfl)
      (fun t' e => by simp only [upd_ne _ _ e, hid])
    exact ⟨c', by simpa using h1, h2⟩
  · have e0 := Exec.step he (.call c t .steal (hid t))
    have e1 := Exec.tau t false e0 (by simp only [tstep, upd_same, entry]; rfl)
    have hb : afterDSeq cap .steal c.deq (c.seq (c.deq % cap)) = (PC.done .none : PC V) := by
      unfold afterDSeq; rw [if_neg (by omega), if_neg (by simp), if_pos (.inl hseq)]
    have e4 := Exec.tau t false e1 (by simp only [tstep, upd_same, hb]; rfl)
    obtain ⟨c', h1, h2⟩ := solo_ret (t := t) e4 (by simp only [upd_same]; rfl)
      (fun t' e => by simp only [upd_ne _ _ e, hid])
    exact ⟨c', by simpa using h1, h2⟩

theorem solo_size (he : Exec (Step cap) ini h c) (i : Inv cap c g) (hid : ∀ t, c.pc t = .idle) (t : Nat) (hf : Bool) :
    ∃ c', Exec (Step cap) ini (h ++ [.call t (.size hf),
      .ret t (.size (if c.enq - c.deq = cap then 0 else c.enq - c.deq))]) c' ∧ ∀ t, c'.pc t = .idle := by
  have h1 := i.sh.deqLe
  have h2 := i.sh.enqLe
  have hs : sizeOf cap c.enq c.deq = if c.enq - c.deq = cap then 0 else c.enq - c.deq := by
    unfold sizeOf
    rw [if_neg (by omega)]
    by_cases e : c.enq - c.deq = cap
    · rw [if_pos (by omega), if_pos e]
    · rw [if_neg (by omega), if_neg e]
  have e0 := Exec.step he (.call c t (.size hf) (hid t))
  have e1 := Exec.tau t false e0 (by simp only [tstep, upd_same, entry]; rfl)
  have e2 := Exec.tau t false e1 (by simp only [tstep, upd_same]; rfl)
  have hr : (if hf then sizeOf cap (if hf then c.enq else c.deq) c.deq else sizeOf cap c.enq (if hf then c.enq else c.deq))
      = sizeOf cap c.enq c.deq := by cases hf <;> rfl
  simp only [hr, hs] at e2
  obtain ⟨c', h1, h2⟩ := solo_ret (t := t) e2 (by simp only [upd_same]; rfl)
    (fun t' e => by simp only [upd_ne _ _ e, hid])
  exact ⟨c', by simpa using h1, h2⟩

/-- Filling a claimed range. -/
theorem solo_fill (t : Nat) (vs : List V) (f : Bool) : ∀ (c : Conf V) (g : Ghost V) (pos : Nat),
    Exec (Step cap) ini h c → Inv cap c g → c.pc t = fillNext vs f pos → (∀ t', t' ≠ t → c.pc t' = .idle) →
    ∃ c', Exec (Step cap) ini (h ++ [.ret t .ok]) c' ∧ ∀ t, c'.pc t = .idle := by
  induction vs with
  | nil =>
    intro c g pos he i hpc hoth
    exact solo_ret he hpc hoth
  | cons v rest ih =>
    intro c g pos he i hpc hoth
    have hpc : c.pc t = .bChk v rest f pos := hpc
    have ht := i.thr t
    rw [hpc] at ht
    have hd := Fill.head ht
    have hr := i.sh.rel_of_not_pub hd.2.1
    have hseq := i.sh.seqCur pos hd.1 (i.sh.window hr)
    rw [hr, hd.2.1] at hseq
    simp only [Bool.false_eq_true, if_false] at hseq
    have e1 := Exec.tau t false he (by simp only [tstep, hpc, hseq, if_true]; rfl)
    have i1 := i.move t (.wFib v rest f pos) ht (by rw [hpc]; rfl) (by rw [hpc]; rfl)
    have e2 := Exec.tau t false e1 (by simp only [tstep, upd_same]; rfl)
    have i2 := i1.write t v rest f pos (by simp only [upd_same])
    have e3 := Exec.tau t false e2 (by simp only [tstep, upd_same]; rfl)
    have i3 := i2.mark t v rest f pos (by simp only [upd_same])
    have e4 := Exec.tau t false e3 (by simp only [tstep, upd_same]; rfl)
    have i4 := i3.publish t v rest f pos (by simp only [upd_same])
    exact ih _ _ (pos + 1) e4 i4 (by simp only [upd_same]) (fun t' e => by simp only [upd_ne _ _ e, hoth t' e])

/-- Scanning a range that is clean. -/
theorem solo_scan (t : Nat) (vs : List V) (f : Bool) (n : Nat) : ∀ (c : Conf V) (g : Ghost V) (j : Nat),
    Exec (Step cap) ini h c → Inv cap c g → c.pc t = scanNext vs f c.enq j → j + n = vs.length → vs.length < cap →
    (∀ k, j ≤ k → k ≤ vs.length → Free cap g (c.enq + k)) → (∀ k, k < j → Free cap g (c.enq + k)) →
    (∀ t', t' ≠ t → c.pc t' = .idle) →
    ∃ c', Exec (Step cap) ini h c' ∧ Inv cap c' g ∧ c'.pc t = .bCas vs f c'.enq ∧ ∀ t', t' ≠ t → c'.pc t' = .idle := by
  induction n with
  | zero =>
    intro c g j he i hpc hj hn hfree hfree' hoth
    refine ⟨c, he, i, ?_, hoth⟩
    rw [hpc]; unfold scanNext; rw [if_pos (by omega)]
  | succ n ih =>
    intro c g j he i hpc hj hn hfree hfree' hoth
    unfold scanNext at hpc
    rw [if_neg (by omega)] at hpc
    have hs : c.seq ((c.enq + j) % cap) = c.enq + j :=
      i.sh.seq_of_free (by omega) (by omega) (hfree j (Nat.le_refl _) (by omega))
    have ha : afterBScan cap vs f c.enq j (c.seq ((c.enq + j) % cap)) = scanNext vs f c.enq (j + 1) := by
      unfold afterBScan
      rw [if_neg (fun h => h.1 hs)]
    have e1 := Exec.tau t false he (by simp only [tstep, hpc, ha]; rfl)
    have hall : ∀ k, k ≤ vs.length → Free cap g (c.enq + k) := by
      intro k hk
      rcases Nat.lt_or_ge k j with h | h
      · exact hfree' k h
      · exact hfree k h hk
    have hthr : ThrInv cap c g (scanNext vs f c.enq (j + 1)) := by
      unfold scanNext
      split
      · exact .inr ⟨hn, fun k hk => hall k (by omega)⟩
      · exact ⟨Nat.le_refl _, by omega, .inr ⟨hn, hall _ (Nat.le_refl _), fun k hk => hall k (by omega)⟩⟩
    have i1 := i.move t (scanNext vs f c.enq (j + 1)) hthr
      (by rw [hpc]; unfold scanNext; split <;> rfl) (by rw [hpc]; unfold scanNext; split <;> rfl)
    exact ih _ g (j + 1) e1 i1 (by simp only [upd_same]) (by omega) hn (fun k _ hk => hall k hk)
      (fun k hk => hall k (by omega)) (fun t' e => by simp only [upd_ne _ _ e, hoth t' e])

theorem solo_batch (he : Exec (Step cap) ini h c) (i : Inv cap c g) (hid : ∀ t, c.pc t = .idle) (t : Nat) (vs : List V)
    (f : Bool) (hroom : c.enq - c.deq + vs.length < cap) :
    ∃ c', Exec (Step cap) ini (h ++ [.call t (.batch vs f), .ret t .ok]) c' ∧ ∀ t, c'.pc t = .idle := by
  have hseq := quiet_seq_free i hid hroom
  have hdq := i.sh.deqLe
  have hfree : ∀ k, k ≤ vs.length → Free cap g (c.enq + k) := by
    intro k hk
    rcases Nat.lt_or_ge (c.enq + k) cap with h | h
    · exact .inl h
    · exact .inr ⟨h, quiet_rel i hid (by omega)⟩
  have e0 := Exec.step he (.call c t (.batch vs f) (hid t))
  have i0 := i.move t (entry (.batch vs f)) trivial (by rw [hid]; rfl) (by rw [hid]; rfl)
  have e1 := Exec.tau t false e0 (by simp only [tstep, upd_same, entry]; rfl)
  have i1 := i0.move t (.bHead vs f c.enq) (Nat.le_refl _) (by simp only [upd_same]; rfl) (by simp only [upd_same]; rfl)
  have ha : afterBHead cap vs f c.enq (c.seq ((c.enq + vs.length) % cap)) = scanNext vs f c.enq 0 := by
    unfold afterBHead; rw [if_pos hseq]
  have e2 := Exec.tau t false e1 (by simp only [tstep, upd_same, ha]; rfl)
  have hthr : ThrInv cap c g (scanNext vs f c.enq 0) := by
    unfold scanNext
    split
    · exact .inr ⟨by omega, fun k hk => hfree k (by omega)⟩
    · exact ⟨Nat.le_refl _, by omega, .inr ⟨by omega, hfree _ (Nat.le_refl _), fun k hk => hfree k (by omega)⟩⟩
  have i2 := i1.move t (scanNext vs f c.enq 0)
    (hthr.frame (Nat.le_refl _) (Nat.le_refl _) (fun _ h => h) (fun _ h => h) (fun _ _ h => h)
      (fun _ _ => ⟨rfl, rfl, rfl⟩) (fun _ _ => rfl))
    (by simp only [upd_same]; unfold scanNext; split <;> rfl) (by simp only [upd_same]; unfold scanNext; split <;> rfl)
  obtain ⟨c3, e3, i3, hpc3, hoth3⟩ := solo_scan t vs f vs.length _ g 0 e2 i2 (by simp only [upd_same]) (by omega)
    (by omega) (fun k _ hk => hfree k hk) (fun k hk => by omega) (fun t' e => by simp only [upd_ne _ _ e, hid])
  have e4 := Exec.tau t false e3 (by simp only [tstep, hpc3, and_self, if_true]; rfl)
  have ht := i3.thr t
  rw [hpc3] at ht
  obtain ⟨hn, hf⟩ : vs.length < cap ∧ ∀ j, j < vs.length → Free cap g (c3.enq + j) := by
    rcases ht with h | h
    · omega
    · exact h
  have i4 := i3.claim t vs f (fillNext vs f c3.enq) hn hf (by rw [hpc3]; rfl) (consPos_fillNext _ _ _)
    (by rw [hpc3]; rfl) (range_fillNext _ _ _) (fun _ _ h => thr_fillNext h)
  obtain ⟨c', h1, h2⟩ := solo_fill t vs f _ _ c3.enq e4 i4 (by simp only [upd_same])
    (fun t' e => by simp only [upd_ne _ _ e, hoth3 t' e])
  exact ⟨c', by simpa using h1, h2⟩

theorem solo_batch_full (he : Exec (Step cap) ini h c) (i : Inv cap c g) (hid : ∀ t, c.pc t = .idle) (t : Nat)
    (vs : List V) (f : Bool) (hroom : cap ≤ c.enq - c.deq + vs.length) (hn : vs.length < cap) :
    ∃ c', Exec (Step cap) ini (h ++ [.call t (.batch vs f), .ret t .full]) c' ∧ ∀ t, c'.pc t = .idle := by
  have hcap := i.sh.capGe
  have hseq := quiet_seq_full i hid hroom hn
  have e0 := Exec.step he (.call c t (.batch vs f) (hid t))
  have e1 := Exec.tau t false e0 (by simp only [tstep, upd_same, entry]; rfl)
  have ha : afterBHead cap vs f c.enq (c.seq ((c.enq + vs.length) % cap)) = .done .full := by
    unfold afterBHead; rw [if_neg (by omega), if_pos hseq]
  have e2 := Exec.tau t false e1 (by simp only [tstep, upd_same, ha]; rfl)
  obtain ⟨c', h1, h2⟩ := solo_ret (t := t) e2 (by simp only [upd_same]; rfl)
    (fun t' e => by simp only [upd_ne _ _ e, hid])
  exact ⟨c', by simpa using h1, h2⟩

end

theorem exec_rel {cap : Nat} (hcap : 2 ≤ cap) {d : V} {f : Bool} {h : List (Vis (Op V) (Res V))} {c : Conf V}
    (he : Exec (Step cap) (init d f) h c) :
    ∃ ext s, Run (fifo cap) ⟨[], fun _ => .idle⟩ ext s ∧ ext.filterMap Ext.vis = h ∧ Rel cap c s := by
  induction he with
  | start => exact ⟨[], _, .nil _, rfl, rel_init cap hcap d f⟩
  | step _ hst ih =>
    obtain ⟨ext, s, h1, h2, h3⟩ := ih
    obtain ⟨s', ⟨ext', g1, g2⟩, g3⟩ := sim_step h3 hst
    exact ⟨ext ++ ext', s', h1.append g1, by rw [List.filterMap_append, h2, g2], g3⟩

/-- `op`, run alone by `t` after history `h`, can return `r`, and the queue is quiescent again. -/
def Alone (cap : Nat) (d : V) (f : Bool) (h : List (Vis (Op V) (Res V))) (t : Nat) (op : Op V) (r : Res V) : Prop :=
  ∃ c', Exec (Step cap) (init d f) (h ++ [.call t op, .ret t r]) c' ∧ ∀ t, c'.pc t = .idle

/-- **C23/C38, when nothing else is going on.**  With no operation in progress, the contents `q` of the queue
according to a linearization of the whole history are really there: a pop returns the oldest fiber, a steal
returns it unless it is unstealable, both report "nothing" on an empty queue; a push succeeds if and only if there
is room; a batch succeeds if there is room for one more than its size and is rejected otherwise; `UnsafeSize`
is exact except that a full queue has size 0. -/
theorem C23_quiescent (cap : Nat) (hcap : 2 ≤ cap) (d : V) (f : Bool) (h : List (Vis (Op V) (Res V)))
    (c : Conf V) (he : Exec (Step cap) (init d f) h c) (hid : ∀ t, c.pc t = .idle) :
    ∃ ext s, Run (fifo cap) ⟨[], fun _ => .idle⟩ ext s ∧ ext.filterMap Ext.vis = h ∧ s.abs.length ≤ cap ∧ ∀ t,
      (∀ v b q, s.abs = (v, b) :: q → Alone cap d f h t .pop (.val v) ∧
        Alone cap d f h t .steal (if b then .none else .val v)) ∧
      (s.abs = [] → Alone cap d f h t .pop .none ∧ Alone cap d f h t .steal .none) ∧
      (∀ v b, Alone cap d f h t (.push v b) (if s.abs.length < cap then .ok else .full)) ∧
      (∀ vs b, vs.length < cap →
        Alone cap d f h t (.batch vs b) (if s.abs.length + vs.length < cap then .ok else .full)) ∧
      (∀ hf, Alone cap d f h t (.size hf) (.size (if s.abs.length = cap then 0 else s.abs.length))) := by
  obtain ⟨ext, s, h1, h2, g, i, ha, -⟩ := exec_rel hcap he
  have hdq := i.sh.deqLe
  have hle := i.sh.enqLe
  have hlen : s.abs.length = c.enq - c.deq := by rw [ha, List.length_drop, i.sh.len]
  refine ⟨ext, s, h1, h2, by omega, ?_⟩
  intro t
  refine ⟨?_, ?_, ?_, ?_, ?_⟩
  · intro v b q hq
    have hv : g.log[c.deq]? = some (v, b) := by
      rw [ha] at hq
      have := congrArg (·[0]?) hq
      simpa using this
    exact ⟨solo_pop he i hid t hv, solo_steal he i hid t hv⟩
  · intro hl
    have hl := congrArg List.length hl
    rw [hlen, List.length_nil] at hl
    have : c.enq = c.deq := by omega
    exact ⟨solo_empty he i hid t this .pop (.inl rfl), solo_empty he i hid t this .steal (.inr rfl)⟩
  · intro v b
    split
    · next hl => exact solo_push he i hid t v b (by omega)
    · next hl => exact solo_push_full he i hid t v b (by omega)
  · intro vs b hn
    split
    · next hl => exact solo_batch he i hid t vs b (by omega)
    · next hl => exact solo_batch_full he i hid t vs b (by omega) hn
  · intro hf
    rw [hlen]
    exact solo_size he i hid t hf

/-! ## C38: `BatchPush` -/

/-- **C38.**  A batch smaller than the capacity minus the current length is accepted when no other thread is active. -/
theorem C38_batch_accepted_partial (cap : Nat) (hcap : 2 ≤ cap) (d : V) (f : Bool) (h : List (Vis (Op V) (Res V)))
    (c : Conf V) (he : Exec (Step cap) (init d f) h c) (hid : ∀ t, c.pc t = .idle) (t : Nat) (vs : List V) (b : Bool)
    (hroom : c.enq - c.deq + vs.length < cap) : Alone cap d f h t (.batch vs b) .ok := by
  obtain ⟨-, s, -, -, g, i, -, -⟩ := exec_rel hcap he
  exact solo_batch he i hid t vs b hroom

/-- **C38, refutation 1.**  A batch that fits exactly is rejected, even on an idle queue. -/
theorem C38_exact_fit_rejected (cap : Nat) (hcap : 2 ≤ cap) (d : V) (f : Bool) (h : List (Vis (Op V) (Res V)))
    (c : Conf V) (he : Exec (Step cap) (init d f) h c) (hid : ∀ t, c.pc t = .idle) (t : Nat) (vs : List V) (b : Bool)
    (hn : vs.length < cap) (hroom : c.enq - c.deq + vs.length = cap) : Alone cap d f h t (.batch vs b) .full := by
  obtain ⟨-, s, -, -, g, i, -, -⟩ := exec_rel hcap he
  exact solo_batch_full he i hid t vs b (by omega) hn

/-- Every internal step thread `t` can take leads back to where it can take another, and it never returns. -/
def Spins (cap : Nat) (t : Nat) (c : Conf V) : Prop :=
  ∃ S : Conf V → Prop, S c ∧ ∀ c', S c' → (∀ r, c'.pc t ≠ .done r) ∧ (∃ c'', tstep cap c' t false = some c'') ∧
    ∀ spur c'', tstep cap c' t spur = some c'' → S c''

/-- **C38, refutation 2.**  A batch of `cap` or more fibers never returns when run alone, whatever the queue
contains (even nothing). -/
theorem C38_large_batch_spins (cap : Nat) (hcap : 2 ≤ cap) (d : V) (f : Bool) (h : List (Vis (Op V) (Res V)))
    (c : Conf V) (he : Exec (Step cap) (init d f) h c) (hid : ∀ t, c.pc t = .idle) (t : Nat) (vs : List V) (b : Bool)
    (hn : cap ≤ vs.length) : Spins cap t { c with pc := upd c.pc t (entry (.batch vs b)) } := by
  obtain ⟨-, s, -, -, g, i, -, -⟩ := exec_rel hcap he
  have hlt := i.sh.seq_lt (c.enq + vs.length)
  have hne : c.seq ((c.enq + vs.length) % cap) + cap ≠ c.enq + vs.length + 1 := by
    intro e
    have h1 := i.sh.deqLe
    -- the slot was last used by a position `p` that is published or released
    have hm : (c.enq + vs.length) % cap < cap := Nat.mod_lt _ (by omega)
    have hdm := Nat.div_add_mod (c.enq + vs.length) cap
    rcases Nat.lt_or_ge ((c.enq + vs.length) % cap) c.enq with h | h
    · let r := (c.enq + vs.length) % cap
      have hr : r < c.enq := h
      let p := r + cap * ((c.enq - 1 - r) / cap)
      have hd := Nat.div_add_mod (c.enq - 1 - r) cap
      have hl := Nat.mod_lt (c.enq - 1 - r) (show 0 < cap by omega)
      have hp : p < c.enq := by show r + cap * ((c.enq - 1 - r) / cap) < c.enq; omega
      have hp' : c.enq ≤ p + cap := by show c.enq ≤ r + cap * ((c.enq - 1 - r) / cap) + cap; omega
      have hmod : p % cap = (c.enq + vs.length) % cap := by
        show ((c.enq + vs.length) % cap + cap * _) % cap = _
        rw [Nat.add_mul_mod_self_left, Nat.mod_mod]
      have hseq := i.sh.seqCur p hp hp'
      rw [hmod, quiet_pub i hid hp] at hseq
      split at hseq
      · -- released: `p + 2·cap = enq + n + 1`, impossible modulo `cap`
        have hx : p + cap + cap = c.enq + vs.length + 1 := by omega
        have h1 : (p + cap + cap) % cap = (c.enq + vs.length) % cap := by
          rw [Nat.add_mod_right, Nat.add_mod_right, hmod]
        rw [hx] at h1
        have h2 := Nat.sub_mod_eq_zero_of_mod_eq h1
        rw [show c.enq + vs.length + 1 - (c.enq + vs.length) = 1 by omega, Nat.mod_eq_of_lt (by omega)] at h2
        omega
      · simp only [if_true] at hseq
        omega
    · have hseq := i.sh.seqNew _ hm h
      have h1 : (c.seq ((c.enq + vs.length) % cap) + cap) % cap = (c.enq + vs.length) % cap := by
        rw [hseq, Nat.add_mod_right, Nat.mod_mod]
      rw [e] at h1
      have h2 := Nat.sub_mod_eq_zero_of_mod_eq h1
      rw [show c.enq + vs.length + 1 - (c.enq + vs.length) = 1 by omega, Nat.mod_eq_of_lt (by omega)] at h2
      omega
  refine ⟨fun c' => c'.seq = c.seq ∧ c'.enq = c.enq ∧ (c'.pc t = .bLoad vs b ∨ c'.pc t = .bHead vs b c.enq), ?_, ?_⟩
  · exact ⟨rfl, rfl, .inl (by simp only [upd_same, entry])⟩
  · rintro c' ⟨h1, h2, h3⟩
    rcases h3 with h3 | h3
    · refine ⟨fun r => by rw [h3]; simp, ⟨_, by simp only [tstep, h3]; rfl⟩, ?_⟩
      intro spur c'' hs
      simp only [tstep, h3, Option.some.injEq] at hs
      subst hs
      exact ⟨h1, h2, .inr (by simp only [upd_same, h2])⟩
    · refine ⟨fun r => by rw [h3]; simp, ⟨_, by simp only [tstep, h3]; rfl⟩, ?_⟩
      intro spur c'' hs
      simp only [tstep, h3, Option.some.injEq] at hs
      subst hs
      refine ⟨h1, h2, .inl ?_⟩
      simp only [upd_same, h1]
      unfold afterBHead
      rw [if_neg (by omega), if_neg hne]

/-- **C38, in general.**  Whatever the other threads do, a batch of `cap` or more fibers is never accepted. -/
theorem C38_large_batch_never_accepted (cap : Nat) (q q' : List (V × Bool)) (vs : List V) (b : Bool)
    (hn : cap ≤ vs.length) : ¬ fifo cap q (.batch vs b) .ok q' := by
  intro h
  have := h.1.1
  omega

/-! ### Capacity -/

/-- **C23, capacity.**  `Init(n)` with `2 ≤ n < 2⁶³` gives a capacity that is a power of two, at least `n`, at most
`2·n`; `Init(0)` and `Init(1)` give capacity 0 (every access is out of bounds) and 1. -/
theorem C23_capacity :
    (∀ n : UInt64, 2 ≤ n.toNat → n.toNat < 2 ^ 63 →
      ∃ r i, initCap n = some r ∧ r.toNat = 2 ^ i ∧ 2 ≤ r.toNat ∧ n.toNat ≤ r.toNat ∧ r.toNat ≤ 2 * n.toNat) ∧
    initCap 0 = some 0 ∧ initCap 1 = some 1 := by
  refine ⟨?_, by decide, by decide⟩
  intro n h1 hn
  unfold initCap
  split
  · exact Mpmc.C19_capacity n (by omega) hn
  · next h =>
    simp only [ne_eq, Decidable.not_not] at h
    have h4 : n.toNat &&& (n.toNat - 1) = 0 := by
      have h := congrArg UInt64.toNat h
      rw [UInt64.toNat_and, UInt64.toNat_sub_of_le n 1 (by rw [UInt64.le_iff_toNat_le]; exact Nat.le_of_succ_le h1)] at h
      exact h
    obtain ⟨i, hi⟩ := (Nat.and_sub_one_eq_zero_iff_isPowerOfTwo (by omega)).1 h4
    exact ⟨n, i, rfl, hi, h1, Nat.le_refl _, by omega⟩

/-! ### Non-vacuity -/

/-- Run thread `t` until its operation is done. -/
def runTo (cap : Nat) (t : Nat) : Nat → Conf V → Option (Res V × Conf V)
  | 0, _ => none
  | n + 1, c =>
    match c.pc t with
    | .done r => some (r, c)
    | _ => (tstep cap c t false).bind (runTo cap t n)

/-- Perform operations one after the other. -/
def play (cap n : Nat) : List (Nat × Op V) → Conf V → Option (List (Vis (Op V) (Res V)))
  | [], _ => some []
  | (t, op) :: l, c =>
    match c.pc t with
    | .idle =>
      (runTo cap t n { c with pc := upd c.pc t (entry op) }).bind fun x =>
        (play cap n l { x.2 with pc := upd x.2.pc t .idle }).map fun h => .call t op :: .ret t x.1 :: h
    | _ => none

theorem runTo_sound {cap t n : Nat} {ini c c' : Conf V} {h} {r : Res V} (he : Exec (Step cap) ini h c)
    (hr : runTo cap t n c = some (r, c')) : Exec (Step cap) ini h c' ∧ c'.pc t = .done r := by
  induction n generalizing c with
  | zero => simp [runTo] at hr
  | succ n ih =>
    simp only [runTo] at hr
    split at hr
    · next r' hd =>
      simp only [Option.some.injEq, Prod.mk.injEq] at hr
      obtain ⟨rfl, rfl⟩ := hr
      exact ⟨he, hd⟩
    · simp only [Option.bind_eq_some_iff] at hr
      obtain ⟨c1, h1, h2⟩ := hr
      exact ih (Exec.tau t false he h1) h2

theorem play_sound {cap n : Nat} {ini : Conf V} (l : List (Nat × Op V)) : ∀ {c : Conf V} {h h'},
    Exec (Step cap) ini h c → play cap n l c = some h' → ∃ c', Exec (Step cap) ini (h ++ h') c' := by
  induction l with
  | nil =>
    intro c h h' he hp
    simp only [play, Option.some.injEq] at hp
    subst hp
    exact ⟨c, by simpa using he⟩
  | cons a l ih =>
    intro c h h' he hp
    obtain ⟨t, op⟩ := a
    simp only [play] at hp
    split at hp
    · next hid =>
      simp only [Option.bind_eq_some_iff, Option.map_eq_some_iff] at hp
      obtain ⟨⟨r, c1⟩, h1, k, h2, rfl⟩ := hp
      obtain ⟨e1, hd⟩ := runTo_sound (Exec.step he (.call c t op hid)) h1
      obtain ⟨c', e2⟩ := ih (Exec.step e1 (.ret c1 t r hd)) h2
      exact ⟨c', by simpa using e2⟩
    · cases hp

/-- A batch of two and an unstealable fiber: the first is stolen, the second popped, the third not stolen; exactly
fitting batches are refused, a full queue refuses pushes and has size 0. -/
example : ∃ c, Exec (Step 4) (init 0 false)
    [.call 1 (.batch [10, 11] false), .ret 1 .ok, .call 2 (.push 12 true), .ret 2 .ok,
     .call 3 .steal, .ret 3 (.val 10), .call 1 .pop, .ret 1 (.val 11), .call 3 .steal, .ret 3 .none,
     .call 1 (.batch [20, 21, 22] true), .ret 1 .full, .call 1 (.batch [20, 21] true), .ret 1 .ok,
     .call 2 (.push 13 true), .ret 2 .ok, .call 2 (.push 14 true), .ret 2 .full,
     .call 5 (.size true), .ret 5 (.size 0), .call 1 .pop, .ret 1 (.val 12),
     .call 5 (.size false), .ret 5 (.size 3)] c := by
  exact play_sound (cap := 4) (n := 30) [(1, .batch [10, 11] false), (2, .push 12 true), (3, .steal), (1, .pop), (3, .steal),
    (1, .batch [20, 21, 22] true), (1, .batch [20, 21] true), (2, .push 13 true), (2, .push 14 true), (5, .size true),
    (1, .pop), (5, .size false)] (Exec.start (init := init 0 false)) (by decide +kernel)

example : lastCall (V := Nat) 3 [.call 1 (.push 5 false), .ret 1 .ok, .call 3 .steal] none = some .steal ∧
    PushedStealable (V := Nat) 5 [.call 1 (.push 5 false), .ret 1 .ok, .call 3 .steal] ∧
    ¬ PushedStealable (V := Nat) 5 [.call 1 (.push 5 true), .ret 1 .ok, .call 3 .steal] := by
  refine ⟨by decide, ⟨1, .inl (by simp)⟩, ?_⟩
  rintro ⟨t, h | ⟨vs, -, h⟩⟩ <;> simp at h

/-- The specification rejects stealing an unstealable fiber, splitting a batch and popping out of order. -/
example : ¬ fifo (V := Nat) 4 [(1, true)] .steal (.val 1) [] ∧
    ¬ fifo (V := Nat) 4 [] (.batch [1, 2] false) .ok [(1, false)] ∧
    ¬ fifo (V := Nat) 4 [(1, true), (2, true)] .pop (.val 2) [(1, true)] := by
  simp [fifo]

end Verif.Queue.RunQ
