import Verif.Fiber.TimerInv
/-!
# The steps of the timer thread keep the invariant
-/

namespace Verif.Fiber.Timer

theorem WPc.cur_of_calls {p : WPc} {e : Nat} (h : p.calls = some e) : p.cur = some e := by
  revert h; cases p <;> simp [WPc.calls, WPc.cur]

/-- The timer thread goes elsewhere. -/
theorem Inv.goto {s : St} (h : Inv s) (pc : WPc) (n : Bool) (hc : pc.coll = s.pc.coll)
    (hr : ∀ p, p < s.np → s.pc.reaps p = true → pc.reaps p = true)
    (wl : ∀ t, pc = .load t → 0 < s.heap.n ∧ t = s.key s.heap.top)
    (wt : ∀ t r, pc = .try t r → 0 < s.heap.n ∧ t = s.key s.heap.top ∧ s.next ≤ r)
    (sl : pc.sleepy = true → s.heap.n = 0 ∨ s.next ≤ s.key s.heap.top)
    (asl : ∀ x d, pc = .asleep x d → s.next ≤ x ∧ (s.next ≠ x → n = true) ∧ (s.stopped = true → n = true) ∧ (x ≠ inf → d = x))
    (cur : ∀ e, pc.cur = some e → 0 < s.heap.n ∧ s.heap.top = e)
    (nocb : ∀ e, pc.calls = some e → (s.ent e).cb = false) : Inv { s with pc := pc, notified := n } := by
  obtain ⟨qq, qn, qc, qh, cn, ch, qe, ce, he, created, inj, ord, place, e1, e2, ni, cov, tgt, stale, -, -, -, -, -, -⟩ := h
  constructor <;> (try simp only [hc])
  case cov =>
    intro p e hm
    rcases cov p e hm with g | g | g
    · exact Or.inl g
    · exact Or.inr (Or.inl (hr p (qe p e hm).2 g))
    · exact Or.inr (Or.inr g)
  case stale =>
    intro p e hi hg hm
    rcases stale p e hi hg hm with g | g
    · exact Or.inl g
    · exact Or.inr (hr p (qe p e hm).2 g)
  all_goals assumption

/-- The first timer is removed from the heap. -/
theorem Inv.popTo {s : St} (h : Inv s) (now : Nat) (hn : 0 < s.heap.n) (hc : s.pc.coll = []) (hr : ∀ p, s.pc.reaps p = false)
    (ht : (s.ent s.heap.top).cancelled = true ∨ (s.ent s.heap.top).cb = false ∧ (s.ent s.heap.top).interval.isSome = false) :
    Inv { s with pc := .fireLoop now, heap := s.heap.pop s.key } := by
  obtain ⟨qq, qn, qc, qh, cn, ch, qe, ce, he, created, inj, ord, place, e1, e2, ni, cov, tgt, stale, wl, wt, sl, asl, cur, nocb⟩ := h
  have hp := Heap.pop_has (key := s.key) inj hn
  constructor
  case qc => intro p e _; simp [WPc.coll]
  case qh => intro p e hm hh; exact qh p e hm ((hp e).1 hh).1
  case cn => simp [WPc.coll]
  case ch => intro e hm; simp [WPc.coll] at hm
  case ce => intro e hm; simp [WPc.coll] at hm
  case he => intro e hm; exact he e ((hp e).1 hm).1
  case inj => exact Heap.pop_inj inj
  case ord => exact Heap.pop_ord (fun i a b c => ord i a b (Nat.zero_le _))
  case place =>
    intro e a b c
    rcases place e a b c with g | g | g
    · exact Or.inl g
    · rw [hc] at g; simp at g
    · right; right
      refine (hp e).2 ⟨g, ?_⟩
      rintro rfl
      simp only at b c
      grind
  case cov => intro p e hm; have := cov p e hm; rw [hr p] at this; rcases this with g | g | g <;> first | exact Or.inl g | simp at g | exact Or.inr (Or.inr g)
  case stale => intro p e hi hg hm; have := stale p e hi hg hm; rw [hr p] at this; rcases this with g | g <;> first | exact Or.inl g | simp at g
  case wl => intro t h; simp at h
  case wt => intro t r h; simp at h
  case sl => intro h; simp [WPc.sleepy] at h
  case asl => intro x d h; simp at h
  case cur => intro e h; simp [WPc.cur] at h
  case nocb => intro e h; simp [WPc.calls] at h
  all_goals assumption

/-- The first timer is periodic and gets its next time. -/
theorem Inv.again {s : St} (h : Inv s) (now : Nat) (hn : 0 < s.heap.n) (hc : s.pc.coll = []) (hr : ∀ p, s.pc.reaps p = false)
    (x : Entry) (hx1 : x.enabled = (s.ent s.heap.top).enabled) (hx2 : x.created = (s.ent s.heap.top).created)
    (hx3 : x.cancelled = (s.ent s.heap.top).cancelled) :
    Inv { (s.setEnt s.heap.top x) with
      pc := .fireLoop now
      heap := (s.heap.push (s.setEnt s.heap.top x).key s.heap.top).pop (s.setEnt s.heap.top x).key } := by
  generalize hk' : (s.setEnt s.heap.top x).key = k'
  have htop : s.heap.Has s.heap.top := ⟨0, hn, rfl⟩
  have hkne : ∀ e, e ≠ s.heap.top → k' e = s.key e := by
    intro e hne; rw [← hk']; simp only [St.key, St.setEnt, upd]; rw [if_neg hne]
  have hent : ∀ e, e ≠ s.heap.top → upd s.ent s.heap.top x e = s.ent e := fun e hne => upd_ne _ _ hne
  have hen : ∀ e, (upd s.ent s.heap.top x e).enabled = (s.ent e).enabled := by
    intro e; by_cases hne : e = s.heap.top
    · rw [hne, upd_same, hx1]
    · rw [hent e hne]
  obtain ⟨qq, qn, qc, qh, cn, ch, qe, ce, he, created, inj, ord, place, e1, e2, ni, cov, tgt, stale, wl, wt, sl, asl, cur, nocb⟩ := h
  have hq : ∀ p e, e ∈ s.q p → k' e = s.key e := fun p e hm => hkne e fun h => qh p e hm (h ▸ htop)
  -- the heap contains its first element twice for a moment
  have hord1 : (s.heap.push k' s.heap.top).Ord k' 1 := by
    refine Heap.push_ord (ord.root inj fun y hy hne => hkne y hne) (Or.inr ⟨rfl, hn, Nat.le_refl _⟩)
  have hord : ((s.heap.push k' s.heap.top).pop k').Ord k' 0 := Heap.pop_ord hord1
  obtain ⟨hhas, hinj⟩ := Heap.again_has inj hn k'
  constructor
  case qc => intro p e _; simp [WPc.coll]
  case qh => intro p e hm hh; exact qh p e hm ((hhas e).1 hh)
  case cn => simp [WPc.coll]
  case ch => intro e hm; simp [WPc.coll] at hm
  case qe => intro p e hm; have := qe p e hm; exact ⟨by rw [← this.1]; exact hen e, this.2⟩
  case ce => intro e hm; simp [WPc.coll] at hm
  case he => intro e hm; rw [← he e ((hhas e).1 hm)]; exact hen e
  case created =>
    intro e hcr
    have : e ≠ s.heap.top := by
      rintro rfl
      have h1 := he _ htop
      simp only [St.setEnt, upd_same, hx2] at hcr
      have := created _ hcr
      simp [this.1] at h1
    simp only [St.setEnt, hent e this] at hcr ⊢
    exact created e hcr
  case inj => exact hinj
  case ord => rw [← hk'] at hord; rw [← hk']; exact hord
  case place =>
    intro e a b c
    by_cases hne : e = s.heap.top
    · exact Or.inr (Or.inr ((hhas e).2 (hne ▸ htop)))
    · simp only [St.setEnt, hent e hne] at a b c
      rcases place e a b c with g | g | g
      · exact Or.inl g
      · rw [hc] at g; simp at g
      · exact Or.inr (Or.inr ((hhas e).2 g))
  case e1 => intro p e hm; have := e1 p e hm; rw [← hq p e hm, ← hk'] at this; exact this
  case e2 =>
    intro p
    rcases e2 p with g | ⟨e, hm, g⟩
    · exact Or.inl g
    · rw [← hq p e hm, ← hk'] at g; exact Or.inr ⟨e, hm, g⟩
  case cov =>
    intro p e hm
    have := cov p e hm
    rw [hr p, ← hq p e hm, ← hk'] at this
    rcases this with g | g | g
    · exact Or.inl g
    · simp at g
    · exact Or.inr (Or.inr g)
  case tgt => intro p e hi hm; have := tgt p e hi hm; rw [← hq p e hm, ← hk'] at this; exact this
  case stale =>
    intro p e hi hg hm
    have := stale p e hi hg hm
    rw [hr p, ← hq p e hm, ← hk'] at this
    rcases this with g | g
    · exact Or.inl g
    · simp at g
  case wl => intro t h; simp at h
  case wt => intro t r h; simp at h
  case sl => intro h; simp [WPc.sleepy] at h
  case asl => intro x d h; simp at h
  case cur => intro e h; simp [WPc.cur] at h
  case nocb => intro e h; simp [WPc.calls] at h
  all_goals assumption

theorem Inv.reset {s : St} (h : Inv s) (hp : s.pc = .reset) : Inv { s with pc := .reap 0, next := inf } := by
  obtain ⟨qq, qn, qc, qh, cn, ch, qe, ce, he, created, inj, ord, place, e1, e2, ni, cov, tgt, stale, wl, wt, sl, asl, cur, nocb⟩ := h
  obtain ⟨np, clock, stopped, next, notified, ent, q, earliest, heap, pc, c⟩ := s
  simp only at hp
  subst hp
  constructor
  case ni => exact Nat.le_refl _
  case cov => intro p e hm; right; left; simp [WPc.reaps]
  case stale => intro p e hi hg hm; right; simp [WPc.reaps]
  all_goals first | assumption | nofun

theorem Inv.reap {s : St} (h : Inv s) (p : Nat) (hp : s.pc = .reap p) :
    Inv { s with pc := .collect p (s.q p), q := upd s.q p [], earliest := upd s.earliest p inf } := by
  obtain ⟨qq, qn, qc, qh, cn, ch, qe, ce, he, created, inj, ord, place, e1, e2, ni, cov, tgt, stale, wl, wt, sl, asl, cur, nocb⟩ := h
  obtain ⟨np, clock, stopped, next, notified, ent, q, earliest, heap, pc, c⟩ := s
  simp only at hp
  subst hp
  have hm : ∀ p' e, e ∈ upd q p [] p' ↔ e ∈ q p' ∧ p' ≠ p := by
    intro p' e; simp only [upd]; by_cases hpp : p' = p <;> simp [hpp]
  constructor <;> (try simp only [hm])
  case qq => intro a b e h1 h2; exact qq a b e h1.1 h2.1
  case qn => intro a; simp only [upd]; split; simp; exact qn a
  case qc => intro a e h1 h2; exact h1.2 (qq a p e h1.1 h2)
  case qh => intro a e h1; exact qh a e h1.1
  case cn => exact qn p
  case ch => intro e he; exact qh p e he
  case qe => intro a e h1; exact qe a e h1.1
  case ce => intro e h1; exact (qe p e h1).1
  case place =>
    intro e a b c
    rcases place e a b c with ⟨p', g⟩ | g | g
    · by_cases hpp : p' = p
      · subst hpp; exact Or.inr (Or.inl g)
      · exact Or.inl ⟨p', g, hpp⟩
    · simp [WPc.coll] at g
    · exact Or.inr (Or.inr g)
  case e1 => intro a e h1; simp only [upd]; rw [if_neg h1.2]; exact e1 a e h1.1
  case e2 =>
    intro a
    simp only [upd]
    split
    · exact Or.inl rfl
    · next hne =>
      rcases e2 a with g | ⟨e, g1, g2⟩
      · exact Or.inl g
      · exact Or.inr ⟨e, ⟨g1, hne⟩, g2⟩
  case cov =>
    intro a e h1
    rcases cov a e h1.1 with g | g | g
    · exact Or.inl g
    · right; left; simp only [WPc.reaps, decide_eq_true_eq] at g ⊢; omega
    · exact Or.inr (Or.inr g)
  case tgt => intro a e hi h1; exact tgt a e hi h1.1
  case stale =>
    intro a e hi hg h1
    rcases stale a e hi hg h1.1 with g | g
    · exact Or.inl g
    · right; simp only [WPc.reaps, decide_eq_true_eq] at g ⊢; omega
  all_goals first | assumption | nofun

theorem Inv.collectDrop {s : St} (h : Inv s) (p e : Nat) (t : List Nat) (hp : s.pc = .collect p (e :: t))
    (hc : (s.ent e).cancelled = true) : Inv { s with pc := .collect p t } := by
  obtain ⟨qq, qn, qc, qh, cn, ch, qe, ce, he, created, inj, ord, place, e1, e2, ni, cov, tgt, stale, wl, wt, sl, asl, cur, nocb⟩ := h
  obtain ⟨np, clock, stopped, next, notified, ent, q, earliest, heap, pc, c⟩ := s
  simp only at hp
  subst hp
  simp only [WPc.coll, List.mem_cons, List.nodup_cons] at qc cn ch ce place
  constructor <;> (try simp only [WPc.coll])
  case qc => intro a b h1 h2; exact qc a b h1 (Or.inr h2)
  case cn => exact cn.2
  case ch => intro a h1; exact ch a (Or.inr h1)
  case ce => intro a h1; exact ce a (Or.inr h1)
  case place =>
    intro e' a b c
    rcases place e' a b c with g | (g | g) | g
    · exact Or.inl g
    · subst g; simp_all
    · exact Or.inr (Or.inl g)
    · exact Or.inr (Or.inr g)
  all_goals first | assumption | nofun

theorem Inv.collectPush {s : St} (h : Inv s) (p e : Nat) (t : List Nat) (hp : s.pc = .collect p (e :: t)) :
    Inv { s with pc := .collect p t, heap := s.heap.push s.key e } := by
  obtain ⟨qq, qn, qc, qh, cn, ch, qe, ce, he, created, inj, ord, place, e1, e2, ni, cov, tgt, stale, wl, wt, sl, asl, cur, nocb⟩ := h
  obtain ⟨np, clock, stopped, next, notified, ent, q, earliest, heap, pc, c⟩ := s
  simp only at hp
  subst hp
  simp only [WPc.coll, List.mem_cons, List.nodup_cons] at qc cn ch ce place
  constructor <;> (try simp only [WPc.coll, Heap.push_has])
  case qc => intro a b h1 h2; exact qc a b h1 (Or.inr h2)
  case qh =>
    rintro a b h1 (h2 | rfl)
    · exact qh a b h1 h2
    · exact qc a b h1 (Or.inl rfl)
  case cn => exact cn.2
  case ch =>
    rintro a h1 (h2 | rfl)
    · exact ch a (Or.inr h1) h2
    · exact cn.1 h1
  case ce => intro a h1; exact ce a (Or.inr h1)
  case he =>
    rintro a (h1 | rfl)
    · exact he a h1
    · exact ce a (Or.inl rfl)
  case inj => exact Heap.push_inj inj (ch e (Or.inl rfl))
  case ord => exact Heap.push_ord ord (Or.inl rfl)
  case place =>
    intro e' a b c
    rcases place e' a b c with g | (g | g) | g
    · exact Or.inl g
    · exact Or.inr (Or.inr (Or.inr g))
    · exact Or.inr (Or.inl g)
    · exact Or.inr (Or.inr (Or.inl g))
  all_goals first | assumption | nofun

/-- The timer thread puts the time it will wait for in `next_expires_at_`. -/
theorem Inv.lower {s : St} (h : Inv s) (t r : Nat) (hp : s.pc = .try t r) (hlt : t < s.next) :
    Inv { s with pc := .toSleep, next := t } := by
  obtain ⟨qq, qn, qc, qh, cn, ch, qe, ce, he, created, inj, ord, place, e1, e2, ni, cov, tgt, stale, wl, wt, sl, asl, cur, nocb⟩ := h
  obtain ⟨np, clock, stopped, next, notified, ent, q, earliest, heap, pc, c⟩ := s
  simp only at hp hlt
  subst hp
  constructor
  case ni => simp only at ni ⊢; omega
  case cov =>
    intro p e hm
    rcases cov p e hm with g | g | g
    · left; exact Nat.le_trans (Nat.le_of_lt hlt) g
    · simp [WPc.reaps] at g
    · exact Or.inr (Or.inr g)
  case stale =>
    intro p e hi hg hm
    rcases stale p e hi hg hm with g | g
    · left; exact Nat.le_trans (Nat.le_of_lt hlt) g
    · simp [WPc.reaps] at g
  case sl => intro _; right; exact Nat.le_of_eq (wt t r rfl).2.1
  all_goals first | assumption | nofun

theorem Inv.worker {s : St} (h : Inv s) (weak : Bool) : Inv (workerStep s weak).1 := by
  unfold workerStep
  split
  · next hp =>
    refine h.goto _ s.notified ?_ ?_ ?_ ?_ ?_ ?_ ?_ ?_ <;> cases s.stopped <;> simp [St.goto, hp, WPc.coll, WPc.reaps, WPc.sleepy, WPc.cur, WPc.calls]
  · next hp => exact h.reset hp
  · next p hp =>
    split
    · exact h.reap p hp
    · refine h.goto _ s.notified ?_ ?_ ?_ ?_ ?_ ?_ ?_ ?_ <;> simp [St.goto, hp, WPc.coll, WPc.reaps, WPc.sleepy, WPc.cur, WPc.calls]
      omega
  · next p hp =>
    refine h.goto _ s.notified ?_ ?_ ?_ ?_ ?_ ?_ ?_ ?_ <;> simp [St.goto, hp, WPc.coll, WPc.reaps, WPc.sleepy, WPc.cur, WPc.calls]
    omega
  · next p e t hp =>
    split
    · next hc => exact h.collectDrop p e t hp hc
    · exact h.collectPush p e t hp
  · next hp =>
    refine h.goto _ s.notified ?_ ?_ ?_ ?_ ?_ ?_ ?_ ?_ <;> simp [St.goto, hp, WPc.coll, WPc.reaps, WPc.sleepy, WPc.cur, WPc.calls]
  · next now hp =>
    split
    · refine h.goto _ s.notified ?_ ?_ ?_ ?_ ?_ ?_ ?_ ?_ <;> simp [St.goto, hp, WPc.coll, WPc.reaps, WPc.sleepy, WPc.cur, WPc.calls]
    · next hn =>
      split
      · next hc =>
        have := h.popTo now (by omega) (by simp [hp, WPc.coll]) (by simp [hp, WPc.reaps]) (Or.inl hc)
        rw [← hp] at this
        exact this
      · split
        · refine h.goto _ s.notified ?_ ?_ ?_ ?_ ?_ ?_ ?_ ?_ <;> simp [St.goto, hp, WPc.coll, WPc.reaps, WPc.sleepy, WPc.cur, WPc.calls]
        · refine h.goto _ s.notified ?_ ?_ ?_ ?_ ?_ ?_ ?_ ?_ <;> simp [St.goto, hp, WPc.coll, WPc.reaps, WPc.sleepy, WPc.cur, WPc.calls]
          omega
  · next now e hp =>
    obtain ⟨g1, g2⟩ := h.cur e (by simp [hp, WPc.cur])
    split
    · next hcb =>
      have h' := h.ent e { s.ent e with cb := false } rfl rfl rfl rfl (Or.inr rfl) (by simp) (fun hc => ⟨(h.created e hc).2.1, rfl⟩)
      refine h'.goto _ s.notified ?_ ?_ ?_ ?_ ?_ ?_ ?_ ?_ <;>
        simp [St.setEnt, St.goto, hp, WPc.coll, WPc.reaps, WPc.sleepy, WPc.cur, WPc.calls, g1, g2]
    · next hcb =>
      split
      · refine h.goto _ s.notified ?_ ?_ ?_ ?_ ?_ ?_ ?_ ?_ <;> simp [St.goto, hp, WPc.coll, WPc.reaps, WPc.sleepy, WPc.cur, WPc.calls, g1, g2]
      · next hi =>
        exact h.popTo now g1 (by simp [hp, WPc.coll]) (by simp [hp, WPc.reaps]) (Or.inr (by simp_all))
  · next now e hp =>
    obtain ⟨g1, g2⟩ := h.cur e (by simp [hp, WPc.cur])
    have g3 := h.nocb e (by simp [hp, WPc.calls])
    split
    · refine h.goto _ s.notified ?_ ?_ ?_ ?_ ?_ ?_ ?_ ?_ <;> simp [St.goto, hp, WPc.coll, WPc.reaps, WPc.sleepy, WPc.cur, WPc.calls, g1, g2, g3]
    · next hi => exact h.popTo now g1 (by simp [hp, WPc.coll]) (by simp [hp, WPc.reaps]) (Or.inr (by simp_all))
  · next now e hp =>
    obtain ⟨g1, g2⟩ := h.cur e (by simp [hp, WPc.cur])
    split
    · next hc => exact h.popTo now g1 (by simp [hp, WPc.coll]) (by simp [hp, WPc.reaps]) (Or.inl (by rw [g2]; exact hc))
    · subst g2
      exact h.again now g1 (by simp [hp, WPc.coll]) (by simp [hp, WPc.reaps]) _ rfl rfl rfl
  · next now e hp =>
    obtain ⟨g1, g2⟩ := h.cur e (by simp [hp, WPc.cur])
    split
    · next hc => exact h.popTo now g1 (by simp [hp, WPc.coll]) (by simp [hp, WPc.reaps]) (Or.inl (by rw [g2]; exact hc))
    · refine h.goto _ s.notified ?_ ?_ ?_ ?_ ?_ ?_ ?_ ?_ <;> simp [St.goto, hp, WPc.coll, WPc.reaps, WPc.sleepy, WPc.cur, WPc.calls]
  · next hp =>
    refine h.goto _ s.notified ?_ ?_ ?_ ?_ ?_ ?_ ?_ ?_ <;> split <;> simp_all [St.goto, WPc.coll, WPc.reaps, WPc.sleepy, WPc.cur, WPc.calls]
    omega
  · next t hp =>
    have := h.wl t hp
    refine h.goto _ s.notified ?_ ?_ ?_ ?_ ?_ ?_ ?_ ?_ <;> simp [St.goto, hp, WPc.coll, WPc.reaps, WPc.sleepy, WPc.cur, WPc.calls, this.1, this.2]
  · next t r hp =>
    obtain ⟨g1, g2, g3⟩ := h.wt t r hp
    split
    · next hr =>
      refine h.goto _ s.notified ?_ ?_ ?_ ?_ ?_ ?_ ?_ ?_ <;> simp [St.goto, hp, WPc.coll, WPc.reaps, WPc.sleepy, WPc.cur, WPc.calls]
      right; omega
    · next hr =>
      split
      · next hn => exact h.lower t r hp (by omega)
      · refine h.goto _ s.notified ?_ ?_ ?_ ?_ ?_ ?_ ?_ ?_ <;> simp [St.goto, hp, WPc.coll, WPc.reaps, WPc.sleepy, WPc.cur, WPc.calls, g1, g2]
  · next hp =>
    have hsl := h.sl (by simp [hp, WPc.sleepy])
    split
    · refine h.goto _ s.notified ?_ ?_ ?_ ?_ ?_ ?_ ?_ ?_ <;> simp [St.goto, hp, WPc.coll, WPc.reaps, WPc.sleepy, WPc.cur, WPc.calls]
    · next hst =>
      refine h.goto _ false ?_ ?_ ?_ ?_ ?_ ?_ ?_ ?_ <;> simp [St.goto, hp, WPc.coll, WPc.reaps, WPc.sleepy, WPc.cur, WPc.calls]
      · exact hsl
      · grind
  · next x d hp =>
    have hsl := h.sl (by simp [hp, WPc.sleepy])
    have hasl := h.asl x d hp
    split
    · refine h.goto _ s.notified ?_ ?_ ?_ ?_ ?_ ?_ ?_ ?_ <;> simp [St.goto, hp, WPc.coll, WPc.reaps, WPc.sleepy, WPc.cur, WPc.calls]
    · have h' := h.goto s.pc false rfl (by simp) h.wl h.wt h.sl (by intro x' d' hx; grind) h.cur h.nocb
      exact h'
  · exact h

theorem Inv.step {s : St} (h : Inv s) (a : Act) : Inv (Timer.step s a).1 := by
  cases a with
  | tick d => exact h.clock _
  | create e t i =>
    simp only [Timer.step]
    split
    · exact h
    · next hc => exact h.create e t i (by simp at hc; exact hc.1)
  | enable p e =>
    simp only [Timer.step]
    split
    · next hc => exact h.enable p e hc.1 hc.2.1 hc.2.2.1 hc.2.2.2.1
    · exact h
  | remove e =>
    simp only [Timer.step]
    split
    · next hc => exact h.ent e _ rfl rfl rfl rfl (Or.inl rfl) (by simp) (by simp [hc.1])
    · exact h
  | stop => exact h.stop
  | client p weak => exact h.client p weak
  | worker weak => exact h.worker weak

end Verif.Fiber.Timer
