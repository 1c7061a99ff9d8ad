import Verif.Transport.WheelProofs

/-!
# The timeout queue: properties
-/

namespace Verif.Transport.Wheel

/-- The key an event is about. -/
def Ev.key : Ev → Nat
  | .push k _ _ _ _ => k
  | .pop k _ => k
  | .fire k _ _ => k

theorem live_split {l : List Ev} {k m t : Nat} (h : live l k = some (m, t)) :
    ∃ l1 expire last busy l2, l = l1 ++ .push k m expire last busy :: l2 ∧ (∀ e ∈ l2, e.key ≠ k) ∧ t = aim last expire busy := by
  suffices ∀ r : List Ev, live r.reverse k = some (m, t) →
      ∃ l1 expire last busy l2, r.reverse = l1 ++ .push k m expire last busy :: l2 ∧ (∀ e ∈ l2, e.key ≠ k) ∧ t = aim last expire busy by
    have := this l.reverse (by simpa using h)
    simpa using this
  intro r
  induction r with
  | nil => intro h; simp [live] at h
  | cons e r ih =>
    intro h
    rw [List.reverse_cons, live_snoc] at h
    have skip : e.key ≠ k → live r.reverse k = some (m, t) →
        ∃ l1 expire last busy l2, (e :: r).reverse = l1 ++ .push k m expire last busy :: l2 ∧ (∀ e ∈ l2, e.key ≠ k) ∧ t = aim last expire busy := by
      intro hk hl
      obtain ⟨l1, ex, la, bu, l2, h1, h2, h3⟩ := ih hl
      refine ⟨l1, ex, la, bu, l2 ++ [e], by simp [h1], ?_, h3⟩
      intro e' he'
      rcases List.mem_append.1 he' with he' | he'
      · exact h2 e' he'
      · rw [List.mem_singleton.1 he']; exact hk
    cases e with
    | push key msg expire last busy =>
      simp only [after] at h
      by_cases hk : k = key
      · rw [if_pos hk] at h
        simp only [Option.some.injEq, Prod.mk.injEq] at h
        obtain ⟨rfl, rfl⟩ := h
        subst hk
        exact ⟨r.reverse, expire, last, busy, [], by simp, by simp, rfl⟩
      · rw [if_neg hk] at h
        exact skip (fun he => hk he.symm) h
    | pop key msg =>
      simp only [after] at h
      by_cases hk : k = key
      · rw [if_pos hk] at h; cases h
      · rw [if_neg hk] at h
        exact skip (fun he => hk he.symm) h
    | fire key msg time =>
      simp only [after] at h
      by_cases hk : k = key
      · rw [if_pos hk] at h; cases h
      · rw [if_neg hk] at h
        exact skip (fun he => hk he.symm) h

/-- A time that the wheel can hold, at least `last`; from a handler: after `last`. -/
def InRange (last expire : Nat) (busy : Bool) : Prop := last ≤ expire ∧ expire < last + 2 ^ 31 ∧ (busy = true → last < expire)

theorem aim_inRange {last expire : Nat} {busy : Bool} (h : InRange last expire busy) : aim last expire busy = expire := by
  obtain ⟨h1, h2, h3⟩ := h
  have hd : (expire : Int) - last = toInt ((expire : Int) - last) := toInt_same (by simp) (by omega) (by omega)
  unfold aim
  dsimp only
  rw [← hd]
  cases busy
  · simp; omega
  · have := h3 rfl
    rw [if_neg (by simp; omega)]
    omega

/-- **C92a.** A timeout handler is called for a request that was pushed before and neither popped nor timed out since, with the message that was pushed; and it is called in the round of
the millisecond of its expire time. -/
theorem C92_fires {now : Nat} {q : Q} (h : Reach now q) {l1 l2 : List Ev} {k m T : Nat} (hl : q.log = l1 ++ .fire k m T :: l2) :
    ∃ l0 expire last busy l, l1 = l0 ++ .push k m expire last busy :: l ∧ (∀ e ∈ l, e.key ≠ k) ∧ (InRange last expire busy → T = expire) := by
  have := h.inv.1.fits l1 _ l2 hl
  obtain ⟨l0, ex, la, bu, l, h1, h2, h3⟩ := live_split this
  exact ⟨l0, ex, la, bu, l, h1, h2, fun hr => by rw [h3, aim_inRange hr]⟩

theorem Inv.later {q : Q} (h : Inv q) (hb : q.busy = false) {k m t : Nat} (hl : live q.log k = some (m, t)) : q.last ≤ t := by
  cases hm : q.map k with
  | none => rw [h.free k hm] at hl; cases hl
  | some p =>
    obtain ⟨n, hn, rfl, -⟩ := h.has k p.1 p.2 hm
    obtain ⟨m', -, h2⟩ := h.own n hn
    rw [h2] at hl
    simp only [Option.some.injEq, Prod.mk.injEq] at hl
    obtain ⟨-, rfl⟩ := hl
    simp only [Q.all, h.idle hb, List.append_nil, Q.held, List.mem_map] at hn
    obtain ⟨x, hx, rfl⟩ := hn
    obtain ⟨-, -, h3, -⟩ := h.filed x hx
    have := Nat.mul_div_le x.2.2.t (low x.1)
    simp only [Q.cur, hb] at h3
    have h3 : q.last ≤ low x.1 * (x.2.2.t / low x.1) := by simpa using h3
    omega

theorem live_quiet {l1 l2 : List Ev} {k m expire last : Nat} {busy : Bool} (hq : ∀ e ∈ l2, e.key ≠ k) :
    live (l1 ++ .push k m expire last busy :: l2) k = some (m, aim last expire busy) := by
  suffices ∀ r : List Ev, (∀ e ∈ r, e.key ≠ k) → live (l1 ++ .push k m expire last busy :: r.reverse) k = some (m, aim last expire busy) by
    have := this l2.reverse (by simpa using hq)
    simpa using this
  intro r
  induction r with
  | nil => intro _; rw [show l1 ++ Ev.push k m expire last busy :: ([] : List Ev).reverse = l1 ++ [Ev.push k m expire last busy] from rfl, live_snoc]; simp [after]
  | cons e r ih =>
    intro hr
    rw [List.reverse_cons, ← List.cons_append, ← List.append_assoc, live_snoc]
    have hk := hr e (by simp)
    have := ih (fun e' he' => hr e' (by simp [he']))
    cases e <;> simp only [Ev.key] at hk <;> simp only [after, if_neg (Ne.symm hk)] <;> exact this

/-- **C92b.** When `DoTimeout(now)` has returned, every request in the queue whose time is in range expires after `now`: none was missed. -/
theorem C92_none_missed {start now : Nat} {q q' : Q} {H : Handler} (h : Reach start q) (hd : q.doTimeout H now = some q')
    {l1 l2 : List Ev} {k m expire last : Nat} {busy : Bool} (hl : q'.log = l1 ++ .push k m expire last busy :: l2)
    (hq : ∀ e ∈ l2, e.key ≠ k) (hr : InRange last expire busy) : now < expire := by
  obtain ⟨hi, hb⟩ := h.inv
  obtain ⟨h1, h2, h3⟩ := hi.ticks hb hd
  have hlive := live_quiet (l1 := l1) (l2 := l2) (k := k) (m := m) (expire := expire) (last := last) (busy := busy) hq
  rw [← hl, aim_inRange hr] at hlive
  have := h1.later h2 hlive
  omega

/-- **C92c.** What a lookup finds is what was pushed last and neither popped nor timed out since; it finds nothing else. -/
theorem C92_found {now : Nat} {q : Q} (h : Reach now q) (k m : Nat) :
    (∃ i, q.map k = some (m, i)) ↔
      ∃ l1 expire last busy l2, q.log = l1 ++ .push k m expire last busy :: l2 ∧ ∀ e ∈ l2, e.key ≠ k := by
  obtain ⟨hi, -⟩ := h.inv
  constructor
  · rintro ⟨i, hm⟩
    obtain ⟨n, hn, rfl, rfl⟩ := hi.has k m i hm
    obtain ⟨m', h1, h2⟩ := hi.own n hn
    rw [hm] at h1
    simp only [Option.some.injEq, Prod.mk.injEq, and_true] at h1
    subst h1
    obtain ⟨l1, ex, la, bu, l2, h1, h2, -⟩ := live_split h2
    exact ⟨l1, ex, la, bu, l2, h1, h2⟩
  · rintro ⟨l1, ex, la, bu, l2, h1, h2⟩
    have hlive := live_quiet (l1 := l1) (l2 := l2) (k := k) (m := m) (expire := ex) (last := la) (busy := bu) h2
    rw [← h1] at hlive
    cases hm : q.map k with
    | none => rw [hi.free k hm] at hlive; cases hlive
    | some p =>
      obtain ⟨n, hn, rfl, -⟩ := hi.has k p.1 p.2 hm
      obtain ⟨m', h3, h4⟩ := hi.own n hn
      rw [hm] at h3
      rw [hlive] at h4
      simp only [Option.some.injEq, Prod.mk.injEq] at h4
      obtain ⟨rfl, -⟩ := h4
      exact ⟨_, h3⟩

/-- **C92d.** `Pop` of a key gives the message that was pushed last for it, and the request will not time out any more: the next event for the key is a new push. -/
theorem C92_popped {now : Nat} {q : Q} (h : Reach now q) {l1 l2 : List Ev} {k m : Nat} (hl : q.log = l1 ++ .pop k m :: l2) :
    (∃ l0 expire last busy l, l1 = l0 ++ .push k m expire last busy :: l ∧ ∀ e ∈ l, e.key ≠ k) ∧
      ∀ l3 e l4, l2 = l3 ++ e :: l4 → (∀ e' ∈ l3, e'.key ≠ k) → e.key = k → ∃ m' expire last busy, e = .push k m' expire last busy := by
  obtain ⟨t, ht⟩ := h.inv.1.fits l1 _ l2 hl
  obtain ⟨l0, ex, la, bu, l, h1, h2, -⟩ := live_split ht
  refine ⟨⟨l0, ex, la, bu, l, h1, h2⟩, ?_⟩
  intro l3 e l4 hl2 hq he
  have hr := h.inv.1.fits (l1 ++ .pop k m :: l3) e l4 (by rw [hl, hl2]; simp)
  have hnone : ∀ r : List Ev, (∀ e ∈ r, e.key ≠ k) → live (l1 ++ .pop k m :: r.reverse) k = none := by
    intro r
    induction r with
    | nil => intro _; rw [show l1 ++ Ev.pop k m :: ([] : List Ev).reverse = l1 ++ [Ev.pop k m] from rfl, live_snoc]; simp [after]
    | cons e r ih =>
      intro hr
      rw [List.reverse_cons, ← List.cons_append, ← List.append_assoc, live_snoc]
      have hk := hr e (by simp)
      have := ih (fun e' he' => hr e' (by simp [he']))
      cases e <;> simp only [Ev.key] at hk <;> simp only [after, if_neg (Ne.symm hk)] <;> exact this
  have hn := hnone l3.reverse (by simpa using hq)
  rw [List.reverse_reverse] at hn
  cases e with
  | push k' m' ex la bu =>
    simp only [Ev.key] at he
    subst he
    exact ⟨m', ex, la, bu, rfl⟩
  | pop k' m' =>
    simp only [Ev.key] at he
    subst he
    obtain ⟨t, ht⟩ := hr
    rw [hn] at ht; cases ht
  | fire k' m' T =>
    simp only [Ev.key] at he
    subst he
    simp only [Right, hn] at hr
    cases hr

/-- **C92e.** `Pop` outside a handler is safe, and so is `DoTimeout` with handlers that only push. -/
theorem C92_safe {now : Nat} {q : Q} (h : Reach now q) :
    (∀ k, q.pop k ≠ none) ∧ ∀ (H : Handler), (∀ q k m, ∀ o ∈ H q k m, ∃ k' m' e, o = .push k' m' e) → ∀ t, q.doTimeout H t ≠ none := by
  obtain ⟨hi, hb⟩ := h.inv
  constructor
  · intro k hp
    unfold Q.pop at hp
    split at hp
    · cases hp
    · rename_i nid _
      unfold Q.delete at hp
      rw [hi.idle hb] at hp
      simp at hp
  · intro H hH t
    have hops : ∀ (os : List Op) (q : Q), (∀ o ∈ os, ∃ k' m' e, o = Op.push k' m' e) → q.ops os ≠ none := by
      intro os
      induction os with
      | nil => intro q _; simp [Q.ops]
      | cons o os ih =>
        intro q ho
        obtain ⟨k', m', e, rfl⟩ := ho o (by simp)
        exact ih _ fun o ho' => ho o (by simp [ho'])
    have hrun : ∀ fuel (q : Q), Inv q → q.runList H fuel ≠ none := by
      intro fuel
      induction fuel with
      | zero => intro q _; simp [Q.runList]
      | succ fuel ih =>
        intro q hi hn
        unfold Q.runList at hn
        split at hn
        · cases hn
        · rename_i n rest hr
          obtain ⟨m, hm, -⟩ := hi.own n (by simp [Q.all, hr])
          split at hn
          · rename_i hf
            unfold Q.fire at hf
            split at hf
            · rename_i hm'
              dsimp only at hm'
              rw [hm] at hm'; cases hm'
            · exact hops _ _ (hH _ _ _) hf
          · rename_i q1 hq1
            unfold Q.fire at hq1
            split at hq1
            · cases hq1
            · rename_i hm'
              exact ih q1 ((hi.taken hr hm').ops hq1).1 hn
    have htk : ∀ n (q : Q), Inv q → q.busy = false → q.ticks H n ≠ none := by
      intro n
      induction n with
      | zero => intro q _ _; simp [Q.ticks]
      | succ n ih =>
        intro q hi hb hn
        unfold Q.ticks at hn
        split at hn
        · rename_i ht
          rw [tick_eq] at ht
          split at ht
          · rename_i hr
            exact hrun _ _ (hi.detach hb) hr
          · cases ht
        · rename_i q1 hq1
          obtain ⟨h1, h2, -⟩ := hi.tick hb hq1
          exact ih q1 h1 h2 hn
    exact htk _ q hi hb

/-! ## Not the case -/

/-- **C93 (partial).** A request with a timeout of 2^31 ms or more, below 2^32, is filed for the present: the wheel converts the difference to `int`. In the run below the request of 24.9 days
times out in the first round, in the millisecond of its push. -/
theorem C93_far_partial :
    (∀ last expire busy, last + 2 ^ 31 ≤ expire → expire < last + 2 ^ 32 → busy = false → aim last expire busy = last) ∧
    ∃ q, Reach 1000 q ∧ q.log = [.push 7 8 (1000 + 2 ^ 31) 1000 false, .fire 7 8 1000] := by
  constructor
  · intro last expire busy h1 h2 hb
    subst hb
    unfold aim toInt
    simp only [Bool.false_and, Bool.false_eq_true, if_false]
    split <;> omega
  · refine ⟨_, (Reach.init.step (.push 7 8 (1000 + 2 ^ 31)) rfl).step (.timeout (fun _ _ _ => []) 1000) rfl, rfl⟩

/-- **C93 (partial).** A request that a handler pushes with a time that has come waits for a whole turn of the first level: 1024 ms. -/
theorem C93_late_partial :
    (∀ last expire, expire ≤ last → last ≤ expire + 2 ^ 31 → aim last expire true = last + 1024) ∧
    ∃ q, Reach 0 q ∧ q.last = 1030 ∧ q.log = [.push 1 1 5 0 false, .fire 1 1 5, .push 2 2 5 5 true, .fire 2 2 1029] := by
  constructor
  · intro last expire h1 h2
    have : toInt ((expire : Int) - last) ≤ 0 := by
      unfold toInt
      split <;> omega
    unfold aim
    simp [this]
  · have h : Reach 0 ((Q.fresh 0).push 1 1 5).1 := Reach.init.step (.push 1 1 5) rfl
    have hd : (((Q.fresh 0).push 1 1 5).1.doTimeout (fun _ k _ => if k = 1 then [.push 2 2 5] else []) 1029).map (fun q => (q.last, q.log)) =
        some (1030, [.push 1 1 5 0 false, .fire 1 1 5, .push 2 2 5 5 true, .fire 2 2 1029]) := by decide +kernel
    rw [Option.map_eq_some_iff] at hd
    obtain ⟨q, hq, he⟩ := hd
    simp only [Prod.mk.injEq] at he
    exact ⟨q, h.step (.timeout _ 1029) hq, he.1, he.2⟩

/-- **C93 (partial).** A handler that pops the request which is next in the list makes the loop go on with a freed node. -/
theorem C93_pop_partial :
    ∃ q, Reach 0 q ∧ q.doTimeout (fun _ k _ => if k = 1 then [.pop 2] else []) 5 = none := by
  refine ⟨_, (Reach.init.step (.push 1 1 5) rfl).step (.push 2 2 5) rfl, rfl⟩

/-! ## Examples -/

/-- Requests of all levels, in one queue: each fires in its millisecond, or is still there. -/
example : ∃ q, Reach 0 q ∧ q.log = [.push 1 11 3 0 false, .push 2 12 1500 0 false, .push 3 13 70000 0 false, .pop 3 13, .fire 1 11 3, .fire 2 12 1500] ∧
    (q.map 4).isNone ∧ q.last = 1600 := by
  have h := (((Reach.init (now := 0)).step (.push 1 11 3) rfl).step (.push 2 12 1500) rfl).step (.push 3 13 70000) rfl
  have h := h.step (.pop 3) rfl
  have hd : ((((((Q.fresh 0).push 1 11 3).1.push 2 12 1500).1.push 3 13 70000).1.pop 3).bind fun r => (r.1.doTimeout (fun _ _ _ => []) 1599).map fun q => (q.log, q.map 4, q.last)) =
      some ([.push 1 11 3 0 false, .push 2 12 1500 0 false, .push 3 13 70000 0 false, .pop 3 13, .fire 1 11 3, .fire 2 12 1500], none, 1600) := by
    decide +kernel
  rw [show ((((Q.fresh 0).push 1 11 3).1.push 2 12 1500).1.push 3 13 70000).1.pop 3 = some _ from rfl, Option.bind_some, Option.map_eq_some_iff] at hd
  obtain ⟨q, hq, he⟩ := hd
  simp only [Prod.mk.injEq] at he
  exact ⟨q, h.step (.timeout _ 1599) hq, he.1, by simp [he.2.1], he.2.2⟩

end Verif.Transport.Wheel
