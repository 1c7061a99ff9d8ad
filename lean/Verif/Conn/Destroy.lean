import Verif.Conn.WritesProofs

/-!
# The end of a list of messages

`~WritingBufferList` and `Stop` (/repo/trpc/runtime/iomodel/reactor/fiber/writing_buffer_list.cc:41-74), when nobody else uses the list. The empty node of `Stop`
is a message of nobody (`by_` is 0).
-/

namespace Verif.Conn

/-- `Stop` (lines 67-74) and `Append` of an empty buffer in it (lines 193-225); `inFiber`: `IsFiberContextPresent`. -/
def State.stop (s : State) (inFiber : Bool) : Res :=
  if inFiber then
    let n := s.nodes.length
    let s' : State := { s with nodes := s.nodes ++ [⟨0, [], 0, none, true⟩], tail := some n }
    match s.tail with
    | none => .ok { s' with head := some n }
    | some p => match s'.node? p with
      | none => .fail
      | some nd => if nd.next ≠ none then .fail else .ok { s' with nodes := s'.nodes.modify p fun nd => { nd with next := some n } }
  else .ok s

/-- The loop of lines 48-64. A node is freed when `ptr` gets the next one. -/
def State.freeFrom (s : State) : Nat → Nat → Res
  | 0, _ => .blocked
  | k + 1, cur => match s.node? cur with
    | none => .fail
    | some nd => match nd.next with
      | some nx => (s.free cur).freeFrom k nx
      | none => if s.tail = some cur then .ok (({ s with tail := none } : State).free cur) else .fail

/-- `~WritingBufferList` (lines 41-65). -/
def State.destroy (s : State) (inFiber : Bool) : Res :=
  match s.stop inFiber with
  | .ok s => match s.head with
    | none => .ok s
    | some h => s.freeFrom (s.nodes.length + 1) h
  | r => r

/-- Whole lists: the nodes from `a` on are linked, and nothing before is alive. -/
structure Whole (s : State) (a : Nat) : Prop where
  live : ∀ i nd, s.nodes[i]? = some nd → (nd.live = true ↔ a ≤ i)
  next : ∀ i nd, s.nodes[i]? = some nd → a ≤ i → nd.next = if i + 1 < s.nodes.length then some (i + 1) else none
  head : a < s.nodes.length → s.head = some a
  tail : s.tail = if a < s.nodes.length then some (s.nodes.length - 1) else none

theorem Whole.freeFrom {s a k} (h : Whole s a) (ha : a < s.nodes.length) (hk : s.nodes.length - a ≤ k) :
    ∃ s', s.freeFrom k a = .ok s' ∧ s'.nodes.length = s.nodes.length ∧ ∀ nd ∈ s'.nodes, nd.live = false := by
  induction k generalizing s a with
  | zero => omega
  | succ k ih =>
    have hg : s.nodes[a]? = some (s.nodes[a]'ha) := List.getElem?_eq_getElem _
    have hl := (h.live _ _ hg).2 (Nat.le_refl _)
    have hn := h.next _ _ hg (Nat.le_refl _)
    have hnode : s.node? a = some (s.nodes[a]'ha) := by simp [State.node?, hg, hl]
    simp only [State.freeFrom, hnode, hn]
    by_cases hlast : a + 1 < s.nodes.length
    · rw [if_pos hlast]
      have hw : Whole { s.free a with head := some (a + 1) } (a + 1) := by
        refine ⟨?_, ?_, fun _ => rfl, ?_⟩
        · intro i nd hi
          simp only [State.free, List.getElem?_modify] at hi
          cases hx : s.nodes[i]? with
          | none => rw [hx] at hi; simp at hi
          | some nd0 =>
            rw [hx] at hi
            have := h.live i nd0 hx
            by_cases e : a = i
            · subst e; simp at hi; subst hi; simp
            · simp [e] at hi; subst hi; rw [this]; omega
        · intro i nd hi hai
          simp only [State.free, List.getElem?_modify] at hi
          cases hx : s.nodes[i]? with
          | none => rw [hx] at hi; simp at hi
          | some nd0 =>
            rw [hx] at hi
            simp [show a ≠ i by omega] at hi; subst hi
            simpa [State.free] using h.next i nd0 hx (by omega)
        · have := h.tail
          rw [if_pos ha] at this
          simp [State.free, this, hlast]
      have hlen : (s.free a).nodes.length = s.nodes.length := by simp [State.free]
      have hcongr : ∀ k c (t : State), ∀ x, ∃ r : Res → Res, (∀ s, r (.ok s) = .ok { s with head := x }) ∧ r .fail = .fail ∧ r .blocked = .blocked ∧
          ({ t with head := x } : State).freeFrom k c = r (t.freeFrom k c) := by
        intro k c t x
        refine ⟨fun | .ok s => .ok { s with head := x } | r => r, fun _ => rfl, rfl, rfl, ?_⟩
        induction k generalizing c t with
        | zero => rfl
        | succ k ih =>
          simp only [State.freeFrom]
          have : ({ t with head := x } : State).node? c = t.node? c := rfl
          rw [this]
          cases t.node? c with
          | none => rfl
          | some nd =>
            dsimp only
            cases nd.next with
            | none => dsimp only; split <;> rfl
            | some nx => exact ih nx (t.free c)
      obtain ⟨s', h1, h2, h3⟩ := ih hw (by simpa [State.free] using hlast) (by simp [State.free]; omega)
      obtain ⟨r, r1, r2, r3, r4⟩ := hcongr k (a + 1) (s.free a) (some (a + 1))
      rw [r4] at h1
      cases hq : (s.free a).freeFrom k (a + 1) with
      | ok t =>
        rw [hq, r1] at h1
        injection h1 with h1
        subst h1
        exact ⟨t, hq, by rw [← hlen]; exact h2, h3⟩
      | fail => rw [hq, r2] at h1; cases h1
      | blocked => rw [hq, r3] at h1; cases h1
    · rw [if_neg hlast]
      have ht := h.tail
      rw [if_pos ha] at ht
      dsimp only
      rw [if_pos (by rw [ht]; congr 1; omega)]
      refine ⟨_, rfl, by simp [State.free], ?_⟩
      intro nd hnd
      obtain ⟨i, hi⟩ := List.mem_iff_getElem?.1 hnd
      simp only [State.free, List.getElem?_modify] at hi
      cases hx : s.nodes[i]? with
      | none => rw [hx] at hi; simp at hi
      | some nd0 =>
        rw [hx] at hi
        have hil := (List.getElem?_eq_some_iff.1 hx).1
        by_cases e : a = i
        · subst e; simp at hi; subst hi; rfl
        · simp [e] at hi; subst hi
          have := h.live i nd0 hx
          cases hv : nd0.live
          · rfl
          · have := this.1 hv; omega

theorem Whole.stop {s a} (h : Whole s a) (ha : a ≤ s.nodes.length) :
    ∃ s', s.stop true = .ok s' ∧ Whole s' a ∧ s'.nodes.length = s.nodes.length + 1 := by
  unfold State.stop
  rw [if_pos rfl]
  by_cases hlt : a < s.nodes.length
  · have ht := h.tail
    rw [if_pos hlt] at ht
    rw [ht]
    have hg : s.nodes[s.nodes.length - 1]? = some (s.nodes[s.nodes.length - 1]'(by omega)) := List.getElem?_eq_getElem _
    have hl := (h.live _ _ hg).2 (by omega)
    have hn := h.next _ _ hg (by omega)
    rw [if_neg (by omega)] at hn
    have hnode : ({ s with nodes := s.nodes ++ [⟨0, [], 0, none, true⟩], tail := some s.nodes.length } : State).node? (s.nodes.length - 1) =
        some (s.nodes[s.nodes.length - 1]'(by omega)) := by
      simp [State.node?, List.getElem?_append_left (show s.nodes.length - 1 < s.nodes.length by omega), hg, hl]
    dsimp only
    rw [hnode]
    dsimp only
    rw [if_neg (by simp [hn])]
    refine ⟨_, rfl, ⟨?_, ?_, fun _ => h.head hlt, ?_⟩, by simp⟩
    · intro i nd hi
      simp only [List.getElem?_modify] at hi
      by_cases e : i < s.nodes.length
      · rw [List.getElem?_append_left e] at hi
        cases hx : s.nodes[i]? with
        | none => rw [hx] at hi; simp at hi
        | some nd0 =>
          rw [hx] at hi
          have := h.live i nd0 hx
          simp at hi
          rw [← hi]
          split <;> exact this
      · rw [List.getElem?_append_right (by omega)] at hi
        by_cases e2 : i = s.nodes.length
        · subst e2
          simp [show s.nodes.length - 1 ≠ s.nodes.length by omega] at hi
          rw [← hi]
          simp; omega
        · rw [List.getElem?_eq_none (by simp; omega)] at hi; simp at hi
    · intro i nd hi hai
      simp only [List.getElem?_modify] at hi
      by_cases e : i < s.nodes.length
      · rw [List.getElem?_append_left e] at hi
        cases hx : s.nodes[i]? with
        | none => rw [hx] at hi; simp at hi
        | some nd0 =>
          rw [hx] at hi
          have := h.next i nd0 hx hai
          by_cases e2 : s.nodes.length - 1 = i
          · simp [e2] at hi; rw [← hi]; simp [e]; omega
          · simp [e2] at hi; rw [← hi, this, if_pos (by omega)]; simp [e]
      · rw [List.getElem?_append_right (by omega)] at hi
        by_cases e2 : i = s.nodes.length
        · subst e2
          simp [show s.nodes.length - 1 ≠ s.nodes.length by omega] at hi
          rw [← hi]
          simp
        · rw [List.getElem?_eq_none (by simp; omega)] at hi; simp at hi
    · simp; omega
  · have ht := h.tail
    rw [if_neg hlt] at ht
    rw [ht]
    refine ⟨_, rfl, ⟨?_, ?_, ?_, ?_⟩, by simp⟩
    · intro i nd hi
      by_cases e : i < s.nodes.length
      · rw [List.getElem?_append_left e] at hi
        exact h.live i nd hi
      · rw [List.getElem?_append_right (by omega)] at hi
        by_cases e2 : i = s.nodes.length
        · subst e2; simp at hi; rw [← hi]; simp; omega
        · rw [List.getElem?_eq_none (by simp; omega)] at hi; cases hi
    · intro i nd hi hai
      by_cases e : i < s.nodes.length
      · omega
      · rw [List.getElem?_append_right (by omega)] at hi
        by_cases e2 : i = s.nodes.length
        · subst e2; simp at hi; rw [← hi]; simp
        · rw [List.getElem?_eq_none (by simp; omega)] at hi; cases hi
    · intro _
      show some s.nodes.length = some a
      congr 1; omega
    · simp; omega

theorem Reach.whole {l s} (h : Reach l s) (hs : ∀ i, s.senders i = .idle) (hf : s.fiber = .none) :
    ∃ a, Whole s a ∧ a ≤ s.nodes.length ∧ s.done.length = a := by
  obtain ⟨a, o, hi⟩ := h.inv
  have hpc : o.bind s.pc = none := by
    cases hx : o.bind s.pc with
    | none => rfl
    | some f =>
      cases o with
      | none => cases hx
      | some w =>
        have hx : s.pc w = some f := hx
        cases w with
        | sender i => rw [pc_sender, hs] at hx; cases hx
        | event => rw [pc_event, hf] at hx; cases hx
  refine ⟨a, ⟨hi.l.live, ?_, ?_, hi.l.tail⟩, hi.l.le, ?_⟩
  · intro i nd h1 h2
    cases hx : nd.next with
    | none =>
      rw [if_neg]
      intro h3
      obtain ⟨j, hj⟩ := hi.l.miss i nd h1 h2 hx h3
      rw [hs] at hj; cases hj
    | some j =>
      obtain ⟨rfl, h3⟩ := hi.l.next i nd j h1 hx
      rw [if_pos h3]
  · intro hlt
    cases ho : o with
    | none => have := hi.own.1 ho; omega
    | some w =>
      cases w with
      | sender i => exact hi.headS i ho (by rw [hs]; simp) (by rw [hs]; simp)
      | event => exact hi.headE ho (by rw [hf]; simp)
  · have := hi.done
    rw [hpc] at this
    rw [this]; simp [doneN]

/-- All nodes that were ever made are freed. -/
def State.allFreed (s : State) : Prop := ∀ nd ∈ s.nodes, nd.live = false

/-- A list that nobody uses is destroyed in a fiber: each node that is left is freed once, and nothing that is freed is used. -/
theorem C80_destroyed {l s} (h : Reach l s) (hs : ∀ i, s.senders i = .idle) (hf : s.fiber = .none) :
    ∃ s', s.destroy true = .ok s' ∧ s'.nodes.length = (sends l).length + 1 ∧ s'.allFreed := by
  obtain ⟨a, hw, ha, _⟩ := h.whole hs hf
  obtain ⟨s1, h1, h2, h3⟩ := hw.stop ha
  have hlt : a < s1.nodes.length := by omega
  obtain ⟨s2, g1, g2, g3⟩ := h2.freeFrom hlt (k := s1.nodes.length + 1) (by omega)
  refine ⟨s2, ?_, ?_, g3⟩
  · simp only [State.destroy, h1, h2.head hlt, g1]
  · rw [g2, h3, ← h.keys]; simp [keys]

/-- The same in any thread if `Stop` was called in a fiber before, as `OnCleanup` does (fiber_tcp_connection.cc:371). -/
theorem C80_stopped {l s} (h : Reach l s) (hs : ∀ i, s.senders i = .idle) (hf : s.fiber = .none) (inFiber : Bool) :
    ∃ s1 s', s.stop true = .ok s1 ∧ s1.destroy inFiber = .ok s' ∧ s'.allFreed := by
  obtain ⟨a, hw, ha, _⟩ := h.whole hs hf
  obtain ⟨s1, h1, h2, h3⟩ := hw.stop ha
  have hlt : a < s1.nodes.length := by omega
  refine ⟨s1, ?_⟩
  cases inFiber with
  | false =>
    obtain ⟨s2, g1, g2, g3⟩ := h2.freeFrom hlt (k := s1.nodes.length + 1) (by omega)
    exact ⟨s2, h1, by simp [State.destroy, State.stop, h2.head hlt, g1], g3⟩
  | true =>
    obtain ⟨s2, k1, k2, k3⟩ := h2.stop (by omega)
    have hlt2 : a < s2.nodes.length := by omega
    obtain ⟨s3, g1, g2, g3⟩ := k2.freeFrom hlt2 (k := s2.nodes.length + 1) (by omega)
    exact ⟨s3, h1, by simp only [State.destroy, k1, k2.head hlt2, g1], g3⟩

/-- And in any thread if a message is left. -/
theorem C80_left {l s} (h : Reach l s) (hs : ∀ i, s.senders i = .idle) (hf : s.fiber = .none) (hd : s.done.length < (sends l).length) (inFiber : Bool) :
    ∃ s', s.destroy inFiber = .ok s' ∧ s'.allFreed := by
  cases inFiber with
  | true => obtain ⟨s', h1, _, h2⟩ := C80_destroyed h hs hf; exact ⟨s', h1, h2⟩
  | false =>
    obtain ⟨a, hw, ha, hd'⟩ := h.whole hs hf
    have hk : (sends l).length = s.nodes.length := by rw [← h.keys]; simp [keys]
    have hlt : a < s.nodes.length := by omega
    obtain ⟨s2, g1, g2, g3⟩ := hw.freeFrom hlt (k := s.nodes.length + 1) (by omega)
    exact ⟨s2, by simp [State.destroy, State.stop, hw.head hlt, g1], g3⟩

end Verif.Conn
