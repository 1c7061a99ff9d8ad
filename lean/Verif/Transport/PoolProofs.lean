import Verif.Transport.Pool

/-!
# The connection pool: invariants
-/

namespace Verif.Transport.Pool

/-- Where a request is. -/
inductive Loc where
  | out | hand | send (i : Nat) | own (i : Nat) | pend | done
deriving DecidableEq

structure Located (p : P) (loc : Nat → Loc) : Prop where
  send : ∀ i r, p.sendq i = some r ↔ loc r = .send i
  own : ∀ i r, r ∈ p.own i ↔ loc r = .own i
  pend : ∀ r, r ∈ p.pend ↔ loc r = .pend
  done : ∀ r, r ∈ p.done.map (·.1) ↔ loc r = .done
  asked : ∀ r, r ∈ p.asked ↔ loc r ≠ .out
  ownN : ∀ i, (p.own i).Nodup
  pendN : p.pend.Nodup
  doneN : (p.done.map (·.1)).Nodup

/-- Every request is in one place, `h` is the one in hand; the free list is sound; answers go to the right request. -/
structure Base (p : P) (h : Option Nat) : Prop where
  loc : ∃ loc, Located p loc ∧ ∀ r, loc r = .hand ↔ h = some r
  freeN : p.free.Nodup
  isIn : ∀ i, p.isIn i = true ↔ i ∈ p.free
  bound : ∀ i ∈ p.free, i < p.max
  right : ∀ r x, (r, Res.rsp x) ∈ p.done → r = x

/-- `Base` does not depend on the rest. -/
theorem Base.frame {p q : P} {h : Option Nat} (b : Base p h) (h1 : q.sendq = p.sendq) (h2 : q.own = p.own) (h3 : q.pend = p.pend) (h4 : q.done = p.done)
    (h5 : q.asked = p.asked) (h6 : q.free = p.free) (h7 : q.isIn = p.isIn) (h8 : q.max = p.max) : Base q h := by
  obtain ⟨⟨loc, ⟨l1, l2, l3, l4, l5, l6, l7, l8⟩, hh⟩, b2, b3, b4, b5⟩ := b
  refine ⟨⟨loc, ⟨?_, ?_, ?_, ?_, ?_, ?_, ?_, ?_⟩, hh⟩, ?_, ?_, ?_, ?_⟩
  all_goals simp only [h1, h2, h3, h4, h5, h6, h7, h8]
  all_goals assumption

theorem upd_same {α : Type} (f : Nat → α) (i : Nat) (v : α) : upd f i v i = v := by simp [upd]
theorem upd_ne {α : Type} (f : Nat → α) {i j : Nat} (v : α) (h : j ≠ i) : upd f i v j = f j := by simp [upd, h]

theorem Base.ask {p : P} (b : Base p none) {r : Nat} (hr : r ∉ p.asked) : Base { p with asked := p.asked ++ [r] } (some r) := by
  obtain ⟨⟨loc, l, hh⟩, b2, b3, b4, b5⟩ := b
  have hout : loc r = .out := by
    have := l.asked r
    by_cases ho : loc r = .out
    · exact ho
    · exact absurd (this.2 ho) hr
  refine ⟨⟨fun x => if x = r then .hand else loc x, ⟨?_, ?_, ?_, ?_, ?_, l.ownN, l.pendN, l.doneN⟩, ?_⟩, b2, b3, b4, b5⟩
  · intro i x
    have := l.send i x
    clear hh; by_cases hx : x = r <;> simp_all
  · intro i x
    have := l.own i x
    clear hh; by_cases hx : x = r <;> simp_all
  · intro x
    have := l.pend x
    clear hh; by_cases hx : x = r <;> simp_all
  · intro x
    have := l.done x
    clear hh; by_cases hx : x = r <;> simp_all
  · intro x
    have := l.asked x
    clear hh; by_cases hx : x = r <;> simp_all
  · intro x
    have := hh x
    clear hh; by_cases hx : x = r <;> simp_all
    intro h; exact hx h.symm

theorem Base.finish {p : P} {r : Nat} {res : Res} (b : Base p (some r)) (hres : ∀ x, res = .rsp x → r = x) : Base (p.finish r res) none := by
  obtain ⟨⟨loc, l, hh⟩, b2, b3, b4, b5⟩ := b
  have hhand : loc r = .hand := (hh r).2 rfl
  refine ⟨⟨fun x => if x = r then .done else loc x, ⟨?_, ?_, ?_, ?_, ?_, l.ownN, l.pendN, ?_⟩, ?_⟩, b2, b3, b4, ?_⟩
  · intro i x
    have := l.send i x
    clear hh; by_cases hx : x = r <;> simp_all [P.finish]
  · intro i x
    have := l.own i x
    clear hh; by_cases hx : x = r <;> simp_all [P.finish]
  · intro x
    have := l.pend x
    clear hh; by_cases hx : x = r <;> simp_all [P.finish]
  · intro x
    have := l.done x
    simp only [P.finish, List.map_append, List.mem_append, this, List.map_cons, List.map_nil, List.mem_singleton]
    by_cases hx : x = r <;> simp [hx]
  · intro x
    have := l.asked x
    clear hh; by_cases hx : x = r <;> simp_all [P.finish]
  · have := l.done r
    rw [hhand] at this
    simp only [P.finish, List.map_append, List.map_cons, List.map_nil, List.nodup_append, List.nodup_cons, List.not_mem_nil, not_false_eq_true, List.nodup_nil, and_self, true_and,
      List.mem_singleton]
    refine ⟨l.doneN, ?_⟩
    rintro a ha b rfl he
    subst he
    exact absurd (this.1 ha) (by simp)
  · intro x
    have := hh x
    by_cases hx : x = r
    · simp [hx]
    · simp only [if_neg hx, this]
      simp
      intro h; exact hx h.symm
  · intro a x ha
    simp only [P.finish, List.mem_append, List.mem_singleton, Prod.mk.injEq] at ha
    rcases ha with ha | ⟨rfl, hx⟩
    · exact b5 a x ha
    · exact hres x hx.symm

theorem Base.takeSend {p : P} {i r : Nat} (b : Base p none) (hs : p.sendq i = some r) : Base { p with sendq := upd p.sendq i none } (some r) := by
  obtain ⟨⟨loc, l, hh⟩, b2, b3, b4, b5⟩ := b
  have hr : loc r = .send i := (l.send i r).1 hs
  refine ⟨⟨fun x => if x = r then .hand else loc x, ⟨?_, ?_, ?_, ?_, ?_, l.ownN, l.pendN, l.doneN⟩, ?_⟩, b2, b3, b4, b5⟩
  · intro j x
    have := l.send j x
    by_cases hj : j = i
    · subst hj
      simp only [upd_same]
      by_cases hx : x = r
      · simp [hx]
      · simp only [if_neg hx, ← this, hs]
        simp
        intro h; exact hx h.symm
    · simp only [upd_ne _ _ hj, this]
      by_cases hx : x = r
      · simp [hx, hr, Ne.symm hj]
      · simp [hx]
  · intro j x
    have := l.own j x
    clear hh; by_cases hx : x = r <;> simp_all
  · intro x
    have := l.pend x
    clear hh; by_cases hx : x = r <;> simp_all
  · intro x
    have := l.done x
    clear hh; by_cases hx : x = r <;> simp_all
  · intro x
    have := l.asked x
    clear hh; by_cases hx : x = r <;> simp_all
  · intro x
    have := hh x
    clear hh; by_cases hx : x = r <;> simp_all
    intro h; exact hx h.symm

theorem Base.putSend {p : P} {i r : Nat} (b : Base p (some r)) (hs : p.sendq i = none) : Base { p with sendq := upd p.sendq i (some r) } none := by
  obtain ⟨⟨loc, l, hh⟩, b2, b3, b4, b5⟩ := b
  have hr : loc r = .hand := (hh r).2 rfl
  refine ⟨⟨fun x => if x = r then .send i else loc x, ⟨?_, ?_, ?_, ?_, ?_, l.ownN, l.pendN, l.doneN⟩, ?_⟩, b2, b3, b4, b5⟩
  · intro j x
    have := l.send j x
    by_cases hj : j = i
    · subst hj
      simp only [upd_same]
      by_cases hx : x = r
      · simp [hx]
      · simp only [if_neg hx, ← this, hs]
        simp
        intro h; exact hx h.symm
    · simp only [upd_ne _ _ hj, this]
      by_cases hx : x = r
      · simp [hx, hr, Ne.symm hj]
      · simp [hx]
  · intro j x
    have := l.own j x
    clear hh; by_cases hx : x = r <;> simp_all
  · intro x
    have := l.pend x
    clear hh; by_cases hx : x = r <;> simp_all
  · intro x
    have := l.done x
    clear hh; by_cases hx : x = r <;> simp_all
  · intro x
    have := l.asked x
    clear hh; by_cases hx : x = r <;> simp_all
  · intro x
    have := hh x
    by_cases hx : x = r
    · simp [hx]
    · simp only [if_neg hx, this]
      simp
      intro h; exact hx h.symm

theorem Base.putPend {p : P} {r : Nat} (b : Base p (some r)) : Base { p with pend := p.pend ++ [r] } none := by
  obtain ⟨⟨loc, l, hh⟩, b2, b3, b4, b5⟩ := b
  have hr : loc r = .hand := (hh r).2 rfl
  refine ⟨⟨fun x => if x = r then .pend else loc x, ⟨?_, ?_, ?_, ?_, ?_, l.ownN, ?_, l.doneN⟩, ?_⟩, b2, b3, b4, b5⟩
  · intro j x
    have := l.send j x
    clear hh; by_cases hx : x = r <;> simp_all
  · intro j x
    have := l.own j x
    clear hh; by_cases hx : x = r <;> simp_all
  · intro x
    have := l.pend x
    clear hh; by_cases hx : x = r <;> simp_all
  · intro x
    have := l.done x
    clear hh; by_cases hx : x = r <;> simp_all
  · intro x
    have := l.asked x
    clear hh; by_cases hx : x = r <;> simp_all
  · have := l.pend r
    rw [hr] at this
    simp only [List.nodup_append, List.nodup_cons, List.not_mem_nil, not_false_eq_true, List.nodup_nil, and_self, true_and, List.mem_singleton]
    refine ⟨l.pendN, ?_⟩
    rintro a ha b rfl he
    subst he
    exact absurd (this.1 ha) (by simp)
  · intro x
    have := hh x
    by_cases hx : x = r
    · simp [hx]
    · simp only [if_neg hx, this]
      simp
      intro h; exact hx h.symm

theorem Base.putOwn {p : P} {i r : Nat} (b : Base p (some r)) : Base { p with own := upd p.own i (p.own i ++ [r]) } none := by
  obtain ⟨⟨loc, l, hh⟩, b2, b3, b4, b5⟩ := b
  have hr : loc r = .hand := (hh r).2 rfl
  refine ⟨⟨fun x => if x = r then .own i else loc x, ⟨?_, ?_, ?_, ?_, ?_, ?_, l.pendN, l.doneN⟩, ?_⟩, b2, b3, b4, b5⟩
  · intro j x
    have := l.send j x
    clear hh; by_cases hx : x = r <;> simp_all
  · intro j x
    have := l.own j x
    by_cases hj : j = i
    · subst hj
      simp only [upd_same, List.mem_append, this, List.mem_singleton]
      by_cases hx : x = r <;> simp [hx]
    · simp only [upd_ne _ _ hj, this]
      by_cases hx : x = r
      · simp [hx, hr, Ne.symm hj]
      · simp [hx]
  · intro x
    have := l.pend x
    clear hh; by_cases hx : x = r <;> simp_all
  · intro x
    have := l.done x
    clear hh; by_cases hx : x = r <;> simp_all
  · intro x
    have := l.asked x
    clear hh; by_cases hx : x = r <;> simp_all
  · intro j
    by_cases hj : j = i
    · subst hj
      have := l.own j r
      rw [hr] at this
      simp only [upd_same, List.nodup_append, List.nodup_cons, List.not_mem_nil, not_false_eq_true, List.nodup_nil, and_self, true_and, List.mem_singleton]
      refine ⟨l.ownN j, ?_⟩
      rintro a ha b rfl he
      subst he
      exact absurd (this.1 ha) (by simp)
    · simp only [upd_ne _ _ hj]; exact l.ownN j
  · intro x
    have := hh x
    by_cases hx : x = r
    · simp [hx]
    · simp only [if_neg hx, this]
      simp
      intro h; exact hx h.symm

theorem Base.takePend {p : P} {r : Nat} (b : Base p none) (hr : r ∈ p.pend) : Base { p with pend := p.pend.erase r } (some r) := by
  obtain ⟨⟨loc, l, hh⟩, b2, b3, b4, b5⟩ := b
  have hl : loc r = .pend := (l.pend r).1 hr
  refine ⟨⟨fun x => if x = r then .hand else loc x, ⟨?_, ?_, ?_, ?_, ?_, l.ownN, l.pendN.erase _, l.doneN⟩, ?_⟩, b2, b3, b4, b5⟩
  · intro j x
    have := l.send j x
    clear hh; by_cases hx : x = r <;> simp_all
  · intro j x
    have := l.own j x
    clear hh; by_cases hx : x = r <;> simp_all
  · intro x
    have := l.pend x
    simp only [l.pendN.mem_erase_iff, this]
    clear hh; by_cases hx : x = r <;> simp_all
  · intro x
    have := l.done x
    clear hh; by_cases hx : x = r <;> simp_all
  · intro x
    have := l.asked x
    clear hh; by_cases hx : x = r <;> simp_all
  · intro x
    have := hh x
    clear hh; by_cases hx : x = r <;> simp_all
    intro h; exact hx h.symm

theorem Base.takeOwn {p : P} {i r : Nat} (b : Base p none) (hr : r ∈ p.own i) : Base { p with own := upd p.own i ((p.own i).erase r) } (some r) := by
  obtain ⟨⟨loc, l, hh⟩, b2, b3, b4, b5⟩ := b
  have hl : loc r = .own i := (l.own i r).1 hr
  refine ⟨⟨fun x => if x = r then .hand else loc x, ⟨?_, ?_, ?_, ?_, ?_, ?_, l.pendN, l.doneN⟩, ?_⟩, b2, b3, b4, b5⟩
  · intro j x
    have := l.send j x
    clear hh; by_cases hx : x = r <;> simp_all
  · intro j x
    have := l.own j x
    by_cases hj : j = i
    · subst hj
      simp only [upd_same, (l.ownN j).mem_erase_iff, this]
      clear hh; by_cases hx : x = r <;> simp_all
    · simp only [upd_ne _ _ hj, this]
      by_cases hx : x = r
      · simp [hx, hl, Ne.symm hj]
      · simp [hx]
  · intro x
    have := l.pend x
    clear hh; by_cases hx : x = r <;> simp_all
  · intro x
    have := l.done x
    clear hh; by_cases hx : x = r <;> simp_all
  · intro x
    have := l.asked x
    clear hh; by_cases hx : x = r <;> simp_all
  · intro j
    by_cases hj : j = i
    · subst hj
      simp only [upd_same]; exact (l.ownN j).erase _
    · simp only [upd_ne _ _ hj]; exact l.ownN j
  · intro x
    have := hh x
    clear hh; by_cases hx : x = r <;> simp_all
    intro h; exact hx h.symm

/-- All requests of a connector fail. -/
theorem Base.failOwn {p : P} {i : Nat} {h : Option Nat} (b : Base p h) :
    Base { p with done := p.done ++ (p.own i).map (fun r => (r, Res.network)), own := upd p.own i [] } h := by
  obtain ⟨⟨loc, l, hh⟩, b2, b3, b4, b5⟩ := b
  have hm : ∀ x, x ∈ (p.done ++ (p.own i).map (fun r => (r, Res.network))).map (·.1) ↔ loc x = .done ∨ loc x = .own i := by
    intro x
    rw [List.map_append, List.mem_append, l.done x, List.map_map]
    have : ((fun x : Nat × Res => x.1) ∘ fun r => (r, Res.network)) = id := rfl
    rw [this, List.map_id, l.own i x]
  refine ⟨⟨fun x => if loc x = .own i then .done else loc x, ⟨?_, ?_, ?_, ?_, ?_, ?_, l.pendN, ?_⟩, ?_⟩, b2, b3, b4, ?_⟩
  · intro j x
    have := l.send j x
    clear hh; by_cases hx : loc x = .own i <;> simp_all
  · intro j x
    have := l.own j x
    by_cases hj : j = i
    · subst hj
      simp only [upd_same]
      by_cases hx : loc x = .own j <;> simp [hx]
    · simp only [upd_ne _ _ hj, this]
      by_cases hx : loc x = .own i
      · simp [hx, Ne.symm hj]
      · simp [hx]
  · intro x
    have := l.pend x
    clear hh; by_cases hx : loc x = .own i <;> simp_all
  · intro x
    dsimp only
    rw [hm x]
    by_cases hx : loc x = .own i <;> simp [hx]
  · intro x
    have := l.asked x
    clear hh; by_cases hx : loc x = .own i <;> simp_all
  · intro j
    by_cases hj : j = i
    · subst hj; simp [upd_same]
    · simp only [upd_ne _ _ hj]; exact l.ownN j
  · show ((p.done ++ (p.own i).map (fun r => (r, Res.network))).map (·.1)).Nodup
    rw [List.map_append, List.map_map, show ((fun x : Nat × Res => x.1) ∘ fun r => (r, Res.network)) = id from rfl, List.map_id, List.nodup_append]
    refine ⟨l.doneN, l.ownN i, ?_⟩
    rintro a ha c hc rfl
    have h1 := (l.done a).1 ha
    have h2 := (l.own i a).1 hc
    rw [h1] at h2; cases h2
  · intro x
    have := hh x
    by_cases hx : loc x = .own i
    · simp [hx]
      rw [hx] at this
      simpa using this
    · simp [hx, this]
  · intro r x hr
    rcases List.mem_append.1 hr with hr | hr
    · exact b5 r x hr
    · obtain ⟨y, -, hy⟩ := List.mem_map.1 hr
      cases hy

theorem Base.recycle {p : P} {h : Option Nat} (b : Base p h) {i : Nat} (hi : i < p.max) : Base (p.recycle i) h := by
  unfold P.recycle
  split
  · exact b
  · rename_i hin
    obtain ⟨⟨loc, l, hh⟩, b2, b3, b4, b5⟩ := b
    have hni : i ∉ p.free := fun h => hin ((b3 i).2 h)
    refine ⟨⟨loc, ⟨l.send, l.own, l.pend, l.done, l.asked, l.ownN, l.pendN, l.doneN⟩, hh⟩, ?_, ?_, ?_, b5⟩
    · exact List.nodup_cons.2 ⟨hni, b2⟩
    · intro j
      by_cases hj : j = i
      · subst hj; simp [upd_same]
      · simp only [upd_ne _ _ hj, b3 j, List.mem_cons, hj, false_or]
    · intro j hj
      rcases List.mem_cons.1 hj with rfl | hj
      · exact hi
      · exact b4 j hj

theorem Base.gen {p p1 : P} {h : Option Nat} (b : Base p h) {i : Nat} (hg : p.gen = some (i, p1)) :
    Base p1 h ∧ i < p1.max ∧ i ∈ p.free ∧ i ∉ p1.free ∧ p1.conn = p.conn ∧ p1.sendq = p.sendq ∧ p1.own = p.own ∧ p1.max = p.max ∧ p1.handle = p.handle ∧ p1.asked = p.asked := by
  unfold P.gen at hg
  split at hg
  · cases hg
  · rename_i j l hf
    cases hg
    obtain ⟨⟨loc, l1, hh⟩, b2, b3, b4, b5⟩ := b
    rw [hf] at b2
    obtain ⟨hn, hl⟩ := List.nodup_cons.1 b2
    refine ⟨⟨⟨loc, ⟨l1.send, l1.own, l1.pend, l1.done, l1.asked, l1.ownN, l1.pendN, l1.doneN⟩, hh⟩, hl, ?_, ?_, b5⟩, b4 i (by simp [hf]), by simp [hf], hn, rfl, rfl, rfl, rfl, rfl, rfl⟩
    · intro j
      by_cases hj : j = i
      · subst hj; simp [upd_same, hn]
      · have := b3 j
        rw [hf, List.mem_cons] at this
        simp only [upd_ne _ _ hj, this, hj, false_or]
    · intro j hj
      exact b4 j (by rw [hf]; exact List.mem_cons_of_mem _ hj)

/-! ## Connections -/

/-- What was written to a connection and is unanswered is what is in its send queue; there is nothing for a connection that does not exist. -/
def NetAt (p : P) (i : Nat) : Prop :=
  match p.conn i with
  | none => p.sendq i = none ∧ p.own i = []
  | some c => c.out = (p.sendq i).toList

structure Inv (p : P) : Prop where
  base : Base p none
  net : ∀ i, NetAt p i
  live : ∀ i c, p.conn i = some c → i < p.max
  hold : ∀ h i, p.handle h = some i → i < p.max

theorem NetAt.frame {p q : P} {i : Nat} (n : NetAt p i) (h1 : q.conn i = p.conn i) (h2 : q.sendq i = p.sendq i) (h3 : q.own i = p.own i) : NetAt q i := by
  unfold NetAt at *
  rw [h1, h2, h3]
  exact n

theorem Base.failSend {p : P} {i : Nat} {res : Res} (b : Base p none) (hres : ∀ r x, p.sendq i = some r → res = .rsp x → r = x) : Base (p.failSend i res) none := by
  unfold P.failSend
  split
  · exact b
  · rename_i r hr
    exact (b.takeSend hr).finish (fun x hx => hres r x hr hx)

theorem failSend_frame (p : P) (i : Nat) (res : Res) : (p.failSend i res).sendq = upd p.sendq i none ∧ (p.failSend i res).own = p.own ∧ (p.failSend i res).pend = p.pend ∧
    (p.failSend i res).conn = p.conn ∧ (p.failSend i res).max = p.max ∧ (p.failSend i res).handle = p.handle ∧ (p.failSend i res).free = p.free ∧
    (p.failSend i res).isIn = p.isIn ∧ (p.failSend i res).asked = p.asked := by
  unfold P.failSend
  split
  · rename_i hn
    refine ⟨?_, rfl, rfl, rfl, rfl, rfl, rfl, rfl, rfl⟩
    funext j
    by_cases hj : j = i
    · subst hj; rw [upd_same, hn]
    · rw [upd_ne _ _ hj]
  · exact ⟨rfl, rfl, rfl, rfl, rfl, rfl, rfl, rfl, rfl⟩

theorem recycle_frame (p : P) (i : Nat) : (p.recycle i).sendq = p.sendq ∧ (p.recycle i).own = p.own ∧ (p.recycle i).conn = p.conn ∧ (p.recycle i).max = p.max ∧
    (p.recycle i).handle = p.handle ∧ (p.recycle i).asked = p.asked ∧ (p.recycle i).done = p.done ∧ (p.recycle i).pend = p.pend := by
  unfold P.recycle
  split
  · exact ⟨rfl, rfl, rfl, rfl, rfl, rfl, rfl, rfl⟩
  · exact ⟨rfl, rfl, rfl, rfl, rfl, rfl, rfl, rfl⟩

/-- All the same but for one connection. -/
structure Same (p q : P) (i : Nat) : Prop where
  conn : ∀ j, j ≠ i → q.conn j = p.conn j
  sendq : ∀ j, j ≠ i → q.sendq j = p.sendq j
  own : ∀ j, j ≠ i → q.own j = p.own j
  max : q.max = p.max
  handle : q.handle = p.handle

theorem Same.refl (p : P) (i : Nat) : Same p p i := ⟨fun _ _ => rfl, fun _ _ => rfl, fun _ _ => rfl, rfl, rfl⟩
theorem Same.trans {p q r : P} {i : Nat} (a : Same p q i) (b : Same q r i) : Same p r i :=
  ⟨fun j h => (b.conn j h).trans (a.conn j h), fun j h => (b.sendq j h).trans (a.sendq j h), fun j h => (b.own j h).trans (a.own j h), b.max.trans a.max, b.handle.trans a.handle⟩

theorem Same.before {p q r : P} {i : Nat} (b : Same q r i) (a : Same p q i) : Same p r i := a.trans b

/-- The result of an event that concerns connection `i`. -/
theorem Inv.of_same {p q : P} {i : Nat} (h : Inv p) (s : Same p q i) (b : Base q none) (n : NetAt q i) (hl : i < p.max) : Inv q := by
  refine ⟨b, ?_, ?_, ?_⟩
  · intro j
    by_cases hj : j = i
    · subst hj; exact n
    · exact (h.net j).frame (s.conn j hj) (s.sendq j hj) (s.own j hj)
  · intro j c hc
    rw [s.max]
    by_cases hj : j = i
    · subst hj; exact hl
    · rw [s.conn j hj] at hc; exact h.live j c hc
  · intro k j hk
    rw [s.handle] at hk
    rw [s.max]; exact h.hold k j hk

/-- `close`: whatever was there before, there is nothing left for the connection. -/
theorem close_good {p : P} {i : Nat} (b : Base p none) (hn : p.conn i = none → p.sendq i = none ∧ p.own i = []) (hi : i < p.max) :
    Base (p.close i) none ∧ Same p (p.close i) i ∧ (p.close i).conn i = none ∧ (p.close i).sendq i = none ∧ (p.close i).own i = [] := by
  unfold P.close
  split
  · rename_i hc
    exact ⟨b, .refl _ _, hc, hn hc⟩
  · rename_i c hc
    obtain ⟨f1, f2, f3, f4, f5, f6, f7, f8, f9⟩ := failSend_frame p i .network
    have b1 : Base (p.failSend i .network) none := b.failSend (by intro r x _ hx; cases hx)
    have b2 := b1.failOwn (i := i)
    dsimp only
    generalize hq : ({ p.failSend i .network with done := (p.failSend i .network).done ++ ((p.failSend i .network).own i).map (fun r => (r, Res.network)), own := upd (p.failSend i .network).own i [] } : P) = q at b2 ⊢
    have e1 : q.sendq = upd p.sendq i none := by rw [← hq]; exact f1
    have e2 : q.own = upd p.own i [] := by rw [← hq]; show upd (p.failSend i .network).own i [] = _; rw [f2]
    have e3 : q.conn = p.conn := by rw [← hq]; exact f4
    have e4 : q.max = p.max := by rw [← hq]; exact f5
    have e5 : q.handle = p.handle := by rw [← hq]; exact f6
    obtain ⟨g1, g2, g3, g4, g5, g6, g7, g8⟩ := recycle_frame q i
    have b3 := b2.recycle (i := i) (by rw [e4]; exact hi)
    refine ⟨b3.frame rfl rfl rfl rfl rfl rfl rfl rfl, ⟨?_, ?_, ?_, ?_, ?_⟩, ?_, ?_, ?_⟩
    · intro j hj; show upd (p.failSend i .network).conn i none j = _; rw [upd_ne _ _ hj, f4]
    · intro j hj; show (q.recycle i).sendq j = _; rw [g1, e1, upd_ne _ _ hj]
    · intro j hj; show (q.recycle i).own j = _; rw [g2, e2, upd_ne _ _ hj]
    · show (q.recycle i).max = _; rw [g4, e4]
    · show (q.recycle i).handle = _; rw [g5, e5]
    · exact upd_same _ _ _
    · show (q.recycle i).sendq i = _; rw [g1, e1, upd_same]
    · show (q.recycle i).own i = _; rw [g2, e2, upd_same]

/-- `write` of the request in hand. -/
theorem write_good {p : P} {i r : Nat} {s : Sent} {res : P × Bool} (b : Base p (some r)) {c : Conn} (hc : p.conn i = some c) (ho : c.out = []) (hs : p.sendq i = none) (hi : i < p.max)
    (hw : p.write i r s = some res) :
    Base res.1 none ∧ Same p res.1 i ∧ NetAt res.1 i ∧ (res.1.conn i = none ∨ res.1.conn i = some { c with out := (res.1.sendq i).toList }) ∧ (res.2 = false → res.1.sendq i = none) := by
  unfold P.write at hw
  rw [hs] at hw
  have b1 := b.putSend hs
  dsimp only at hw
  cases s with
  | ok =>
    cases hw
    refine ⟨b1.frame rfl rfl rfl rfl rfl rfl rfl rfl, ⟨?_, ?_, fun _ _ => rfl, rfl, rfl⟩, ?_, ?_, by intro h; cases h⟩
    · intro j hj; exact upd_ne _ _ hj
    · intro j hj; exact upd_ne _ _ hj
    · unfold NetAt
      simp only [upd_same, hc, Option.map_some]
      rw [ho]; rfl
    · right
      simp only [upd_same, hc, Option.map_some, ho]; rfl
  | full =>
    cases hw
    obtain ⟨f1, f2, f3, f4, f5, f6, f7, f8, f9⟩ := failSend_frame ({ p with sendq := upd p.sendq i (some r) } : P) i .network
    refine ⟨b1.failSend (by intro r x _ hx; cases hx), ⟨?_, ?_, ?_, f5, f6⟩, ?_, ?_, ?_⟩
    · intro j _; rw [f4]
    · intro j hj; rw [f1, upd_ne _ _ hj]; exact upd_ne _ _ hj
    · intro j _; rw [f2]
    · unfold NetAt; rw [f4, f1, upd_same]; dsimp only; rw [hc]; exact ho
    · right; rw [f4, f1, upd_same]; dsimp only; rw [hc, show (none : Option Nat).toList = c.out from ho.symm]
    · intro _; rw [f1, upd_same]
  | broken =>
    cases hw
    obtain ⟨c1, c2, c3, c4, c5⟩ := close_good (i := i) b1 (by intro hn; rw [hc] at hn; cases hn) hi
    obtain ⟨f1, f2, f3, f4, f5, f6, f7, f8, f9⟩ := failSend_frame (({ p with sendq := upd p.sendq i (some r) } : P).close i) i .network
    refine ⟨c1.failSend (by intro r x _ hx; cases hx), ⟨?_, ?_, ?_, f5.trans c2.max, f6.trans c2.handle⟩, ?_, ?_, ?_⟩
    · intro j hj; rw [f4, c2.conn j hj]
    · intro j hj; rw [f1, upd_ne _ _ hj, c2.sendq j hj]; exact upd_ne _ _ hj
    · intro j hj; rw [f2, c2.own j hj]
    · unfold NetAt; rw [f4, c3, f1, f2, upd_same]; exact ⟨rfl, c5⟩
    · left; rw [f4, c3]
    · intro _; rw [f1, upd_same]

theorem pushPend_good {p : P} {r : Nat} (b : Base p (some r)) : Base (p.pushPend r) none ∧ ∀ i, Same p (p.pushPend r) i := by
  unfold P.pushPend
  split
  · exact ⟨b.finish (by intro x hx; cases hx), fun i => ⟨fun _ _ => rfl, fun _ _ => rfl, fun _ _ => rfl, rfl, rfl⟩⟩
  · exact ⟨b.putPend, fun i => ⟨fun _ _ => rfl, fun _ _ => rfl, fun _ _ => rfl, rfl, rfl⟩⟩

theorem pushPend_frame (p : P) (r : Nat) : (p.pushPend r).conn = p.conn ∧ (p.pushPend r).sendq = p.sendq ∧ (p.pushPend r).own = p.own := by
  unfold P.pushPend
  split
  · exact ⟨rfl, rfl, rfl⟩
  · exact ⟨rfl, rfl, rfl⟩

theorem pushOwn_good {p : P} {i r : Nat} (b : Base p (some r)) : Base (p.pushOwn i r) none ∧ Same p (p.pushOwn i r) i ∧ (p.pushOwn i r).conn = p.conn ∧ (p.pushOwn i r).sendq = p.sendq := by
  unfold P.pushOwn
  split
  · exact ⟨b.finish (by intro x hx; cases hx), ⟨fun _ _ => rfl, fun _ _ => rfl, fun _ _ => rfl, rfl, rfl⟩, rfl, rfl⟩
  · exact ⟨b.putOwn, ⟨fun _ _ => rfl, fun _ _ => rfl, fun j hj => upd_ne _ _ hj, rfl, rfl⟩, rfl, rfl⟩

theorem sendOn_good {p p' : P} {i r : Nat} {fixed stale : Bool} {s : Sent} (b : Base p (some r)) {c : Conn} (hc : p.conn i = some c) (n : NetAt p i) (hi : i < p.max)
    (hs : p.sendOn i r fixed stale s = some p') : Base p' none ∧ Same p p' i ∧ NetAt p' i := by
  unfold P.sendOn at hs
  have hout : c.out = (p.sendq i).toList := by unfold NetAt at n; rw [hc] at n; exact n
  split at hs
  · cases hs
    obtain ⟨h1, h2, h3, h4⟩ := pushOwn_good (i := i) b
    refine ⟨h1, h2, ?_⟩
    unfold NetAt; rw [h3, h4, hc]; exact hout
  · rename_i hq
    rw [hq] at hout
    split at hs
    · cases hs
      have key : Base (if fixed then p.pushOwn i r else p.pushPend r) none ∧ Same p (if fixed then p.pushOwn i r else p.pushPend r) i ∧
          (if fixed then p.pushOwn i r else p.pushPend r).conn = p.conn := by
        cases fixed
        · exact ⟨(pushPend_good b).1, (pushPend_good b).2 i, (pushPend_frame p r).1⟩
        · obtain ⟨h1, h2, h3, h4⟩ := pushOwn_good (i := i) b
          exact ⟨h1, h2, h3⟩
      obtain ⟨k1, k2, k3⟩ := key
      obtain ⟨c1, c2, c3, c4, c5⟩ := close_good (i := i) k1 (by intro hn; rw [k3, hc] at hn; cases hn) (by rw [k2.max]; exact hi)
      refine ⟨c1, k2.trans c2, ?_⟩
      unfold NetAt; rw [c3]; exact ⟨c4, c5⟩
    · rw [Option.map_eq_some_iff] at hs
      obtain ⟨res, hw, rfl⟩ := hs
      obtain ⟨w1, w2, w3, -, -⟩ := write_good b hc hout hq hi hw
      exact ⟨w1, w2, w3⟩

theorem getOrCreate_good {p p' : P} {h : Option Nat} {i : Nat} {ok : Bool} (b : Base p h) (n : NetAt p i) (hg : p.getOrCreate i ok = some p') :
    Base p' h ∧ Same p p' i ∧ NetAt p' i ∧ (∃ c, p'.conn i = some c) ∧ p'.asked = p.asked := by
  unfold P.getOrCreate at hg
  split at hg
  · rename_i c hc
    cases hg
    exact ⟨b, .refl _ _, n, ⟨c, hc⟩, rfl⟩
  · rename_i hc
    split at hg
    · cases hg
      refine ⟨b.frame rfl rfl rfl rfl rfl rfl rfl rfl, ⟨fun j hj => upd_ne _ _ hj, fun _ _ => rfl, fun _ _ => rfl, rfl, rfl⟩, ?_, ⟨_, upd_same _ _ _⟩, rfl⟩
      unfold NetAt at n ⊢
      rw [hc] at n
      simp only [upd_same]
      rw [n.1]; rfl
    · cases hg

/-- Changing the flag of a connection. -/
theorem flag_net {p q : P} {i : Nat} (f : Conn → Conn) (hf : ∀ c, (f c).out = c.out) (n : NetAt p i) (h1 : q.conn i = (p.conn i).map f) (h2 : q.sendq i = p.sendq i)
    (h3 : q.own i = p.own i) : NetAt q i := by
  unfold NetAt at *
  rw [h1, h2, h3]
  cases hc : p.conn i with
  | none => rw [hc] at n; exact n
  | some c => rw [hc] at n; simp only [Option.map_some]; rw [hf]; exact n

theorem fixedConn_good {p p' : P} {i : Nat} {ok : Bool} (b : Base p none) (n : NetAt p i) (hg : p.fixedConn i ok = some p') :
    Base p' none ∧ Same p p' i ∧ NetAt p' i ∧ (∃ c, p'.conn i = some c) ∧ p'.asked = p.asked := by
  unfold P.fixedConn at hg
  split at hg
  · rw [Option.map_eq_some_iff] at hg
    obtain ⟨p1, h1, rfl⟩ := hg
    obtain ⟨g1, g2, g3, ⟨c, g4⟩, g5⟩ := getOrCreate_good b n h1
    refine ⟨g1.frame rfl rfl rfl rfl rfl rfl rfl rfl, ⟨?_, g2.sendq, g2.own, g2.max, g2.handle⟩, flag_net (fun c => { c with fixed := true }) (fun _ => rfl) g3 (upd_same _ _ _) rfl rfl, ?_, g5⟩
    · intro j hj; show upd _ _ _ j = _; rw [upd_ne _ _ hj]; exact g2.conn j hj
    · exact ⟨{ c with fixed := true }, by show upd _ _ _ i = _; rw [upd_same, g4]; rfl⟩
  · split at hg
    · rename_i c hc
      split at hg
      · cases hg; exact ⟨b, .refl _ _, n, ⟨c, hc⟩, rfl⟩
      · cases hg
    · cases hg

theorem sendPending_good {p : P} {i pick : Nat} {s : Sent} {res : P × Bool} (b : Base p none) {c : Conn} (hc : p.conn i = some c) (ho : c.out = []) (hs : p.sendq i = none) (hi : i < p.max)
    (hw : p.sendPending i pick s = some res) : Base res.1 none ∧ Same p res.1 i ∧ NetAt res.1 i := by
  unfold P.sendPending at hw
  split at hw
  · rename_i hp
    obtain ⟨w1, w2, w3, -, -⟩ := write_good (b.takeOwn hp) (c := c) hc ho hs hi hw
    exact ⟨w1, w2.before ⟨fun _ _ => rfl, fun _ _ => rfl, fun j hj => upd_ne _ _ hj, rfl, rfl⟩, w3⟩
  · split at hw
    · rename_i hp
      obtain ⟨w1, w2, w3, -, -⟩ := write_good (b.takePend hp.2) (c := c) hc ho hs hi hw
      exact ⟨w1, w2.before ⟨fun _ _ => rfl, fun _ _ => rfl, fun _ _ => rfl, rfl, rfl⟩, w3⟩
    · cases hw
      refine ⟨b, .refl _ _, ?_⟩
      unfold NetAt; rw [hc, hs]; exact ho

theorem recycle_same (p : P) (i j : Nat) : Same p (p.recycle i) j := by
  obtain ⟨g1, g2, g3, g4, g5, g6, g7, g8⟩ := recycle_frame p i
  exact ⟨fun k _ => by rw [g3], fun k _ => by rw [g1], fun k _ => by rw [g2], g4, g5⟩

theorem recycle_net {p : P} {i j : Nat} (n : NetAt p j) : NetAt (p.recycle i) j := by
  obtain ⟨g1, g2, g3, g4, g5, g6, g7, g8⟩ := recycle_frame p i
  exact n.frame (by rw [g3]) (by rw [g1]) (by rw [g2])

theorem net_none {p : P} {i : Nat} (n : NetAt p i) (hc : p.conn i = none) : p.sendq i = none ∧ p.own i = [] := by
  unfold NetAt at n; rw [hc] at n; exact n

theorem close_net {p : P} {i : Nat} (b : Base p none) (n : NetAt p i) (hi : i < p.max) : Base (p.close i) none ∧ Same p (p.close i) i ∧ NetAt (p.close i) i := by
  obtain ⟨c1, c2, c3, c4, c5⟩ := close_good (i := i) b (net_none n) hi
  refine ⟨c1, c2, ?_⟩
  unfold NetAt; rw [c3]; exact ⟨c4, c5⟩

theorem answered_good {p p' : P} {i : Nat} {c : Conn} {x : Nat} {decoded reusable : Bool} {pick : Nat} {s : Sent} (b : Base p none) (hc : p.conn i = some { c with out := [] })
    (hs : p.sendq i = some x) (hi : i < p.max) (ha : p.answered i c x decoded reusable pick s = some p') : Base p' none ∧ Same p p' i ∧ NetAt p' i := by
  unfold P.answered at ha
  split at ha
  · cases ha
    obtain ⟨f1, f2, f3, f4, f5, f6, f7, f8, f9⟩ := failSend_frame p i .decode
    have b1 : Base (p.failSend i .decode) none := b.failSend (by intro r y _ hy; cases hy)
    have n1 : NetAt (p.failSend i .decode) i := by unfold NetAt; rw [f4, hc, f1, upd_same]; rfl
    obtain ⟨c1, c2, c3⟩ := close_net b1 n1 (by rw [f5]; exact hi)
    exact ⟨c1, Same.trans ⟨fun _ _ => by rw [f4], fun j hj => by rw [f1, upd_ne _ _ hj], fun _ _ => by rw [f2], f5, f6⟩ c2, c3⟩
  · obtain ⟨f1, f2, f3, f4, f5, f6, f7, f8, f9⟩ := failSend_frame p i (.rsp x)
    have b1 : Base (p.failSend i (.rsp x)) none := by
      refine b.failSend ?_
      intro r y hr hy
      rw [hs] at hr
      cases hr; cases hy; rfl
    have s1 : Same p (p.failSend i (.rsp x)) i := ⟨fun _ _ => by rw [f4], fun j hj => by rw [f1, upd_ne _ _ hj], fun _ _ => by rw [f2], f5, f6⟩
    split at ha
    · cases ha
    · rename_i p2 sent hw
      obtain ⟨w1, w2, w3⟩ := sendPending_good b1 (c := { c with out := [] }) (by rw [f4, hc]) rfl (by rw [f1, upd_same]) (by rw [f5]; exact hi) hw
      have hm : p2.max = p.max := w2.max.trans f5
      have key : Base (if !sent && !c.fixed then p2.recycle i else p2) none ∧ Same p (if !sent && !c.fixed then p2.recycle i else p2) i ∧
          NetAt (if !sent && !c.fixed then p2.recycle i else p2) i := by
        split
        · exact ⟨w1.recycle (by rw [hm]; exact hi), (s1.trans w2).trans (recycle_same _ _ _), recycle_net w3⟩
        · exact ⟨w1, s1.trans w2, w3⟩
      obtain ⟨k1, k2, k3⟩ := key
      dsimp only at ha
      cases ha
      split
      · exact ⟨k1, k2, k3⟩
      · obtain ⟨c1, c2, c3⟩ := close_net k1 k3 (by rw [k2.max]; exact hi)
        exact ⟨c1, k2.trans c2, c3⟩

/-! ## Every event -/

theorem Inv.init (max : Nat) (rc : Bool) : Inv (.fresh max rc) where
  base := by
    refine ⟨⟨fun _ => .out, ⟨?_, ?_, ?_, ?_, ?_, ?_, ?_, ?_⟩, ?_⟩, ?_, ?_, ?_, ?_⟩
    all_goals simp [P.fresh]
    show (List.range max).reverse.Pairwise _
    rw [List.pairwise_reverse]
    exact List.nodup_range.imp fun h => Ne.symm h
  net := by intro i; simp [NetAt, P.fresh]
  live := by intro i c h; simp [P.fresh] at h
  hold := by intro h i hh; simp [P.fresh] at hh

theorem ask_same (p : P) (r i : Nat) : Same p { p with asked := p.asked ++ [r] } i := ⟨fun _ _ => rfl, fun _ _ => rfl, fun _ _ => rfl, rfl, rfl⟩

theorem gen_same {p p1 : P} {i j : Nat} (b : Base p none) (hg : p.gen = some (i, p1)) : Same p p1 j := by
  obtain ⟨-, -, -, -, h1, h2, h3, h4, h5, -⟩ := b.gen hg
  exact ⟨fun _ _ => by rw [h1], fun _ _ => by rw [h2], fun _ _ => by rw [h3], h4, h5⟩

theorem gen_net {p p1 : P} {i j : Nat} (b : Base p none) (hg : p.gen = some (i, p1)) (n : NetAt p j) : NetAt p1 j := by
  obtain ⟨-, -, -, -, h1, h2, h3, h4, h5, -⟩ := b.gen hg
  exact n.frame (by rw [h1]) (by rw [h2]) (by rw [h3])

theorem Inv.step {p p' : P} {e : Event} (h : Inv p) (he : e.isOnewayFixed = false) (hs : Step p e p') : Inv p' := by
  cases hs with
  | @sendPend r ok stale s hr hg =>
    have b := h.base.ask hr
    obtain ⟨h1, h2⟩ := pushPend_good b
    refine ⟨h1, ?_, ?_, ?_⟩
    · intro i
      obtain ⟨f1, f2, f3⟩ := pushPend_frame ({ p with asked := p.asked ++ [r] } : P) r
      exact (h.net i).frame (by rw [f1]) (by rw [f2]) (by rw [f3])
    · intro i c hc
      rw [(pushPend_frame _ r).1] at hc
      rw [(h2 i).max]; exact h.live i c hc
    · intro k i hk
      rw [(h2 i).handle] at hk
      rw [(h2 i).max]; exact h.hold k i hk
  | @sendFail r stale s i p1 hr hg hc =>
    obtain ⟨g1, g2, g3, g4, g5, g6, g7, g8, g9, g10⟩ := h.base.gen hg
    have b := (g1.ask (r := r) (by rw [g10]; exact hr)).recycle (i := i) g2
    have b' := b.finish (res := .network) (by intro x hx; cases hx)
    refine h.of_same (i := i) ?_ b' ?_ (by rw [← g8]; exact g2)
    · exact (gen_same h.base hg).trans ((ask_same p1 r i).trans ((recycle_same _ _ _).trans ⟨fun _ _ => rfl, fun _ _ => rfl, fun _ _ => rfl, rfl, rfl⟩))
    · have n1 : NetAt ({ p1 with asked := p1.asked ++ [r] } : P) i := (gen_net h.base hg (h.net i)).frame rfl rfl rfl
      exact (recycle_net (i := i) n1).frame rfl rfl rfl
  | @send r ok stale s i p1 p2 p3 hr hg hc hs =>
    obtain ⟨g1, g2, g3, g4, g5, g6, g7, g8, g9, g10⟩ := h.base.gen hg
    obtain ⟨c1, c2, c3, ⟨c, c4⟩, c5⟩ := getOrCreate_good g1 (gen_net h.base hg (h.net i)) hc
    have b := c1.ask (r := r) (by rw [c5, g10]; exact hr)
    obtain ⟨s1, s2, s3⟩ := sendOn_good b (c := c) c4 (c3.frame rfl rfl rfl) (by show i < p2.max; rw [c2.max]; exact g2) hs
    exact h.of_same (i := i) ((gen_same h.base hg).trans (c2.trans ((ask_same p2 r i).trans s2))) s1 s3 (by rw [← g8]; exact g2)
  | @oneway ok s i p1 p2 hg hc =>
    obtain ⟨g1, g2, g3, g4, g5, g6, g7, g8, g9, g10⟩ := h.base.gen hg
    obtain ⟨c1, c2, c3, ⟨c, c4⟩, c5⟩ := getOrCreate_good g1 (gen_net h.base hg (h.net i)) hc
    have hi2 : i < p2.max := by rw [c2.max]; exact g2
    have key : Base (if s = .broken then p2.close i else p2) none ∧ Same p2 (if s = .broken then p2.close i else p2) i ∧ NetAt (if s = .broken then p2.close i else p2) i := by
      split
      · exact close_net c1 c3 hi2
      · exact ⟨c1, .refl _ _, c3⟩
    obtain ⟨k1, k2, k3⟩ := key
    have sm := (gen_same h.base hg).trans (c2.trans k2)
    split
    · exact h.of_same sm k1 k3 (by rw [← g8]; exact g2)
    · exact h.of_same (sm.trans (recycle_same _ i i)) (k1.recycle (by rw [k2.max]; exact hi2)) (recycle_net k3) (by rw [← g8]; exact g2)
  | @onewayFail s i p1 hg hc =>
    obtain ⟨g1, g2, g3, g4, g5, g6, g7, g8, g9, g10⟩ := h.base.gen hg
    exact h.of_same (i := i) ((gen_same h.base hg).trans (recycle_same _ i i)) (g1.recycle g2) (recycle_net (gen_net h.base hg (h.net i))) (by rw [← g8]; exact g2)
  | @answer i decoded reusable pick s c x l p1 hc ho hp ha =>
    have n := h.net i
    unfold NetAt at n
    rw [hc] at n
    dsimp only at n
    have hq : p.sendq i = some x ∧ l = [] := by
      cases hsq : p.sendq i with
      | none => rw [ho, hsq] at n; cases n
      | some y => rw [ho, hsq] at n; simp at n; exact ⟨by rw [n.1], n.2⟩
    obtain ⟨hq, rfl⟩ := hq
    have b1 : Base ({ p with conn := upd p.conn i (some { c with out := [] }) } : P) none := h.base.frame rfl rfl rfl rfl rfl rfl rfl rfl
    obtain ⟨a1, a2, a3⟩ := answered_good (c := c) b1 (upd_same _ _ _) hq (h.live i c hc) ha
    exact h.of_same (i := i) (a2.before ⟨fun j hj => upd_ne _ _ hj, fun _ _ => rfl, fun _ _ => rfl, rfl, rfl⟩) a1 a3 (h.live i c hc)
  | @lateSend i r hs =>
    have n := h.net i
    cases hc : p.conn i with
    | none => rw [(net_none n hc).1] at hs; cases hs
    | some c =>
      have hi := h.live i c hc
      obtain ⟨f1, f2, f3, f4, f5, f6, f7, f8, f9⟩ := failSend_frame p i .timeout
      have b1 : Base (p.failSend i .timeout) none := h.base.failSend (by intro r y _ hy; cases hy)
      obtain ⟨c1, c2, c3, c4, c5⟩ := close_good (i := i) b1 (by intro hn; rw [f4, hc] at hn; cases hn) (by rw [f5]; exact hi)
      refine h.of_same (i := i) (Same.trans ⟨fun _ _ => by rw [f4], fun j hj => by rw [f1, upd_ne _ _ hj], fun _ _ => by rw [f2], f5, f6⟩ c2) c1 ?_ hi
      unfold NetAt; rw [c3]; exact ⟨c4, c5⟩
  | @latePend r hr =>
    have b := (h.base.takePend hr).finish (res := .timeout) (by intro x hx; cases hx)
    exact ⟨b, fun i => (h.net i).frame rfl rfl rfl, h.live, h.hold⟩
  | @lateOwn i r hr =>
    have b := (h.base.takeOwn hr).finish (res := .timeout) (by intro x hx; cases hx)
    refine ⟨b, ?_, h.live, h.hold⟩
    intro j
    by_cases hj : j = i
    · subst hj
      have n := h.net j
      unfold NetAt at n ⊢
      show match p.conn j with | none => _ | some c => _
      cases hc : p.conn j with
      | none =>
        rw [hc] at n
        rw [n.2] at hr; cases hr
      | some c => rw [hc] at n; exact n
    · exact (h.net j).frame rfl rfl (upd_ne _ _ hj)
  | @lost i c hc =>
    obtain ⟨c1, c2, c3⟩ := close_net h.base (h.net i) (h.live i c hc)
    exact h.of_same c2 c1 c3 (h.live i c hc)
  | @fix k ok i p1 p2 hh hg hc =>
    obtain ⟨g1, g2, g3, g4, g5, g6, g7, g8, g9, g10⟩ := h.base.gen hg
    obtain ⟨c1, c2, c3, ⟨c, c4⟩, c5⟩ := getOrCreate_good g1 (gen_net h.base hg (h.net i)) hc
    have sm := (gen_same (j := i) h.base hg).trans c2
    have hi : i < p.max := by rw [← g8]; exact g2
    have h2 : Inv p2 := h.of_same sm c1 c3 hi
    refine ⟨c1.frame rfl rfl rfl rfl rfl rfl rfl rfl, ?_, ?_, ?_⟩
    · intro j
      by_cases hj : j = i
      · subst hj
        exact flag_net (fun c => { c with fixed := true }) (fun _ => rfl) c3 (upd_same _ _ _) rfl rfl
      · exact (h2.net j).frame (upd_ne _ _ hj) rfl rfl
    · intro j c hcj
      by_cases hj : j = i
      · subst hj; show j < p2.max; rw [sm.max]; exact hi
      · exact h2.live j c (by rw [← hcj]; exact (upd_ne _ _ hj).symm)
    · intro k' j hk
      by_cases hkk : k' = k
      · subst hkk
        have : upd p2.handle k' (some i) k' = some j := hk
        rw [upd_same] at this
        cases this
        show i < p2.max; rw [sm.max]; exact hi
      · exact h2.hold k' j (by rw [← hk]; exact (upd_ne _ _ hkk).symm)
  | @fixFail k i p1 hg hc =>
    obtain ⟨g1, g2, g3, g4, g5, g6, g7, g8, g9, g10⟩ := h.base.gen hg
    exact h.of_same (i := i) ((gen_same h.base hg).trans (recycle_same _ i i)) (g1.recycle g2) (recycle_net (gen_net h.base hg (h.net i))) (by rw [← g8]; exact g2)
  | @sendFixed k r ok stale s i p1 p2 hr hh hc hs =>
    have hi := h.hold k i hh
    obtain ⟨c1, c2, c3, ⟨c, c4⟩, c5⟩ := fixedConn_good h.base (h.net i) hc
    have b := c1.ask (r := r) (by rw [c5]; exact hr)
    obtain ⟨s1, s2, s3⟩ := sendOn_good b (c := c) c4 (c3.frame rfl rfl rfl) (by show i < p1.max; rw [c2.max]; exact hi) hs
    exact h.of_same (i := i) (c2.trans ((ask_same p1 r i).trans s2)) s1 s3 hi
  | @sendFixedFail k r ok stale s i hr hh hc =>
    have b := (h.base.ask hr).finish (res := .network) (by intro x hx; cases hx)
    exact ⟨b, fun j => (h.net j).frame rfl rfl rfl, h.live, h.hold⟩
  | onewayFixed hr hh hc hs => cases he
  | @releaseNone k i hh hc =>
    refine ⟨h.base.frame rfl rfl rfl rfl rfl rfl rfl rfl, fun j => (h.net j).frame rfl rfl rfl, h.live, ?_⟩
    intro k' j hk
    by_cases hkk : k' = k
    · subst hkk
      have : upd p.handle k' none k' = some j := hk
      rw [upd_same] at this; cases this
    · exact h.hold k' j (by rw [← hk]; exact (upd_ne _ _ hkk).symm)
  | @release k i c hh hc hs ho =>
    have hi := h.hold k i hh
    have h1 : Inv ({ p with conn := upd p.conn i (some { c with fixed := false }), handle := upd p.handle k none } : P) := by
      refine ⟨h.base.frame rfl rfl rfl rfl rfl rfl rfl rfl, ?_, ?_, ?_⟩
      · intro j
        by_cases hj : j = i
        · subst hj
          exact flag_net (fun c => { c with fixed := false }) (fun _ => rfl) (h.net j) (by rw [hc]; exact upd_same _ _ _) rfl rfl
        · exact (h.net j).frame (upd_ne _ _ hj) rfl rfl
      · intro j c' hcj
        by_cases hj : j = i
        · subst hj; exact hi
        · exact h.live j c' (by rw [← hcj]; exact (upd_ne _ _ hj).symm)
      · intro k' j hk
        by_cases hkk : k' = k
        · subst hkk
          have : upd p.handle k' none k' = some j := hk
          rw [upd_same] at this; cases this
        · exact h.hold k' j (by rw [← hk]; exact (upd_ne _ _ hkk).symm)
    exact h1.of_same (i := i) (recycle_same _ i i) (h1.base.recycle hi) (recycle_net (h1.net i)) hi

theorem Reach.inv {max : Nat} {rc : Bool} {p : P} (h : Reach max rc false p) : Inv p := by
  induction h with
  | init => exact .init max rc
  | @step p p' e _ he hs ih =>
    refine ih.step ?_ hs
    cases hh : e.isOnewayFixed with
    | false => rfl
    | true => cases he hh

end Verif.Transport.Pool
