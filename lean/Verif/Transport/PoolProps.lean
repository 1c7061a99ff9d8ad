import Verif.Transport.PoolProofs

/-!
# The connection pool: properties
-/

namespace Verif.Transport.Pool

/-- **C94a.** A caller gets the answer of the peer to their own request, whatever timed out, failed or was closed before. -/
theorem C94_own_answer {max : Nat} {rc : Bool} {p : P} (h : Reach max rc false p) {r x : Nat} (hd : (r, Res.rsp x) ∈ p.done) : r = x :=
  h.inv.base.right r x hd

/-- The queues of the pool in which a request waits. -/
inductive Waits (p : P) (r : Nat) : Prop where
  | send (i : Nat) (h : p.sendq i = some r)
  | own (i : Nat) (h : r ∈ p.own i)
  | pend (h : r ∈ p.pend)

/-- **C94b.** Every request gets at most one result. Until then it waits in one queue of the pool, once; after that it is in none. -/
theorem C94_once {max : Nat} {rc : Bool} {p : P} (h : Reach max rc false p) :
    (p.done.map (·.1)).Nodup ∧ (∀ r ∈ p.asked, (r ∈ p.done.map (·.1) ↔ ¬Waits p r)) ∧ (∀ r, Waits p r → r ∈ p.asked) ∧
      (∀ r i j, p.sendq i = some r → p.sendq j = some r → i = j) ∧ (∀ r i, p.sendq i = some r → r ∉ p.pend ∧ ∀ j, r ∉ p.own j) ∧
      (∀ r i j, r ∈ p.own i → r ∈ p.own j → i = j) ∧ (∀ r i, r ∈ p.own i → r ∉ p.pend) := by
  obtain ⟨loc, l, hh⟩ := h.inv.base.loc
  refine ⟨l.doneN, ?_, ?_, ?_, ?_, ?_, ?_⟩
  · intro r hr
    have ha := (l.asked r).1 hr
    have hh := hh r
    rw [l.done r]
    constructor
    · rintro hd (⟨i, hw⟩ | ⟨i, hw⟩ | hw)
      · rw [l.send i r, hd] at hw; cases hw
      · rw [l.own i r, hd] at hw; cases hw
      · rw [l.pend r, hd] at hw; cases hw
    · intro hn
      cases hl : loc r with
      | out => exact absurd hl ha
      | hand => rw [hl] at hh; simp at hh
      | send i => exact absurd (.send i ((l.send i r).2 hl)) hn
      | own i => exact absurd (.own i ((l.own i r).2 hl)) hn
      | pend => exact absurd (.pend ((l.pend r).2 hl)) hn
      | done => rfl
  · rintro r (⟨i, hw⟩ | ⟨i, hw⟩ | hw)
    · rw [l.send i r] at hw; exact (l.asked r).2 (by rw [hw]; simp)
    · rw [l.own i r] at hw; exact (l.asked r).2 (by rw [hw]; simp)
    · rw [l.pend r] at hw; exact (l.asked r).2 (by rw [hw]; simp)
  · intro r i j h1 h2
    rw [l.send i r] at h1
    rw [l.send j r, h1] at h2
    cases h2; rfl
  · intro r i h1
    rw [l.send i r] at h1
    refine ⟨fun h2 => ?_, fun j h2 => ?_⟩
    · rw [l.pend r, h1] at h2; cases h2
    · rw [l.own j r, h1] at h2; cases h2
  · intro r i j h1 h2
    rw [l.own i r] at h1
    rw [l.own j r, h1] at h2
    cases h2; rfl
  · intro r i h1 h2
    rw [l.own i r] at h1
    rw [l.pend r, h1] at h2
    cases h2

/-- **C94c.** On a connection at most one request is unanswered; it is the one for which the pool waits there. No connection number is free twice. -/
theorem C94_single {max : Nat} {rc : Bool} {p : P} (h : Reach max rc false p) :
    (∀ i c, p.conn i = some c → c.out = (p.sendq i).toList) ∧ p.free.Nodup ∧ ∀ i ∈ p.free, i < p.max := by
  refine ⟨?_, h.inv.base.freeN, h.inv.base.bound⟩
  intro i c hc
  have := h.inv.net i
  unfold NetAt at this
  rw [hc] at this
  exact this

/-- **C94d.** No check fails: there is a connector for every request that times out in the send queue, and a connection that is to send a request is not waiting for another. -/
theorem C94_checks {max : Nat} {rc : Bool} {p : P} (h : Reach max rc false p) :
    (∀ i r, p.sendq i = some r → ∃ c, p.conn i = some c) ∧
    (∀ i c x l decoded reusable pick s, p.conn i = some c → c.out = x :: l →
      ∃ p1, ({ p with conn := upd p.conn i (some { c with out := l }) } : P).answered i c x decoded reusable pick s = some p1) ∧
    ∀ q i r fixed stale s, ∃ p1, P.sendOn q i r fixed stale s = some p1 := by
  refine ⟨?_, ?_, ?_⟩
  · intro i r hs
    cases hc : p.conn i with
    | none => rw [(net_none (h.inv.net i) hc).1] at hs; cases hs
    | some c => exact ⟨c, rfl⟩
  · intro i c x l decoded reusable pick s hc ho
    unfold P.answered
    split
    · exact ⟨_, rfl⟩
    · have hw : ∀ (q : P) (r : Nat), q.sendq i = none → ∃ res, q.write i r s = some res := by
        intro q r hq
        unfold P.write
        rw [hq]
        cases s <;> exact ⟨_, rfl⟩
      have hs : ∃ res, P.sendPending (({ p with conn := upd p.conn i (some { c with out := l }) } : P).failSend i (.rsp x)) i pick s = some res := by
        have hn : (({ p with conn := upd p.conn i (some { c with out := l }) } : P).failSend i (.rsp x)).sendq i = none := by
          rw [(failSend_frame _ i _).1, upd_same]
        unfold P.sendPending
        split
        · exact hw _ _ hn
        · split
          · exact hw _ _ hn
          · exact ⟨_, rfl⟩
      obtain ⟨res, hs⟩ := hs
      rw [hs]
      exact ⟨_, rfl⟩
  · intro q i r fixed stale s
    unfold P.sendOn
    split
    · exact ⟨_, rfl⟩
    · rename_i hq
      split
      · exact ⟨_, rfl⟩
      · unfold P.write
        rw [hq]
        cases s <;> exact ⟨_, rfl⟩

/-! ## No connection number gets lost -/

/-- Events without fixed connections, in which the connection takes what is sent, or breaks. -/
def Event.plain : Event → Bool
  | .send _ _ _ s => s ≠ .full
  | .oneway .. => true
  | .answer _ _ _ _ s => s ≠ .full
  | .lateSend _ => true
  | .latePend _ => true
  | .lateOwn .. => true
  | .lost _ => true
  | _ => false

structure Busy (p : P) : Prop where
  free : ∀ i, i < p.max → (i ∈ p.free ↔ p.sendq i = none)
  own : ∀ i, p.own i = []
  flag : ∀ i c, p.conn i = some c → c.fixed = false

theorem Busy.frame {p q : P} (b : Busy p) (h1 : q.free = p.free) (h2 : q.sendq = p.sendq) (h3 : q.own = p.own) (h4 : q.conn = p.conn) (h5 : q.max = p.max) : Busy q :=
  ⟨by rw [h1, h2, h5]; exact b.free, by rw [h3]; exact b.own, by rw [h4]; exact b.flag⟩

theorem recycle_free {p : P} {h : Option Nat} (b : Base p h) (i j : Nat) : j ∈ (p.recycle i).free ↔ j ∈ p.free ∨ j = i := by
  unfold P.recycle
  split
  · rename_i hin
    have := (b.isIn i).1 hin
    constructor
    · exact .inl
    · rintro (h | rfl)
      · exact h
      · exact this
  · simp only [List.mem_cons]
    constructor
    · rintro (h | h)
      · exact .inr h
      · exact .inl h
    · rintro (h | h)
      · exact .inr h
      · exact .inl h

/-- The numbers, but for one. -/
structure BusyBut (p : P) (i : Nat) : Prop where
  free : ∀ j, j ≠ i → j < p.max → (j ∈ p.free ↔ p.sendq j = none)
  own : ∀ j, p.own j = []
  flag : ∀ j c, p.conn j = some c → c.fixed = false

theorem BusyBut.done {p : P} {i : Nat} (b : BusyBut p i) (h : i < p.max → (i ∈ p.free ↔ p.sendq i = none)) : Busy p :=
  ⟨fun j hj => if hji : j = i then by subst hji; exact h hj else b.free j hji hj, b.own, b.flag⟩

theorem Busy.but {p : P} (b : Busy p) (i : Nat) : BusyBut p i := ⟨fun j _ => b.free j, b.own, b.flag⟩

theorem recycle_busy {p : P} {i : Nat} {h : Option Nat} (bs : Base p h) (b : BusyBut p i) (hs : p.sendq i = none) : Busy (p.recycle i) := by
  obtain ⟨g1, g2, g3, g4, g5, g6, g7, g8⟩ := recycle_frame p i
  refine ⟨?_, by rw [g2]; exact b.own, by rw [g3]; exact b.flag⟩
  intro j hj
  rw [recycle_free bs, g1]
  by_cases hji : j = i
  · subst hji; simp [hs]
  · rw [b.free j hji (by rw [g4] at hj; exact hj)]
    simp [hji]

theorem failSend_busyBut {p : P} {i : Nat} {res : Res} (b : BusyBut p i) : BusyBut (p.failSend i res) i ∧ (p.failSend i res).sendq i = none := by
  obtain ⟨f1, f2, f3, f4, f5, f6, f7, f8, f9⟩ := failSend_frame p i res
  refine ⟨⟨?_, by rw [f2]; exact b.own, by rw [f4]; exact b.flag⟩, by rw [f1, upd_same]⟩
  intro j hj hm
  rw [f7, f1, upd_ne _ _ hj]
  exact b.free j hj (by rw [f5] at hm; exact hm)

/-- `close` of a connection that exists gives its number back. -/
theorem close_busy {p : P} {i : Nat} (bs : Base p none) (b : BusyBut p i) (hc : p.conn i ≠ none) : Busy (p.close i) := by
  unfold P.close
  split
  · rename_i hn; exact absurd hn hc
  · have bs1 : Base (p.failSend i .network) none := bs.failSend (by intro r x _ hx; cases hx)
    have bs2 := bs1.failOwn (i := i)
    obtain ⟨b1, h1⟩ := failSend_busyBut (res := .network) b
    dsimp only
    have b2 : BusyBut ({ p.failSend i .network with done := (p.failSend i .network).done ++ ((p.failSend i .network).own i).map (fun r => (r, Res.network)), own := upd (p.failSend i .network).own i [] } : P) i := by
      refine ⟨b1.free, ?_, b1.flag⟩
      intro j
      show upd (p.failSend i .network).own i [] j = []
      by_cases hj : j = i
      · subst hj; exact upd_same _ _ _
      · rw [upd_ne _ _ hj]; exact b1.own j
    have b3 := recycle_busy bs2 b2 h1
    refine ⟨b3.free, b3.own, ?_⟩
    intro j c hcj
    by_cases hj : j = i
    · subst hj
      have : upd (p.failSend j .network).conn j none j = some c := hcj
      rw [upd_same] at this; cases this
    · have : upd (p.failSend i .network).conn i none j = some c := hcj
      rw [upd_ne _ _ hj] at this
      exact b1.flag j c this

theorem pushPend_busy {p : P} {r : Nat} (b : Busy p) : Busy (p.pushPend r) := by
  unfold P.pushPend
  split
  · exact b.frame rfl rfl rfl rfl rfl
  · exact b.frame rfl rfl rfl rfl rfl

theorem write_busy {p : P} {i r : Nat} {s : Sent} {res : P × Bool} (bs : Base p (some r)) (b : BusyBut p i) (hi : i ∉ p.free) (hc : p.conn i ≠ none) (hs : p.sendq i = none)
    (hf : s ≠ .full) (hm : i < p.max) (hw : p.write i r s = some res) : Busy res.1 ∧ ((p.conn i).any Conn.fixed = false → res.2 = false → i ∈ res.1.free) := by
  unfold P.write at hw
  rw [hs] at hw
  have bs1 := bs.putSend hs
  have b1 : BusyBut ({ p with sendq := upd p.sendq i (some r) } : P) i := by
    refine ⟨?_, b.own, b.flag⟩
    intro j hj hjm
    show j ∈ p.free ↔ upd p.sendq i (some r) j = none
    rw [upd_ne _ _ hj]
    exact b.free j hj hjm
  dsimp only at hw
  cases s with
  | full => exact absurd rfl hf
  | ok =>
    cases hw
    refine ⟨BusyBut.done (i := i) ⟨b1.free, b1.own, ?_⟩ ?_, by intro _ h; cases h⟩
    · intro j c hcj
      by_cases hj : j = i
      · subst hj
        have : upd p.conn j ((p.conn j).map fun c => { c with out := c.out ++ [r] }) j = some c := hcj
        rw [upd_same, Option.map_eq_some_iff] at this
        obtain ⟨c', hc', rfl⟩ := this
        exact b.flag j c' hc'
      · have : upd p.conn i ((p.conn i).map fun c => { c with out := c.out ++ [r] }) j = some c := hcj
        rw [upd_ne _ _ hj] at this
        exact b.flag j c this
    · intro _
      show i ∈ p.free ↔ upd p.sendq i (some r) i = none
      rw [upd_same]
      simp [hi]
  | broken =>
    cases hw
    have b2 := close_busy bs1 b1 hc
    obtain ⟨c1, c2, c3, c4, c5⟩ := close_good (i := i) bs1 (by intro hn; exact absurd hn hc) hm
    have hff : (({ p with sendq := upd p.sendq i (some r) } : P).close i).failSend i .network = ({ p with sendq := upd p.sendq i (some r) } : P).close i := by
      unfold P.failSend
      rw [c4]
    rw [hff]
    refine ⟨b2, fun _ _ => ?_⟩
    exact (b2.free i (by rw [c2.max]; exact hm)).2 c4

theorem gen_busyBut {p p1 : P} {i : Nat} (bs : Base p none) (b : Busy p) (hg : p.gen = some (i, p1)) : BusyBut p1 i := by
  obtain ⟨g1, g2, g3, g4, g5, g6, g7, g8, g9, g10⟩ := bs.gen hg
  refine ⟨?_, by rw [g7]; exact b.own, by rw [g5]; exact b.flag⟩
  intro j hj hm
  rw [g6, ← b.free j (by rw [← g8]; exact hm)]
  unfold P.gen at hg
  split at hg
  · cases hg
  · rename_i k l hf
    cases hg
    rw [hf]
    simp [hj]

theorem getOrCreate_busyBut {p p' : P} {i : Nat} {ok : Bool} (b : BusyBut p i) (hg : p.getOrCreate i ok = some p') :
    BusyBut p' i ∧ p'.sendq = p.sendq ∧ p'.free = p.free := by
  unfold P.getOrCreate at hg
  split at hg
  · cases hg; exact ⟨b, rfl, rfl⟩
  · split at hg
    · cases hg
      refine ⟨⟨b.free, b.own, ?_⟩, rfl, rfl⟩
      intro j c hcj
      by_cases hj : j = i
      · subst hj
        have : upd p.conn j (some ⟨false, []⟩) j = some c := hcj
        rw [upd_same] at this
        cases this; rfl
      · have : upd p.conn i (some ⟨false, []⟩) j = some c := hcj
        rw [upd_ne _ _ hj] at this
        exact b.flag j c this
    · cases hg

theorem Busy.step {p p' : P} {e : Event} (h : Inv p) (b : Busy p) (he : e.plain = true) (hs : Step p e p') : Busy p' := by
  cases hs with
  | @sendPend r ok stale s hr hg => exact pushPend_busy (b.frame rfl rfl rfl rfl rfl)
  | @sendFail r stale s i p1 hr hg hc =>
    obtain ⟨g1, g2, g3, g4, g5, g6, g7, g8, g9, g10⟩ := h.base.gen hg
    have hq : p1.sendq i = none := by rw [g6]; exact (b.free i (by rw [← g8]; exact g2)).1 g3
    have bb : BusyBut ({ p1 with asked := p1.asked ++ [r] } : P) i := by
      have := gen_busyBut h.base b hg
      exact ⟨this.free, this.own, this.flag⟩
    have := recycle_busy (g1.ask (r := r) (by rw [g10]; exact hr)) bb hq
    exact this.frame rfl rfl rfl rfl rfl
  | @send r ok stale s i p1 p2 p3 hr hg hc hs =>
    obtain ⟨g1, g2, g3, g4, g5, g6, g7, g8, g9, g10⟩ := h.base.gen hg
    have hq : p1.sendq i = none := by rw [g6]; exact (b.free i (by rw [← g8]; exact g2)).1 g3
    obtain ⟨c1, c2, c3, ⟨c, c4⟩, c5⟩ := getOrCreate_good g1 (gen_net h.base hg (h.net i)) hc
    obtain ⟨k1, k2, k3⟩ := getOrCreate_busyBut (gen_busyBut h.base b hg) hc
    have hq2 : p2.sendq i = none := by rw [k2]; exact hq
    have hi2 : i ∉ p2.free := by rw [k3]; exact g4
    have hm2 : i < p2.max := by rw [c2.max]; exact g2
    have bs := c1.ask (r := r) (by rw [c5, g10]; exact hr)
    have bb : BusyBut ({ p2 with asked := p2.asked ++ [r] } : P) i := ⟨k1.free, k1.own, k1.flag⟩
    unfold P.sendOn at hs
    rw [show ({ p2 with asked := p2.asked ++ [r] } : P).sendq i = none from hq2] at hs
    dsimp only at hs
    have hfx : (p2.conn i).any Conn.fixed = false := by rw [c4]; simp [k1.flag i c c4]
    rw [hfx] at hs
    split at hs
    · cases hs
      simp only [Bool.false_eq_true, if_false]
      have b1 : BusyBut (({ p2 with asked := p2.asked ++ [r] } : P).pushPend r) i := by
        unfold P.pushPend
        split
        · exact ⟨bb.free, bb.own, bb.flag⟩
        · exact ⟨bb.free, bb.own, bb.flag⟩
      refine close_busy (pushPend_good bs).1 b1 ?_
      rw [(pushPend_frame _ r).1]
      show p2.conn i ≠ none
      rw [c4]; simp
    · rw [Option.map_eq_some_iff] at hs
      obtain ⟨res, hw, rfl⟩ := hs
      exact (write_busy bs bb hi2 (by show p2.conn i ≠ none; rw [c4]; simp) hq2 (by simpa [Event.plain] using he) hm2 hw).1
  | @oneway ok s i p1 p2 hg hc =>
    obtain ⟨g1, g2, g3, g4, g5, g6, g7, g8, g9, g10⟩ := h.base.gen hg
    have hq : p1.sendq i = none := by rw [g6]; exact (b.free i (by rw [← g8]; exact g2)).1 g3
    obtain ⟨c1, c2, c3, ⟨c, c4⟩, c5⟩ := getOrCreate_good g1 (gen_net h.base hg (h.net i)) hc
    obtain ⟨k1, k2, k3⟩ := getOrCreate_busyBut (gen_busyBut h.base b hg) hc
    have hq2 : p2.sendq i = none := by rw [k2]; exact hq
    have hm2 : i < p2.max := by rw [c2.max]; exact g2
    have hfx : (p2.conn i).any Conn.fixed = false := by rw [c4]; simp [k1.flag i c c4]
    rw [hfx]
    simp only [Bool.false_eq_true, if_false]
    split
    · obtain ⟨d1, d2, d3, d4, d5⟩ := close_good (i := i) c1 (net_none c3) hm2
      exact recycle_busy d1 ((close_busy c1 k1 (by rw [c4]; simp)).but i) d4
    · exact recycle_busy c1 k1 hq2
  | @onewayFail s i p1 hg hc =>
    obtain ⟨g1, g2, g3, g4, g5, g6, g7, g8, g9, g10⟩ := h.base.gen hg
    exact recycle_busy g1 (gen_busyBut h.base b hg) (by rw [g6]; exact (b.free i (by rw [← g8]; exact g2)).1 g3)
  | @answer i decoded reusable pick s c x l p1 hc ho hp ha =>
    have n := h.net i
    unfold NetAt at n
    rw [hc] at n
    dsimp only at n
    have hq : p.sendq i = some x ∧ l = [] := by
      cases hsq : p.sendq i with
      | none => rw [ho, hsq] at n; cases n
      | some y => rw [ho, hsq] at n; simp at n; exact ⟨by rw [n.1], n.2⟩
    obtain ⟨hq, rfl⟩ := hq
    have hi := h.live i c hc
    have hfree : i ∉ p.free := by rw [b.free i hi, hq]; simp
    have hcf := b.flag i c hc
    have b1 : Base ({ p with conn := upd p.conn i (some { c with out := [] }) } : P) none := h.base.frame rfl rfl rfl rfl rfl rfl rfl rfl
    have bb : BusyBut ({ p with conn := upd p.conn i (some { c with out := [] }) } : P) i := by
      refine ⟨fun j _ => b.free j, b.own, ?_⟩
      intro j c' hcj
      by_cases hj : j = i
      · subst hj
        have : upd p.conn j (some { c with out := [] }) j = some c' := hcj
        rw [upd_same] at this
        cases this; exact hcf
      · have : upd p.conn i (some { c with out := [] }) j = some c' := hcj
        rw [upd_ne _ _ hj] at this
        exact b.flag j c' this
    generalize hpp : ({ p with conn := upd p.conn i (some { c with out := [] }) } : P) = q at *
    have hqq : q.sendq i = some x := by rw [← hpp]; exact hq
    have hqc : q.conn i = some { c with out := [] } := by rw [← hpp]; exact upd_same _ _ _
    have hqf : i ∉ q.free := by rw [← hpp]; exact hfree
    have hqm : i < q.max := by rw [← hpp]; exact hi
    unfold P.answered at ha
    split at ha
    · cases ha
      obtain ⟨f1, f2, f3, f4, f5, f6, f7, f8, f9⟩ := failSend_frame q i .decode
      exact close_busy (b1.failSend (by intro r y _ hy; cases hy)) (failSend_busyBut bb).1 (by rw [f4, hqc]; simp)
    · obtain ⟨f1, f2, f3, f4, f5, f6, f7, f8, f9⟩ := failSend_frame q i (.rsp x)
      have bs2 : Base (q.failSend i (.rsp x)) none := by
        refine b1.failSend ?_
        intro r y hr hy
        rw [hqq] at hr
        cases hr; cases hy; rfl
      obtain ⟨bb2, hn2⟩ := failSend_busyBut (res := .rsp x) bb
      split at ha
      · cases ha
      · rename_i p2 sent hw
        have key : Busy (if !sent && !c.fixed then p2.recycle i else p2) ∧ Base (if !sent && !c.fixed then p2.recycle i else p2) none ∧
            NetAt (if !sent && !c.fixed then p2.recycle i else p2) i ∧ i < (if !sent && !c.fixed then p2.recycle i else p2).max := by
          obtain ⟨w1, w2, w3⟩ := sendPending_good bs2 (c := { c with out := [] }) (by rw [f4, hqc]) rfl hn2 (by rw [f5]; exact hqm) hw
          have hm2 : i < p2.max := by
            have : p2.max = q.max := w2.max.trans f5
            rw [this]; exact hqm
          have hbz : Busy p2 ∨ (BusyBut p2 i ∧ sent = false ∧ p2.sendq i = none) := by
            unfold P.sendPending at hw
            rw [if_neg (by rw [f2, ← hpp]; show pick ∉ p.own i; rw [b.own i]; simp)] at hw
            split at hw
            · rename_i hpk
              left
              refine (write_busy (bs2.takePend hpk.2) ⟨bb2.free, bb2.own, bb2.flag⟩ ?_ ?_ hn2 (by simpa [Event.plain] using he) (by rw [f5]; exact hqm) hw).1
              · show i ∉ (q.failSend i (.rsp x)).free
                rw [f7]; exact hqf
              · show (q.failSend i (.rsp x)).conn i ≠ none
                rw [f4, hqc]; simp
            · cases hw
              exact .inr ⟨bb2, rfl, hn2⟩
          rcases hbz with hbz | ⟨hbz, rfl, hsq⟩
          · split
            · rename_i hcond
              have hsent : sent = false := by
                cases sent
                · rfl
                · simp at hcond
              subst hsent
              have hsq : p2.sendq i = none := by
                unfold P.sendPending at hw
                split at hw
                · rename_i hpk
                  exact (write_good (bs2.takeOwn hpk) (c := { c with out := [] }) (by show (q.failSend i (.rsp x)).conn i = _; rw [f4, hqc]) rfl hn2 (by show i < (q.failSend i (.rsp x)).max; rw [f5]; exact hqm) hw).2.2.2.2 rfl
                · split at hw
                  · rename_i hpk
                    exact (write_good (bs2.takePend hpk.2) (c := { c with out := [] }) (by show (q.failSend i (.rsp x)).conn i = _; rw [f4, hqc]) rfl hn2 (by show i < (q.failSend i (.rsp x)).max; rw [f5]; exact hqm) hw).2.2.2.2 rfl
                  · cases hw; exact hn2
              refine ⟨recycle_busy w1 (hbz.but i) hsq, w1.recycle hm2, recycle_net w3, ?_⟩
              rw [(recycle_frame p2 i).2.2.2.1]; exact hm2
            · exact ⟨hbz, w1, w3, hm2⟩
          · rw [hcf]
            simp only [Bool.not_false, Bool.and_self, if_true]
            refine ⟨recycle_busy w1 hbz hsq, w1.recycle hm2, recycle_net w3, ?_⟩
            rw [(recycle_frame p2 i).2.2.2.1]; exact hm2
        obtain ⟨k1, k2, k3, k4⟩ := key
        dsimp only at ha
        cases ha
        split
        · exact k1
        · generalize hg : (if !sent && !c.fixed then p2.recycle i else p2) = p3 at *
          cases hc3 : p3.conn i with
          | none =>
            have : p3.close i = p3 := by unfold P.close; rw [hc3]
            rw [this]; exact k1
          | some c3 => exact close_busy k2 (k1.but i) (by rw [hc3]; simp)
  | @lateSend i r hs =>
    have n := h.net i
    cases hc : p.conn i with
    | none => rw [(net_none n hc).1] at hs; cases hs
    | some c =>
      obtain ⟨f1, f2, f3, f4, f5, f6, f7, f8, f9⟩ := failSend_frame p i .timeout
      exact close_busy (h.base.failSend (by intro r y _ hy; cases hy)) (failSend_busyBut (b.but i)).1 (by rw [f4, hc]; simp)
  | @latePend r hr => exact b.frame rfl rfl rfl rfl rfl
  | @lateOwn i r hr => rw [b.own i] at hr; cases hr
  | @lost i c hc => exact close_busy h.base (b.but i) (by rw [hc]; simp)
  | fix => cases he
  | fixFail => cases he
  | sendFixed => cases he
  | sendFixedFail => cases he
  | onewayFixed => cases he
  | releaseNone => cases he
  | release => cases he

/-- Reachable by plain events. -/
inductive Plain (max : Nat) (rc : Bool) : P → Prop where
  | init : Plain max rc (.fresh max rc)
  | step {p p' : P} {e : Event} (h : Plain max rc p) (he : e.plain = true) (hs : Step p e p') : Plain max rc p'

theorem Plain.reach {max : Nat} {rc : Bool} {p : P} (h : Plain max rc p) : Reach max rc false p := by
  induction h with
  | init => exact .init
  | @step p p' e _ he hs ih =>
    refine ih.step ?_ hs
    intro ho
    cases e <;> first | (cases ho; done) | (cases he; done)

/-- **C94e.** Without fixed connections, and if a connection takes what is sent or breaks: a connection number is free if and only if no request waits for its answer there. -/
theorem C94_none_lost {max : Nat} {rc : Bool} {p : P} (h : Plain max rc p) : ∀ i, i < p.max → (i ∈ p.free ↔ p.sendq i = none) := by
  suffices Busy p from this.free
  induction h with
  | init => exact ⟨by intro i hi; simp [P.fresh] at hi ⊢; exact hi, by simp [P.fresh], by simp [P.fresh]⟩
  | step h he hs ih => exact ih.step h.reach.inv he hs

/-! ## Runs -/

/-- One connection: the first request is sent, the second waits and is sent with the answer to the first, and both get their answers. -/
example : ∃ p, Plain 1 false p ∧ p.done = [(1, .rsp 1), (2, .rsp 2)] ∧ p.free = [0] ∧ p.conn 0 = some ⟨false, []⟩ := by
  have h := Plain.init (max := 1) (rc := false)
  have h := h.step (e := .send 1 true false .ok) rfl (.send (i := 0) (by decide) rfl rfl rfl)
  have h := h.step (e := .send 2 true false .ok) rfl (.sendPend (by decide) rfl)
  have h := h.step (e := .answer 0 true true 2 .ok) rfl (.answer (c := ⟨false, [1]⟩) (x := 1) (l := []) rfl rfl (by unfold P.mayPick; decide) rfl)
  have h := h.step (e := .answer 0 true true 0 .ok) rfl (.answer (c := ⟨false, [2]⟩) (x := 2) (l := []) rfl rfl (by unfold P.mayPick; decide) rfl)
  exact ⟨_, h, rfl, rfl, rfl⟩

/-- Two connections: a timeout closes one; the request on the other is answered, and the late answer to the first reaches nobody. -/
example : ∃ p, Plain 2 false p ∧ p.done = [(1, .timeout), (2, .rsp 2), (3, .rsp 3)] ∧ p.free = [1, 0] := by
  have h := Plain.init (max := 2) (rc := false)
  have h := h.step (e := .send 1 true false .ok) rfl (.send (i := 1) (by decide) rfl rfl rfl)
  have h := h.step (e := .send 2 true false .ok) rfl (.send (i := 0) (by decide) rfl rfl rfl)
  have h := h.step (e := .lateSend 1) rfl (.lateSend (r := 1) rfl)
  have h := h.step (e := .send 3 true false .ok) rfl (.send (i := 1) (by decide) rfl rfl rfl)
  have h := h.step (e := .answer 0 true true 0 .ok) rfl (.answer (c := ⟨false, [2]⟩) (x := 2) (l := []) rfl rfl (by unfold P.mayPick; decide) rfl)
  have h := h.step (e := .answer 1 true true 0 .ok) rfl (.answer (c := ⟨false, [3]⟩) (x := 3) (l := []) rfl rfl (by unfold P.mayPick; decide) rfl)
  exact ⟨_, h, rfl, rfl⟩

/-- A fixed connection: its requests go one after the other on it. -/
example : ∃ p, Reach 2 false false p ∧ p.done = [(1, .rsp 1), (2, .rsp 2)] ∧ p.free = [1, 0] := by
  have h := Reach.init (max := 2) (rc := false) (ow := false)
  have h := h.step (e := .fix 7 true) (by decide) (.fix (i := 1) rfl rfl rfl)
  have h := h.step (e := .sendFixed 7 1 true false .ok) (by decide) (.sendFixed (i := 1) (by decide) rfl rfl rfl)
  have h := h.step (e := .sendFixed 7 2 true false .ok) (by decide) (.sendFixed (i := 1) (by decide) rfl rfl rfl)
  have h := h.step (e := .answer 1 true true 2 .ok) (by decide) (.answer (c := ⟨true, [1]⟩) (x := 1) (l := []) rfl rfl (by unfold P.mayPick; decide) rfl)
  have h := h.step (e := .answer 1 true true 0 .ok) (by decide) (.answer (c := ⟨true, [2]⟩) (x := 2) (l := []) rfl rfl (by unfold P.mayPick; decide) rfl)
  have h := h.step (e := .release 7) (by decide) (.release (i := 1) (c := ⟨true, []⟩) rfl rfl rfl rfl)
  exact ⟨_, h, rfl, rfl⟩

/-- **C95a.** A request keeps waiting although every connection is free: the one in front of it timed out, which frees the connection and starts nothing. -/
theorem C95_starves_partial : ∃ p, Plain 1 false p ∧ p.pend = [2] ∧ p.free = [0] ∧ p.sendq 0 = none := by
  have h := Plain.init (max := 1) (rc := false)
  have h := h.step (e := .send 1 true false .ok) rfl (.send (i := 0) (by decide) rfl rfl rfl)
  have h := h.step (e := .send 2 true false .ok) rfl (.sendPend (by decide) rfl)
  have h := h.step (e := .lateSend 0) rfl (.lateSend (r := 1) rfl)
  exact ⟨_, h, rfl, rfl, rfl⟩

/-- **C95b.** The answer that says that the connection is to be closed sends the waiting request on it, and then closes it: the request fails though nothing is wrong with it or the peer. -/
theorem C95_last_answer_partial : ∃ p, Plain 1 false p ∧ p.done = [(1, .rsp 1), (2, .network)] := by
  have h := Plain.init (max := 1) (rc := false)
  have h := h.step (e := .send 1 true false .ok) rfl (.send (i := 0) (by decide) rfl rfl rfl)
  have h := h.step (e := .send 2 true false .ok) rfl (.sendPend (by decide) rfl)
  have h := h.step (e := .answer 0 true false 2 .ok) rfl (.answer (c := ⟨false, [1]⟩) (x := 1) (l := []) rfl rfl (by unfold P.mayPick; decide) rfl)
  exact ⟨_, h, rfl⟩

/-- **C95c.** If a connection refuses a request because its send queue is full, its number is lost: nothing is under way, yet there is no free number and the next request waits. -/
theorem C95_lost_number_partial : ∃ p, Reach 1 false false p ∧ p.done = [(1, .network)] ∧ p.sendq 0 = none ∧ p.free = [] ∧ p.pend = [2] := by
  have h := Reach.init (max := 1) (rc := false) (ow := false)
  have h := h.step (e := .send 1 true false .full) (by decide) (.send (i := 0) (by decide) rfl rfl rfl)
  have h := h.step (e := .send 2 true false .ok) (by decide) (.sendPend (by decide) rfl)
  exact ⟨_, h, rfl, rfl, rfl, rfl⟩

/-- **C95d.** A fixed connection is not its owner's alone: it is lost, its number is given to another owner, and the first owner goes on with the connection of the second. -/
theorem C95_shared_partial : ∃ p, Reach 1 false false p ∧ p.handle 7 = some 0 ∧ p.handle 8 = some 0 ∧ p.sendq 0 = some 2 ∧ p.own 0 = [1] := by
  have h := Reach.init (max := 1) (rc := false) (ow := false)
  have h := h.step (e := .fix 7 true) (by decide) (.fix (i := 0) rfl rfl rfl)
  have h := h.step (e := .lost 0) (by decide) (.lost (c := ⟨true, []⟩) rfl)
  have h := h.step (e := .fix 8 true) (by decide) (.fix (i := 0) rfl rfl rfl)
  have h := h.step (e := .sendFixed 8 2 true false .ok) (by decide) (.sendFixed (i := 0) (by decide) rfl rfl rfl)
  have h := h.step (e := .sendFixed 7 1 true false .ok) (by decide) (.sendFixed (i := 0) (by decide) rfl rfl rfl)
  exact ⟨_, h, rfl, rfl, rfl, rfl⟩

/-- **C95e.** With reconnection, a fixed connection that was lost and made again carries the requests of everybody. -/
theorem C95_ordinary_partial : ∃ p, Reach 1 true false p ∧ p.handle 7 = some 0 ∧ p.conn 0 = some ⟨true, [2]⟩ ∧ p.sendq 0 = some 2 ∧ p.own 0 = [3] := by
  have h := Reach.init (max := 1) (rc := true) (ow := false)
  have h := h.step (e := .fix 7 true) (by decide) (.fix (i := 0) rfl rfl rfl)
  have h := h.step (e := .lost 0) (by decide) (.lost (c := ⟨true, []⟩) rfl)
  have h := h.step (e := .sendFixed 7 1 true false .ok) (by decide) (.sendFixed (i := 0) (by decide) rfl rfl rfl)
  have h := h.step (e := .answer 0 true true 0 .ok) (by decide) (.answer (c := ⟨true, [1]⟩) (x := 1) (l := []) rfl rfl (by unfold P.mayPick; decide) rfl)
  have h := h.step (e := .send 2 true false .ok) (by decide) (.send (i := 0) (by decide) rfl rfl rfl)
  have h := h.step (e := .sendFixed 7 3 true false .ok) (by decide) (.sendFixed (i := 0) (by decide) rfl rfl rfl)
  exact ⟨_, h, rfl, rfl, rfl, rfl⟩

/-- **C95f.** A one-way request on a fixed connection is released while the pool still waits for its answer. -/
theorem C95_freed_partial : ∃ p, Reach 1 false true p ∧ p.sendq 0 = some 1 ∧ 1 ∈ p.freed := by
  have h := Reach.init (max := 1) (rc := false) (ow := true)
  have h := h.step (e := .fix 7 true) (by decide) (.fix (i := 0) rfl rfl rfl)
  have h := h.step (e := .onewayFixed 7 1 true false .ok) (by decide) (.onewayFixed (i := 0) (by decide) rfl rfl rfl)
  exact ⟨_, h, rfl, by decide⟩

end Verif.Transport.Pool
