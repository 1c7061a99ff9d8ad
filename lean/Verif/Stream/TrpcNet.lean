import Verif.Stream.TrpcProofs

/-! The two ends together (C88). -/

namespace Verif.Stream.Trpc

variable {α : Type}

theorem sendReset_mono (e : Ep α) (l st) : e.wire <+: (e.sendReset l st).wire := by
  rcases sendReset_wire e l st with h | ⟨st', h⟩ <;> rw [h]
  · exact List.prefix_refl _
  · exact List.prefix_append _ _

theorem bad_mono (e : Ep α) (l) : e.wire <+: (e.bad l).st.wire := by simpa [Ep.bad, fail] using sendReset_mono e l _
theorem codec_mono (e : Ep α) (l) : e.wire <+: (e.codec l).st.wire := by simpa [Ep.codec, fail] using sendReset_mono e l _

theorem put_mono (e : Ep α) (l f k) (h : (k (e.send true f)).st.wire = e.wire ++ [f]) : e.wire <+: (e.put l f k).st.wire := by
  unfold Ep.put
  split
  · exact codec_mono _ _
  · split
    · simp [fail]
    · rw [h]; exact List.prefix_append _ _

theorem onFinish_wire (e : Ep α) (st) : (e.onFinish st).wire = e.wire := by unfold Ep.onFinish; split <;> rfl

theorem recv_mono (e : Ep α) (l) (r : RMsg α) : e.wire <+: (e.recv l r).st.wire := by
  have hb := bad_mono e l
  have hc := codec_mono e l
  have hi : ∀ x, e.wire <+: (e.handleInit l x).st.wire := by
    intro x; unfold Ep.handleInit
    repeat' split
    all_goals first | exact hb | exact hc | simp [good, fail]
  have hd : ∀ x, e.wire <+: (e.handleData l x).st.wire := by
    intro x; unfold Ep.handleData
    repeat' split
    all_goals first | exact hb | exact hc | simp [good, fail, Ep.onData]
  have hf : ∀ x, e.wire <+: (e.handleFeedback l x).st.wire := by
    intro x; unfold Ep.handleFeedback
    repeat' split
    all_goals first | exact hb | exact hc | simp [good, fail]
  have hcl : ∀ x, e.wire <+: (e.handleClose l x).st.wire := by
    intro x; unfold Ep.handleClose
    repeat' split
    all_goals first | exact hb | exact hc | simp [good, fail, onFinish_wire]
  cases r with
  | frame f => cases f <;> first | exact hi _ | exact hd _ | exact hf _ | exact hcl _
  | corrupt k => cases k <;> first | exact hi _ | exact hd _ | exact hf _ | exact hcl _
  | six => exact List.prefix_refl _
  | unknown => simp [Ep.recv, good]

theorem sendMsg_mono (e : Ep α) (l) (m : SMsg α) : e.wire <+: (e.sendMsg l m).st.wire := by
  have hb := bad_mono e l
  cases m with
  | init =>
    simp only [Ep.sendMsg, Ep.sendInit]
    repeat' split
    all_goals first | exact hb | (refine put_mono _ _ _ _ ?_; (try split) <;> simp [good, fail])
  | data a =>
    simp only [Ep.sendMsg, Ep.sendData]
    repeat' split
    all_goals first | exact hb | (refine put_mono _ _ _ _ ?_; simp [good])
  | feedback n => exact put_mono _ _ _ _ (by simp [good])
  | close b st =>
    simp only [Ep.sendMsg, Ep.sendClose]
    repeat' split
    all_goals first | exact hb | (refine put_mono _ _ _ _ ?_; simp [good])

/-- What a step of one end keeps. -/
structure Keeps (s s' : End α) : Prop where
  wire : s.st.wire <+: s'.st.wire
  recvd : s'.recvd = s.recvd
  term : s.terminate = true → s'.terminate = true
  front : ∀ m, (true, m) ∈ s'.sent → (true, m) ∈ s.sent ∨ m.vis = none

theorem Keeps.same {s s' : End α} (h1 : s'.st.wire = s.st.wire) (h2 : s'.recvd = s.recvd) (h3 : s'.terminate = s.terminate) (h4 : s'.sent = s.sent) : Keeps s s' :=
  ⟨by rw [h1]; exact List.prefix_refl _, h2, fun h => h3.trans h, fun m hm => .inl (h4 ▸ hm)⟩

theorem Keeps.stop (s : End α) : Keeps s s.stop := by
  unfold State.stop
  dsimp only
  split <;> exact ⟨List.prefix_refl _, rfl, fun _ => rfl, fun m hm => .inl hm⟩

theorem wake_fields {σ R S : Type} (s : State σ R S) : s.wake.st = s.st ∧ s.wake.recvd = s.recvd ∧ s.wake.terminate = s.terminate ∧ s.wake.sent = s.sent := by
  unfold State.wake
  split
  · exact ⟨rfl, rfl, rfl, rfl⟩
  · split <;> exact ⟨rfl, rfl, rfl, rfl⟩

theorem Keeps.push (s : End α) (f m) (h : f = true → m.vis = none) : Keeps s (s.pushSend f m) := by
  unfold State.pushSend
  split
  · exact .same rfl rfl rfl rfl
  · obtain ⟨e1, e2, e3, e4⟩ := wake_fields ({ s with sendQ := if f then (true, m) :: s.sendQ else s.sendQ ++ [(false, m)], sent := s.sent ++ [(f, m)] } : End α)
    refine ⟨by rw [e1]; exact List.prefix_refl _, e2, fun hh => e3.trans hh, fun m' hm => ?_⟩
    rw [e4] at hm
    simp only [List.mem_append, List.mem_singleton, Prod.mk.injEq] at hm
    rcases hm with hm | ⟨hm, rfl⟩
    · exact .inl hm
    · exact .inr (h hm.symm)

theorem Keeps.op (s : End α) (o) : Keeps s (s.op o) := by
  cases o with
  | push m => exact .push s false m nofun
  | stop => exact .stop s

theorem Own.keeps {b : Bool} {s s' : End α} (h : Own b s s') : Keeps s s' := by
  cases h with
  | run hr =>
    cases hr with
    | recv _ hh => obtain ⟨l, rfl⟩ := hh; exact ⟨recv_mono _ _ _, rfl, id, fun m hm => .inl hm⟩
    | send _ hh => obtain ⟨l, rfl⟩ := hh; exact ⟨sendMsg_mono _ _ _, rfl, id, fun m hm => .inl hm⟩
    | op => obtain ⟨h1, h2, h3, h4⟩ := Keeps.op s ‹_›; exact ⟨h1, h2, h3, h4⟩
    | error => obtain ⟨h1, h2, h3, h4⟩ := Keeps.stop s; exact ⟨h1, h2, h3, h4⟩
    | _ => exact .same rfl rfl rfl rfl
  | use hu => exact .same hu.fields.2.1 rfl rfl rfl
  | start _ => exact .push _ _ _ nofun
  | write a => exact .push _ _ _ nofun
  | close r st => exact .push _ _ _ nofun
  | feedback n => exact .push _ _ _ fun _ => rfl
  | stop => exact .stop _

theorem Own.step {b : Bool} {s s' : End α} (h : Own b s s') : Step handlers s s' := by
  cases h with
  | run hr => exact .run hr
  | use hu => exact .env hu
  | start _ => exact .pushSend _ _
  | write a => exact .pushSend _ _
  | close r st => exact .pushSend _ _
  | feedback n => exact .pushSend _ _
  | stop => exact .stop

/-- An end `s` that got the first `n` frames of the wire of the other end. -/
structure Got1 (s : End α) (wire : List (Frame α)) (n : Nat) : Prop where
  le : n ≤ wire.length
  pre : s.recvd.filterMap RMsg.vis <+: (wire.take n).filterMap Frame.vis
  eq : s.terminate = false → s.recvd.filterMap RMsg.vis = (wire.take n).filterMap Frame.vis

theorem Got1.keeps {s s' : End α} {w n} (h : Got1 s w n) (k : Keeps s s') : Got1 s' w n := by
  refine ⟨h.le, by rw [k.recvd]; exact h.pre, fun ht => ?_⟩
  rw [k.recvd]
  refine h.eq ?_
  cases hh : s.terminate with
  | false => rfl
  | true => rw [k.term hh] at ht; cases ht

theorem Got1.grow {s : End α} {w w' n} (h : Got1 s w n) (k : w <+: w') : Got1 s w' n := by
  obtain ⟨x, rfl⟩ := k
  have e : (w ++ x).take n = w.take n := List.take_append_of_le_length h.le
  exact ⟨Nat.le_trans h.le (by simp), by rw [e]; exact h.pre, by rw [e]; exact h.eq⟩

theorem pushRecv_fields (s : End α) (r) : (s.pushRecv r).st = s.st ∧ (s.pushRecv r).sent = s.sent ∧ (s.pushRecv r).terminate = s.terminate ∧
    (s.pushRecv r).recvd = if s.terminate then s.recvd else s.recvd ++ [r] := by
  unfold State.pushRecv
  split
  · simp
  · next h =>
    obtain ⟨e1, e2, e3, e4⟩ := wake_fields ({ s with recvQ := s.recvQ ++ [r], recvd := s.recvd ++ [r] } : End α)
    exact ⟨e1, e4, e3, e2⟩

theorem Got1.deliver {s : End α} {w n f} (h : Got1 s w n) (hf : w[n]? = some f) : Got1 (s.pushRecv (.frame f)) w (n + 1) := by
  obtain ⟨e1, e2, e3, e4⟩ := pushRecv_fields s (.frame f)
  have hlt : n < w.length := by
    rcases Nat.lt_or_ge n w.length with h' | h'
    · exact h'
    · rw [List.getElem?_eq_none h'] at hf; cases hf
  have hx : w[n] = f := by rw [List.getElem?_eq_getElem hlt] at hf; exact Option.some.inj hf
  have ht : w.take (n + 1) = w.take n ++ [f] := by rw [List.take_succ_eq_append_getElem hlt, hx]
  refine ⟨hlt, ?_, fun hh => ?_⟩
  · rw [e4, ht, List.filterMap_append]
    cases hh : s.terminate with
    | true => exact h.pre.trans (List.prefix_append _ _)
    | false =>
      simp only [Bool.false_eq_true, if_false, List.filterMap_append, h.eq hh]
      exact List.prefix_refl _
  · rw [e3] at hh
    rw [e4, ht, hh, List.filterMap_append]
    simp only [Bool.false_eq_true, if_false, List.filterMap_append, h.eq hh]
    rfl

theorem Got1.cut {s : End α} {w n} (h : Got1 s w n) (st : Status) : Got1 (s.pushRecv (.frame (.close true st))) w n := by
  obtain ⟨e1, e2, e3, e4⟩ := pushRecv_fields s (.frame (.close true st))
  have e5 : (s.pushRecv (.frame (.close true st))).recvd.filterMap RMsg.vis = s.recvd.filterMap RMsg.vis := by
    rw [e4]; split
    · rfl
    · simp [RMsg.vis, Frame.vis]
  exact ⟨h.le, by rw [e5]; exact h.pre, by rw [e5, e3]; exact h.eq⟩

structure NInv (n : Net α) : Prop where
  rc : Reach handlers (.fresh false) n.c
  rs : Reach handlers (.fresh true) n.s
  fc : ∀ m, (true, m) ∈ n.c.sent → m.vis = none
  fs : ∀ m, (true, m) ∈ n.s.sent → m.vis = none
  gs : Got1 n.s n.c.st.wire n.toS
  gc : Got1 n.c n.s.st.wire n.toC

theorem NReach.inv {n : Net α} (h : NReach n) : NInv n := by
  induction h with
  | init => exact ⟨.init, .init, nofun, nofun, ⟨Nat.le_refl _, List.prefix_refl _, fun _ => rfl⟩, ⟨Nat.le_refl _, List.prefix_refl _, fun _ => rfl⟩⟩
  | @step n _ _ hs ih =>
    obtain ⟨rc, rs, fc, fs, gs, gc⟩ := ih
    cases hs with
    | client ho =>
      have k := ho.keeps
      exact ⟨rc.step ho.step, rs, fun m hm => (k.front m hm).elim (fc m) id, fs, gs.grow k.wire, gc.keeps k⟩
    | server ho =>
      have k := ho.keeps
      exact ⟨rc, rs.step ho.step, fc, fun m hm => (k.front m hm).elim (fs m) id, gs.keeps k, gc.grow k.wire⟩
    | @toServer f hf hc =>
      obtain ⟨e1, e2, e3, e4⟩ := pushRecv_fields n.s (.frame f)
      exact ⟨rc, rs.step (.pushRecv _), fc, by dsimp only; rw [e2]; exact fs, gs.deliver hf, by dsimp only; rw [e1]; exact gc⟩
    | @toClient f hf hc =>
      obtain ⟨e1, e2, e3, e4⟩ := pushRecv_fields n.c (.frame f)
      exact ⟨rc.step (.pushRecv _), rs, by dsimp only; rw [e2]; exact fc, fs, by dsimp only; rw [e1]; exact gs, gc.deliver hf⟩
    | cutServer hc =>
      obtain ⟨e1, e2, e3, e4⟩ := pushRecv_fields n.s (.frame (.close true networkErr))
      exact ⟨rc, rs.step (.pushRecv _), fc, by dsimp only; rw [e2]; exact fs, gs.cut _, by dsimp only; rw [e1]; exact gc⟩
    | cutClient hc =>
      obtain ⟨e1, e2, e3, e4⟩ := pushRecv_fields n.c (.frame (.close true networkErr))
      exact ⟨rc.step (.pushRecv _), rs, by dsimp only; rw [e2]; exact fc, fs, by dsimp only; rw [e1]; exact gs, gc.cut _⟩

/-- Messages of the writer in the order in which `Write` and `Close` were called and accepted: `some a` is a message, `none` an orderly close. -/
def written (s : End α) : List (Option α) := (back s.sent).filterMap SMsg.vis

theorem vis_back (l : List (Bool × SMsg α)) (h : ∀ m, (true, m) ∈ l → m.vis = none) : l.filterMap (fun x => x.2.vis) = (back l).filterMap SMsg.vis := by
  induction l with
  | nil => rfl
  | cons x l ih =>
    obtain ⟨b, m⟩ := x
    have ih := ih fun m hm => h m (List.mem_cons_of_mem _ hm)
    cases b with
    | true => simp [List.filterMap_cons, h m (List.mem_cons_self ..), ih]
    | false => simp [List.filterMap_cons, ih]

/-- What an end put on the wire is what was written. -/
theorem wire_written {b : Bool} {s : End α} (hr : Reach handlers (.fresh b) s) (hf : ∀ m, (true, m) ∈ s.sent → m.vis = none) :
    s.st.wire.filterMap Frame.vis <+: written s := by
  have hw := (flow hr).wir
  obtain ⟨_, h2, rest, h3⟩ := C87_order hr
  rw [vis_back _ fun m hm => hf m (h3.subset (List.mem_append_left _ hm))] at hw
  exact hw.trans (h2.filterMap _)

theorem seen_recvd {b : Bool} {s : End α} (hr : Reach handlers (.fresh b) s) : s.st.arrived <+: s.recvd.filterMap RMsg.vis :=
  (flow hr).arr.trans ((C87_order hr).1.filterMap _)

theorem take_prefix {α} (l : List α) (n : Nat) : l.take n <+: l := List.take_prefix n l

/-- **C88** (order): at either end, what `Read` returned together with what is still in the reader's queue is a prefix of what the other end accepted from `Write` and
`Close`: nothing is lost, repeated, changed or put in another order, and the end of file is where `Close` was called. -/
theorem C88_order {n : Net α} (h : NReach n) :
    (n.c.st.taken.map some ++ n.c.st.reader) <+: written n.s ∧ (n.s.st.taken.map some ++ n.s.st.reader) <+: written n.c := by
  have hi := h.inv
  constructor
  · exact (seen_recvd hi.rc).trans (hi.gc.pre.trans (((take_prefix _ _).filterMap _).trans (wire_written hi.rs hi.fs)))
  · exact (seen_recvd hi.rs).trans (hi.gs.pre.trans (((take_prefix _ _).filterMap _).trans (wire_written hi.rc hi.fc)))

/-- **C88** (end of file): when `Read` returns the end of file it has returned all messages that the other end accepted before its `Close`. -/
theorem C88_eof {n : Net α} (h : NReach n) :
    (∀ e, n.c.st.read = some (.eof, e) → ∃ later, written n.s = n.c.st.taken.map some ++ none :: later) ∧
    (∀ e, n.s.st.read = some (.eof, e) → ∃ later, written n.c = n.s.st.taken.map some ++ none :: later) := by
  have key : ∀ e e' : Ep α, e.read = some (.eof, e') → ∃ r, e.reader = none :: r := by
    intro e e' he
    unfold Ep.read at he
    split at he
    · cases he
    · next hr => exact ⟨_, hr⟩
    · split at he <;> cases he
  obtain ⟨⟨x, hx⟩, ⟨y, hy⟩⟩ := C88_order h
  constructor
  · intro e he
    obtain ⟨r, hr⟩ := key _ _ he
    exact ⟨r ++ x, by rw [← hx, hr]; simp⟩
  · intro e he
    obtain ⟨r, hr⟩ := key _ _ he
    exact ⟨r ++ y, by rw [← hy, hr]; simp⟩

theorem total_recv (e : Ep α) (r) : ∃ o, (handlers : Handlers (Ep α) _ _).recv e r o := ⟨_, ⟨true, true, true, .succ⟩, rfl⟩
theorem total_send (e : Ep α) (m) : ∃ o, (handlers : Handlers (Ep α) _ _).send e m o := ⟨_, ⟨true, true, true, .succ⟩, rfl⟩

theorem quiet_arrived {b : Bool} {s : End α} (hr : Reach handlers (.fresh b) s) (hq : ∀ s', ¬ Run handlers s s') (hf : s.failed = false) (hc : s.st.state ≠ .closed) :
    s.st.arrived = s.recvd.filterMap RMsg.vis := by
  rw [(flow hr).arrEq hf hc, ((C87_quiet total_recv total_send hr hq).1 hf).1]

theorem quiet_wire {b : Bool} {s : End α} (hr : Reach handlers (.fresh b) s) (hq : ∀ s', ¬ Run handlers s s') (hf : s.failed = false)
    (hfr : ∀ m, (true, m) ∈ s.sent → m.vis = none) : s.st.wire.filterMap Frame.vis = written s := by
  obtain ⟨_, h2, h3⟩ := (C87_quiet total_recv total_send hr hq).1 hf
  rw [(flow hr).wirEq hf, vis_back _ fun m hm => hfr m (h2.subset hm), h3, written]

/-- **C88** (completeness): when both ends are at rest, all frames have arrived, no handler has failed and the receiving end was neither closed nor stopped, the reader has
got everything. -/
theorem C88_complete {n : Net α} (h : NReach n) (qc : ∀ s', ¬ Run handlers n.c s') (qs : ∀ s', ¬ Run handlers n.s s') (fc : n.c.failed = false) (fs : n.s.failed = false) :
    (n.toC = n.s.st.wire.length → n.c.st.state ≠ .closed → n.c.terminate = false → n.c.st.taken.map some ++ n.c.st.reader = written n.s) ∧
    (n.toS = n.c.st.wire.length → n.s.st.state ≠ .closed → n.s.terminate = false → n.s.st.taken.map some ++ n.s.st.reader = written n.c) := by
  have hi := h.inv
  constructor
  · intro hn hc ht
    have e := (quiet_arrived hi.rc qc fc hc).trans (hi.gc.eq ht)
    rw [hn, List.take_length, quiet_wire hi.rs qs fs hi.fs] at e
    exact e
  · intro hn hc ht
    have e := (quiet_arrived hi.rs qs fs hc).trans (hi.gs.eq ht)
    rw [hn, List.take_length, quiet_wire hi.rc qc fc hi.fc] at e
    exact e

end Verif.Stream.Trpc
