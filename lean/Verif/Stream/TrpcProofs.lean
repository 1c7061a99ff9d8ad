import Verif.Stream.SchedProps
import Verif.Stream.Trpc

/-! Invariants of the ends of tRPC streams. -/

namespace Verif.Stream

/-- To show something of the state of a stream and the messages that were handled, look at the handlers: they run only as long as none has failed. -/
theorem Reach.lift {σ R S : Type} {h : Handlers σ R S} {st0 : σ} (I : σ → Bool → List R → List (Bool × S) → Prop) (h0 : I st0 false [] [])
    (hr : ∀ st hR hS r o, I st false hR hS → h.recv st r o → I o.st o.err (hR ++ [r]) hS)
    (hs : ∀ st hR hS m o, I st false hR hS → h.send st m.2 o → I o.st o.err hR (hS ++ [m]))
    (he : ∀ st st' f hR hS, I st f hR hS → h.env st st' → I st' f hR hS)
    {s} (hreach : Reach h st0 s) : I s.st s.failed s.handledR s.handledS := by
  induction hreach with
  | init => exact h0
  | @step s s' hreach hstep ih =>
    have hi := hreach.inv
    have hop : ∀ o : Op S, (s.op o).st = s.st ∧ (s.op o).failed = s.failed ∧ (s.op o).handledR = s.handledR ∧ (s.op o).handledS = s.handledS := by
      intro o
      cases o with
      | push m =>
        simp only [State.op, State.pushSend, State.wake]
        repeat' split
        all_goals exact ⟨rfl, rfl, rfl, rfl⟩
      | stop =>
        simp only [State.op, State.stop]
        split <;> exact ⟨rfl, rfl, rfl, rfl⟩
    cases hstep with
    | run hrun =>
      cases hrun with
      | recv hp hh =>
        have hf := (hi.err _ _ _ _ hp).symm
        rw [hf] at ih
        exact hr _ _ _ _ _ ih hh
      | send hp hh =>
        have hf := (hi.err _ _ _ _ hp).symm
        rw [hf] at ih
        exact hs _ _ _ _ _ ih hh
      | op hp =>
        obtain ⟨e1, e2, e3, e4⟩ := hop ‹_›
        dsimp only
        rw [e1, e2, e3, e4]
        exact ih
      | error hp =>
        obtain ⟨e1, e2, e3, e4⟩ := hop .stop
        simp only [State.op] at e1 e2 e3 e4
        dsimp only
        rw [e1, e2, e3, e4]
        exact ih
      | _ => exact ih
    | pushRecv r =>
      simp only [State.pushRecv, State.wake]
      repeat' split
      all_goals exact ih
    | pushSend f m =>
      simp only [State.pushSend, State.wake]
      repeat' split
      all_goals exact ih
    | stop =>
      obtain ⟨e1, e2, e3, e4⟩ := hop .stop
      simp only [State.op] at e1 e2 e3 e4
      rw [e1, e2, e3, e4]
      exact ih
    | env hv => exact he _ _ _ _ _ ih hv

namespace Trpc

variable {α : Type}

/-- What a reader may see of a frame: its data, or the end of file. -/
def Frame.vis : Frame α → Option (Option α)
  | .data a => some (some a)
  | .close false _ => some none
  | _ => none

def RMsg.vis : RMsg α → Option (Option α)
  | .frame f => f.vis
  | _ => none

def SMsg.vis : SMsg α → Option (Option α)
  | .data a => some (some a)
  | .close false _ => some none
  | _ => none

/-- All that was put into the reader's queue. -/
def Ep.arrived (e : Ep α) : List (Option α) := e.taken.map some ++ e.reader

/-- The reader's queue and the wire against the messages that were handled. -/
structure Flow (e : Ep α) (failed : Bool) (hR : List (RMsg α)) (hS : List (Bool × SMsg α)) : Prop where
  arr : e.arrived <+: hR.filterMap RMsg.vis
  arrEq : failed = false → e.state ≠ .closed → e.arrived = hR.filterMap RMsg.vis
  wir : e.wire.filterMap Frame.vis <+: hS.filterMap fun x => x.2.vis
  wirEq : failed = false → e.wire.filterMap Frame.vis = hS.filterMap fun x => x.2.vis
  nf : e.simple = .finished → failed = false → e.state = .closed ∨ e.state = .remoteClosed

@[simp] theorem arrived_state (e : Ep α) (s : St) : ({ e with state := s } : Ep α).arrived = e.arrived := rfl

@[simp] theorem onReady_arrived (e : Ep α) : e.onReady.arrived = e.arrived := by unfold Ep.onReady; split <;> rfl
@[simp] theorem onReady_wire (e : Ep α) : e.onReady.wire = e.wire := by unfold Ep.onReady; split <;> rfl
@[simp] theorem onReady_state (e : Ep α) : e.onReady.state = e.state := by unfold Ep.onReady; split <;> rfl
@[simp] theorem onReady_server (e : Ep α) : e.onReady.server = e.server := by unfold Ep.onReady; split <;> rfl
@[simp] theorem onReady_crashed (e : Ep α) : e.onReady.crashed = e.crashed := by unfold Ep.onReady; split <;> rfl
@[simp] theorem onReady_simple (e : Ep α) : e.onReady.simple = .ready := by unfold Ep.onReady; split <;> simp_all

@[simp] theorem onError_arrived (e : Ep α) (st) : (e.onError st).arrived = e.arrived := by
  unfold Ep.onError
  repeat' split
  all_goals rfl
@[simp] theorem onError_wire (e : Ep α) (st) : (e.onError st).wire = e.wire := by
  unfold Ep.onError
  repeat' split
  all_goals rfl
@[simp] theorem onError_state (e : Ep α) (st) : (e.onError st).state = e.state := by
  unfold Ep.onError
  repeat' split
  all_goals rfl
@[simp] theorem onError_server (e : Ep α) (st) : (e.onError st).server = e.server := by
  unfold Ep.onError
  repeat' split
  all_goals rfl
theorem onError_simple (e : Ep α) {st : Status} (h : st.ok = false) : (e.onError st).simple = .error := by
  unfold Ep.onError; rw [if_neg (by simp [h])]; split <;> simp_all
theorem onError_crashed (e : Ep α) {st : Status} (h : st.ok = false) : (e.onError st).crashed = e.crashed := by
  unfold Ep.onError; rw [if_neg (by simp [h])]; split <;> rfl

@[simp] theorem send_arrived (e : Ep α) (b f) : (e.send b f).arrived = e.arrived := by unfold Ep.send; split; rfl; simp
@[simp] theorem send_state (e : Ep α) (b f) : (e.send b f).state = e.state := by unfold Ep.send; split; rfl; simp
@[simp] theorem send_server (e : Ep α) (b f) : (e.send b f).server = e.server := by unfold Ep.send; split; rfl; simp
@[simp] theorem send_wire (e : Ep α) (f) : (e.send true f).wire = e.wire ++ [f] := rfl
@[simp] theorem send_wire_false (e : Ep α) (f) : (e.send false f).wire = e.wire := by simp [Ep.send]
@[simp] theorem send_simple (e : Ep α) (f) : (e.send true f).simple = e.simple := rfl
theorem send_crashed (e : Ep α) (b f) : (e.send b f).crashed = e.crashed := by unfold Ep.send; split; rfl; exact onError_crashed _ rfl

@[simp] theorem sendReset_arrived (e : Ep α) (l st) : (e.sendReset l st).arrived = e.arrived := by simp [Ep.sendReset]
@[simp] theorem sendReset_state (e : Ep α) (l st) : (e.sendReset l st).state = .closed := by simp [Ep.sendReset]
@[simp] theorem sendReset_server (e : Ep α) (l st) : (e.sendReset l st).server = e.server := by simp [Ep.sendReset]
@[simp] theorem sendReset_vis (e : Ep α) (l st) : (e.sendReset l st).wire.filterMap Frame.vis = e.wire.filterMap Frame.vis := by
  unfold Ep.sendReset Ep.send; split <;> simp [Frame.vis]
theorem sendReset_wire (e : Ep α) (l st) : (e.sendReset l st).wire = e.wire ∨ ∃ st', (e.sendReset l st).wire = e.wire ++ [.close true st'] := by
  unfold Ep.sendReset Ep.send
  split
  · exact .inr ⟨_, rfl⟩
  · exact .inl (by simp)
theorem sendReset_crashed (e : Ep α) (l st) : (e.sendReset l st).crashed = e.crashed := by simp [Ep.sendReset, send_crashed]

/-- An end that failed saw a prefix of what it should. -/
theorem Flow.failed {e e' : Ep α} {hR hS} (h : Flow e false hR hS) (r : List (RMsg α)) (m : List (Bool × SMsg α)) (ha : e'.arrived = e.arrived)
    (hw : e'.wire.filterMap Frame.vis = e.wire.filterMap Frame.vis) : Flow e' true (hR ++ r) (hS ++ m) := by
  refine ⟨?_, nofun, ?_, nofun, fun _ => nofun⟩
  · rw [ha, List.filterMap_append]; exact h.arr.trans (List.prefix_append _ _)
  · rw [hw, List.filterMap_append]; exact h.wir.trans (List.prefix_append _ _)

theorem Flow.bad {e : Ep α} {hR hS} (h : Flow e false hR hS) (r m l) : Flow (e.bad l).st (e.bad l).err (hR ++ r) (hS ++ m) := h.failed _ _ (by simp [Ep.bad, Ep.codec, fail]) (by simp [Ep.bad, Ep.codec, fail])
theorem Flow.codec {e : Ep α} {hR hS} (h : Flow e false hR hS) (r m l) : Flow (e.codec l).st (e.codec l).err (hR ++ r) (hS ++ m) := h.failed _ _ (by simp [Ep.bad, Ep.codec, fail]) (by simp [Ep.bad, Ep.codec, fail])

theorem Flow.put {e : Ep α} {hR hS} (h : Flow e false hR hS) (r m l f k) (hk : Flow (k (e.send true f)).st (k (e.send true f)).err (hR ++ r) (hS ++ m)) :
    Flow (e.put l f k).st (e.put l f k).err (hR ++ r) (hS ++ m) := by
  unfold Ep.put
  split
  · exact h.codec _ _ _
  · split
    · exact h.failed _ _ (by simp [fail]) (by simp [fail])
    · exact hk

theorem Flow.recv {e : Ep α} {hR hS} (h : Flow e false hR hS) (l r) : Flow (e.recv l r).st (e.recv l r).err (hR ++ [r]) hS := by
  have hb := h.bad [r] [] l
  have hc := h.codec [r] [] l
  have hfl := fun (e' : Ep α) => h.failed (e' := e') [r] []
  simp only [List.append_nil] at hb hc hfl
  have hinit : ∀ ret, r.vis = none → Flow (e.handleInit l ret).st (e.handleInit l ret).err (hR ++ [r]) hS := by
    intro ret hv
    obtain ⟨a1, a2, a3, a4, a5⟩ := h
    unfold Ep.handleInit
    split
    · split
      · exact hb
      · next hs =>
        have hs : e.state = .idle := by simpa using hs
        cases ret with
        | none => exact hc
        | some x =>
          refine ⟨?_, fun _ _ => ?_, a3, a4, fun hh hf => ?_⟩
          · simpa [good, hv, List.filterMap_cons] using a1
          · simpa [good, hv, List.filterMap_cons] using a2 rfl (by rw [hs]; nofun)
          · have := a5 hh rfl; rw [hs] at this; simp at this
    · split
      · exact hb
      · next hs =>
        have hs : e.state = .init := by simpa using hs
        cases ret with
        | none => exact hc
        | some x =>
          dsimp only
          split
          · exact hfl _ (by simp [fail]) (by simp [fail])
          · refine ⟨?_, fun _ _ => ?_, by simpa [good] using a3, by simpa [good] using a4, fun hh hf => ?_⟩
            · simpa [good, hv, List.filterMap_cons] using a1
            · simpa [good, hv, List.filterMap_cons] using a2 rfl (by rw [hs]; nofun)
            · simp [good] at hh
  have hdata : ∀ a : Option α, (a = none → r.vis = none) → (∀ x, a = some x → r.vis = some (some x)) → Flow (e.handleData l a).st (e.handleData l a).err (hR ++ [r]) hS := by
    intro a hn hv
    unfold Ep.handleData
    split
    · exact hb
    · next hs =>
      cases a with
      | none => exact hc
      | some x =>
        obtain ⟨a1, a2, a3, a4, a5⟩ := h
        have hs' : e.state = .opened ∨ e.state = .localClosed := by
          by_cases h1 : e.state = .opened <;> by_cases h2 : e.state = .localClosed <;> simp_all
        have heq : e.arrived = hR.filterMap RMsg.vis := a2 rfl (by rcases hs' with h' | h' <;> rw [h'] <;> nofun)
        have hnew : (e.onData x).arrived = (hR ++ [r]).filterMap RMsg.vis := by
          rw [List.filterMap_append, ← heq]; simp [hv x rfl, List.filterMap_cons, Ep.arrived, Ep.onData]
        refine ⟨?_, fun _ _ => hnew, a3, a4, fun hh hf => a5 hh hf⟩
        simp only [good]; rw [hnew]; exact List.prefix_refl _
  have hfb : ∀ b, r.vis = none → Flow (e.handleFeedback l b).st (e.handleFeedback l b).err (hR ++ [r]) hS := by
    intro b hv
    unfold Ep.handleFeedback
    split
    · obtain ⟨a1, a2, a3, a4, a5⟩ := h
      exact ⟨by simpa [good, hv, List.filterMap_cons] using a1, by simpa [good, hv, List.filterMap_cons] using a2, a3, a4, a5⟩
    · exact hc
  have hclose : ∀ m : Option (Bool × Status), (∀ st, m = some (false, st) → r.vis = some none) → Flow (e.handleClose l m).st (e.handleClose l m).err (hR ++ [r]) hS := by
    intro m hv
    unfold Ep.handleClose
    split
    · next hs =>
      obtain ⟨a1, a2, a3, a4, a5⟩ := h
      refine ⟨?_, fun _ hh => absurd hs hh, a3, a4, a5⟩
      simp only [good, List.filterMap_append]
      exact a1.trans (List.prefix_append _ _)
    · next hs =>
      match m, hv with
      | none, _ => exact hc
      | some (true, st), _ => exact hfl _ (by simp [fail]) (by simp [fail])
      | some (false, st), hv =>
        have hv := hv st rfl
        obtain ⟨a1, a2, a3, a4, a5⟩ := h
        have heq : e.arrived = hR.filterMap RMsg.vis := a2 rfl hs
        have hnew : ∀ s' : St, e.simple ≠ .finished → (({ e with state := s' } : Ep α).onFinish st).arrived = (hR ++ [r]).filterMap RMsg.vis := by
          intro s' hn
          rw [List.filterMap_append, ← heq]; simp [hv, List.filterMap_cons, Ep.arrived, Ep.onFinish, hn]
        have hstate : ∀ s' : St, (({ e with state := s' } : Ep α).onFinish st).state = s' := by intro s'; unfold Ep.onFinish; split <;> rfl
        have hwire : ∀ s' : St, (({ e with state := s' } : Ep α).onFinish st).wire = e.wire := by intro s'; unfold Ep.onFinish; split <;> rfl
        dsimp only
        split
        · split
          · exact hb
          · next hs2 =>
            have hs2 : e.state = .opened := by simpa using hs2
            have hn : e.simple ≠ .finished := by intro hh; have := a5 hh rfl; rw [hs2] at this; simp at this
            refine ⟨?_, fun _ _ => hnew _ hn, by simpa [good, hwire] using a3, by simpa [good, hwire] using a4, fun _ _ => .inr (hstate _)⟩
            simp only [good]; rw [hnew _ hn]; exact List.prefix_refl _
        · split
          · exact hb
          · next hs2 =>
            split
            · exact hfl _ (by simp [fail]) (by simp [fail])
            · have hn : e.simple ≠ .finished := by intro hh; have := a5 hh rfl; simp_all
              refine ⟨?_, fun _ _ => hnew _ hn, by simpa [good, hwire] using a3, by simpa [good, hwire] using a4, fun _ _ => .inl (hstate _)⟩
              simp only [good]; rw [hnew _ hn]; exact List.prefix_refl _
  cases r with
  | frame f =>
    cases f with
    | init x => exact hinit _ rfl
    | data a => exact hdata _ nofun (fun x hx => by cases hx; rfl)
    | feedback n => exact hfb _ rfl
    | close b st => exact hclose _ (fun st' hx => by cases hx; rfl)
  | corrupt k =>
    cases k with
    | init => exact hinit _ rfl
    | data => exact hdata _ (fun _ => rfl) nofun
    | feedback => exact hfb _ rfl
    | close => exact hclose _ nofun
  | six => exact hfl _ rfl rfl
  | unknown =>
    obtain ⟨a1, a2, a3, a4, a5⟩ := h
    refine ⟨by simpa [Ep.recv, good, RMsg.vis, List.filterMap_cons] using a1, by simpa [Ep.recv, good, RMsg.vis, List.filterMap_cons] using a2, by simpa [Ep.recv, good] using a3, by simpa [Ep.recv, good] using a4, fun hh hf => ?_⟩
    rw [show (e.recv l .unknown).st = e.onError codecErr from rfl, onError_simple _ rfl] at hh
    cases hh

theorem Flow.sendMsg {e : Ep α} {hR hS} (h : Flow e false hR hS) (l) (m : Bool × SMsg α) : Flow (e.sendMsg l m.2).st (e.sendMsg l m.2).err hR (hS ++ [m]) := by
  have hb := h.bad [] [m] l
  have hp := fun f k => h.put [] [m] l f k
  simp only [List.append_nil] at hb hp
  obtain ⟨a1, a2, a3, a4, a5⟩ := h
  have hw : ∀ f : Frame α, f.vis = m.2.vis → (e.send true f).wire.filterMap Frame.vis = (hS ++ [m]).filterMap fun x => x.2.vis := by
    intro f hf; simp only [send_wire, List.filterMap_append, a4 rfl]; simp [List.filterMap_cons, hf]
  obtain ⟨b, m⟩ := m
  cases m with
  | init =>
    simp only [Ep.sendMsg, Ep.sendInit]
    split
    · split
      · exact hb
      · next hs =>
        have hs : e.state = .init := by simpa using hs
        refine hp _ _ ?_
        split
        · refine ⟨by first | exact a1 | (simp only [good, onReady_arrived]; exact a1), fun _ _ => by first | exact a2 rfl (by rw [hs]; nofun) | (simp only [good, onReady_arrived]; exact a2 rfl (by rw [hs]; nofun)), ?_, fun _ => ?_, ?_⟩
          · simp only [good, onReady_wire]; rw [hw _ rfl]; exact List.prefix_refl _
          · simp only [good, onReady_wire]; rw [hw _ rfl]
          · simp [good]
        · refine ⟨by exact a1, nofun, ?_, nofun, fun _ => nofun⟩
          simp only [fail]; rw [hw _ rfl]; exact List.prefix_refl _
    · split
      · exact hb
      · next hs =>
        have hs : e.state = .idle := by simpa using hs
        refine hp _ _ ⟨by first | exact a1 | (simp only [good, onReady_arrived]; exact a1), fun _ _ => by first | exact a2 rfl (by rw [hs]; nofun) | (simp only [good, onReady_arrived]; exact a2 rfl (by rw [hs]; nofun)), ?_, fun _ => hw _ rfl, ?_⟩
        · simp only [good]; rw [hw _ rfl]; exact List.prefix_refl _
        · intro hh hf; have := a5 hh rfl; rw [hs] at this; simp at this
  | data a =>
    simp only [Ep.sendMsg, Ep.sendData]
    split
    · exact hb
    · refine hp _ _ ⟨by first | exact a1 | (simp only [good, onReady_arrived]; exact a1), fun _ hh => by simpa [good] using a2 rfl hh, ?_, fun _ => hw _ rfl, fun hh hf => by simpa [good] using a5 hh hf⟩
      simp only [good]; rw [hw _ rfl]; exact List.prefix_refl _
  | feedback n =>
    refine hp _ _ ⟨by first | exact a1 | (simp only [good, onReady_arrived]; exact a1), fun _ hh => by simpa [good] using a2 rfl hh, ?_, fun _ => hw _ rfl, fun hh hf => by simpa [good] using a5 hh hf⟩
    simp only [good]; rw [hw _ rfl]; exact List.prefix_refl _
  | close r st =>
    simp only [Ep.sendMsg, Ep.sendClose]
    split
    · split
      · exact hb
      · refine hp _ _ ⟨by first | exact a1 | (simp only [good, onReady_arrived]; exact a1), fun _ hh => absurd rfl hh, ?_, fun _ => hw _ (by cases r <;> rfl), fun hh hf => .inl rfl⟩
        simp only [good]; rw [hw _ (by cases r <;> rfl)]; exact List.prefix_refl _
    · split
      · exact hb
      · next hs =>
        have hs : e.state = .opened := by simpa using hs
        refine hp _ _ ⟨by first | exact a1 | (simp only [good, onReady_arrived]; exact a1), fun _ _ => by first | exact a2 rfl (by rw [hs]; nofun) | (simp only [good, onReady_arrived]; exact a2 rfl (by rw [hs]; nofun)), ?_, fun _ => hw _ (by cases r <;> rfl), ?_⟩
        · simp only [good]; rw [hw _ (by cases r <;> rfl)]; exact List.prefix_refl _
        · intro hh hf; have := a5 hh rfl; rw [hs] at this; simp at this

/-- Users of the stream only move messages from the queue to themselves. -/
theorem Use.fields {e e' : Ep α} (h : Use e e') : e'.arrived = e.arrived ∧ e'.wire = e.wire ∧ e'.state = e.state ∧ e'.server = e.server ∧ e'.crashed = e.crashed ∧
    (e'.simple = e.simple ∨ e'.simple = .error) := by
  cases h with
  | read h =>
    unfold Ep.read at h
    split at h
    · next hr => cases h; exact ⟨by simp [Ep.arrived, hr], rfl, rfl, rfl, rfl, .inl rfl⟩
    · split at h <;> cases h <;> exact ⟨rfl, rfl, rfl, rfl, rfl, .inl rfl⟩
    · split at h
      · cases h; exact ⟨rfl, rfl, rfl, rfl, rfl, .inl rfl⟩
      · cases h
  | finish => exact ⟨by simp, by simp, by simp, by simp, onError_crashed _ rfl, .inr (onError_simple _ rfl)⟩
  | start => exact ⟨rfl, rfl, rfl, rfl, rfl, .inl rfl⟩

theorem Flow.use {e e' : Ep α} {f hR hS} (h : Flow e f hR hS) (hu : Use e e') : Flow e' f hR hS := by
  obtain ⟨e1, e2, e3, _, _, e6⟩ := hu.fields
  obtain ⟨a1, a2, a3, a4, a5⟩ := h
  refine ⟨by rw [e1]; exact a1, by rw [e1, e3]; exact a2, by rw [e2]; exact a3, by rw [e2]; exact a4, fun hh hf => ?_⟩
  rw [e3]
  rcases e6 with e6 | e6
  · exact a5 (e6 ▸ hh) hf
  · rw [e6] at hh; cases hh

theorem flow {b : Bool} {s : End α} (h : Reach handlers (.fresh b) s) : Flow s.st s.failed s.handledR s.handledS :=
  h.lift (h := handlers) Flow ⟨by simp [Ep.fresh, Ep.arrived], fun _ _ => rfl, by simp [Ep.fresh], fun _ => rfl, by simp [Ep.fresh]⟩
    (fun _ _ _ _ _ hi ⟨l, ho⟩ => ho ▸ hi.recv l _) (fun _ _ _ _ _ hi ⟨l, ho⟩ => ho ▸ hi.sendMsg l _) (fun _ _ _ _ _ hi hu => hi.use hu)

end Trpc

end Verif.Stream
