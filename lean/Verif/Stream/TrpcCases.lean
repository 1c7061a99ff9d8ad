import Verif.Stream.TrpcWire

/-! Runs of streams, and what does not hold (C90). -/

namespace Verif.Stream.Trpc

variable {α : Type}

/-! ### A failed stream tells its users -/

structure Told (e : Ep α) (failed : Bool) (six : Prop) : Prop where
  told : failed = true → six ∨ e.simple = .error ∨ (e.server = true ∧ e.simple = .notReady)
  young : failed = false → e.server = true → e.state = .idle ∨ e.state = .init → e.simple = .notReady ∨ e.simple = .error

theorem Told.err {e : Ep α} {P : Prop} (h : e.simple = .error) : Told e true P := ⟨fun _ => .inr (.inl h), nofun⟩

theorem Told.bad {e : Ep α} {P : Prop} (l) : Told (e.bad l).st (e.bad l).err P := .err (onError_simple _ rfl)
theorem Told.codec {e : Ep α} {P : Prop} (l) : Told (e.codec l).st (e.codec l).err P := .err (onError_simple _ rfl)

theorem Told.recv {e : Ep α} {P : Prop} (h : Told e false P) (l r) : Told (e.recv l r).st (e.recv l r).err (P ∨ r = .six) := by
  have hb := Told.bad (e := e) (P := P ∨ r = .six) l
  have hc := Told.codec (e := e) (P := P ∨ r = .six) l
  obtain ⟨_, hy⟩ := h
  have hi : ∀ x, Told (e.handleInit l x).st (e.handleInit l x).err (P ∨ r = .six) := by
    intro x; unfold Ep.handleInit
    split
    · next hv =>
      split
      · exact hb
      · next hs =>
        cases x with
        | none => exact hc
        | some x => exact ⟨nofun, fun _ _ _ => hy rfl hv (.inl (by simpa using hs))⟩
    · next hv =>
      split
      · exact hb
      · cases x with
        | none => exact hc
        | some x =>
          dsimp only
          split
          · next hx => exact .err (onError_simple _ (by simp [Status.ok, hx]))
          · exact ⟨nofun, fun _ hh => by simp [good] at hh; exact absurd hh hv⟩
  have hd : ∀ x, Told (e.handleData l x).st (e.handleData l x).err (P ∨ r = .six) := by
    intro x; unfold Ep.handleData
    split
    · exact hb
    · cases x with
      | none => exact hc
      | some x => exact ⟨nofun, hy⟩
  have hf : ∀ x, Told (e.handleFeedback l x).st (e.handleFeedback l x).err (P ∨ r = .six) := by
    intro x; unfold Ep.handleFeedback
    split
    · exact ⟨nofun, hy⟩
    · exact hc
  have fin : ∀ (s : St) (st : Status), (({ e with state := s } : Ep α).onFinish st).state = s := by intro s st; unfold Ep.onFinish; split <;> rfl
  have hcl : ∀ x, Told (e.handleClose l x).st (e.handleClose l x).err (P ∨ r = .six) := by
    intro x; unfold Ep.handleClose
    split
    · exact ⟨nofun, hy⟩
    · match x with
      | none => exact hc
      | some (true, st) => exact .err (onError_simple _ (resetStatus_ok st))
      | some (false, st) =>
        dsimp only
        split
        · split
          · exact hb
          · exact ⟨nofun, fun _ _ hh => by simp [good, fin] at hh⟩
        · split
          · exact hb
          · split
            · next hx => exact .err (onError_simple _ (by simp [Status.ok, hx]))
            · exact ⟨nofun, fun _ _ hh => by simp [good, fin] at hh⟩
  cases r with
  | frame f => cases f <;> first | exact hi _ | exact hd _ | exact hf _ | exact hcl _
  | corrupt k => cases k <;> first | exact hi _ | exact hd _ | exact hf _ | exact hcl _
  | six => exact ⟨fun _ => .inl (.inr rfl), nofun⟩
  | unknown => exact ⟨nofun, fun _ _ _ => .inr (onError_simple _ rfl)⟩

theorem Told.sendMsg {e : Ep α} {P : Prop} (h : Told e false P) (l) (m : SMsg α) : Told (e.sendMsg l m).st (e.sendMsg l m).err P := by
  have hb := Told.bad (e := e) (P := P) l
  obtain ⟨_, hy⟩ := h
  have hp : ∀ f (k : Ep α → Res α), Told (k (e.send true f)).st (k (e.send true f)).err P → Told (e.put l f k).st (e.put l f k).err P := by
    intro f k hk
    unfold Ep.put
    split
    · exact .codec l
    · split
      · exact .err (show (e.onError networkErr).simple = _ from onError_simple _ rfl)
      · exact hk
  cases m with
  | init =>
    simp only [Ep.sendMsg, Ep.sendInit]
    split
    · next hv =>
      split
      · exact hb
      · next hs =>
        refine hp _ _ ?_
        split
        · exact ⟨nofun, fun _ _ hh => by simp [good] at hh⟩
        · refine ⟨fun _ => ?_, nofun⟩
          rcases hy rfl hv (.inr (by simpa using hs)) with hh | hh
          · exact .inr (.inr ⟨hv, hh⟩)
          · exact .inr (.inl hh)
    · next hv =>
      split
      · exact hb
      · exact hp _ _ ⟨nofun, fun _ hh => by simp [good] at hh; exact absurd hh hv⟩
  | data a =>
    simp only [Ep.sendMsg, Ep.sendData]
    split
    · exact hb
    · exact hp _ _ ⟨nofun, hy⟩
  | feedback n => exact hp _ _ ⟨nofun, hy⟩
  | close r st =>
    simp only [Ep.sendMsg, Ep.sendClose]
    split
    · split
      · exact hb
      · exact hp _ _ ⟨nofun, fun _ _ hh => by simp [good] at hh⟩
    · next hv =>
      split
      · exact hb
      · exact hp _ _ ⟨nofun, fun _ hh => by simp [good] at hh; exact absurd hh hv⟩

theorem Told.use {e e' : Ep α} {f} {P : Prop} (h : Told e f P) (hu : Use e e') : Told e' f P := by
  obtain ⟨_, _, e3, e4, _, e6⟩ := hu.fields
  refine ⟨fun hf => ?_, fun hf hv hs => ?_⟩
  · rcases e6 with e6 | e6
    · rw [e6, e4]; exact h.told hf
    · exact .inr (.inl e6)
  · rcases e6 with e6 | e6
    · rw [e6]; exact h.young hf (e4 ▸ hv) (e3 ▸ hs)
    · exact .inr e6

/-- **C89** (errors are told): when a handler has failed — the peer broke the protocol, the connection closed, sending failed — then `Read` does not wait any more. Excepted are a
server's stream that was refused, which has no users, and frames of type 6, for which see `C90_silent_partial`. -/
theorem C89_told {b : Bool} {s : End α} (h : Reach handlers (.fresh b) s) (hf : s.failed = true) (h6 : RMsg.six ∉ s.handledR) :
    (∃ g, s.st.read = some g) ∨ (s.st.server = true ∧ s.st.simple = .notReady) := by
  have ht : Told s.st s.failed (RMsg.six ∈ s.handledR) := by
    refine h.lift (h := handlers) (fun e f hR _ => Told e f (RMsg.six ∈ hR)) ⟨nofun, fun _ _ _ => .inl rfl⟩ ?_ ?_ ?_
    · rintro e hR hS r _ hi ⟨l, rfl⟩
      have := hi.recv l r
      have e1 : (RMsg.six ∈ hR ++ [r]) = (RMsg.six ∈ hR ∨ r = .six) := by simp [eq_comm]
      rw [e1]; exact this
    · rintro e hR hS m _ hi ⟨l, rfl⟩; exact hi.sendMsg l _
    · intro e e' f hR hS hi hu; exact hi.use hu
  rcases ht.told hf with hh | hh | hh
  · exact absurd hh h6
  · left
    unfold Ep.read
    split
    · exact ⟨_, rfl⟩
    · rw [if_pos hh]; exact ⟨_, rfl⟩
    · rw [if_pos hh]; exact ⟨_, rfl⟩
  · exact .inr hh

/-! ### A stream is open only if the server agreed -/

structure Agreed (e : Ep α) (hR : List (RMsg α)) : Prop where
  client : e.server = false → e.state = .opened ∨ e.state = .localClosed → RMsg.frame (.init 0) ∈ hR
  server : e.server = true → e.state = .opened ∨ e.state = .remoteClosed → Frame.init 0 ∈ e.wire

theorem Agreed.closed {e : Ep α} {hR} (h : e.state = .closed) : Agreed e hR := by constructor <;> simp [h]

theorem Agreed.same {e e' : Ep α} {hR hR'} (h : Agreed e hR) (hs : e'.state = e.state) (hv : e'.server = e.server) (hw : ∃ w, e'.wire = e.wire ++ w) (hr : ∃ r, hR' = hR ++ r) : Agreed e' hR' := by
  obtain ⟨w, hw⟩ := hw
  obtain ⟨r, rfl⟩ := hr
  refine ⟨fun h1 h2 => ?_, fun h1 h2 => ?_⟩
  · exact List.mem_append_left _ (h.client (hv ▸ h1) (hs ▸ h2))
  · rw [hw]; exact List.mem_append_left _ (h.server (hv ▸ h1) (hs ▸ h2))

theorem Agreed.bad {e : Ep α} {hR} (l) : Agreed (e.bad l).st hR := .closed (by simp [Ep.bad, fail])
theorem Agreed.codec {e : Ep α} {hR} (l) : Agreed (e.codec l).st hR := .closed (by simp [Ep.codec, fail])

theorem onFinish_same (e : Ep α) (st) : (e.onFinish st).state = e.state ∧ (e.onFinish st).server = e.server ∧ (e.onFinish st).wire = e.wire := by
  unfold Ep.onFinish; split <;> exact ⟨rfl, rfl, rfl⟩

theorem Agreed.recv {e : Ep α} {hR} (h : Agreed e hR) (l r) : Agreed (e.recv l r).st (hR ++ [r]) := by
  have hb := Agreed.bad (e := e) (hR := hR ++ [r]) l
  have hc := Agreed.codec (e := e) (hR := hR ++ [r]) l
  have hsame : Agreed e (hR ++ [r]) := h.same rfl rfl ⟨[], by simp⟩ ⟨[r], rfl⟩
  have hi : ∀ x, (∀ y, x = some y → r = .frame (.init y)) → Agreed (e.handleInit l x).st (hR ++ [r]) := by
    intro x hx; unfold Ep.handleInit
    split
    · next hv =>
      split
      · exact hb
      · cases x with
        | none => exact hc
        | some x => exact ⟨fun h1 => by simp [good, hv] at h1, fun _ h2 => by simp [good] at h2⟩
    · next hv =>
      split
      · exact hb
      · cases x with
        | none => exact hc
        | some x =>
          dsimp only
          split
          · exact .closed (by simp [fail])
          · next h0 =>
            refine ⟨fun _ _ => ?_, fun h1 => absurd h1 (by simpa [good] using hv)⟩
            have : x = 0 := by simpa using h0
            rw [hx x rfl, this]; simp
  have hd : ∀ x, Agreed (e.handleData l x).st (hR ++ [r]) := by
    intro x; unfold Ep.handleData
    split
    · exact hb
    · cases x with
      | none => exact hc
      | some x => exact hsame.same rfl rfl ⟨[], by simp [good, Ep.onData]⟩ ⟨[], by simp⟩
  have hf : ∀ x, Agreed (e.handleFeedback l x).st (hR ++ [r]) := by
    intro x; unfold Ep.handleFeedback
    split
    · exact hsame
    · exact hc
  have hcl : ∀ x, Agreed (e.handleClose l x).st (hR ++ [r]) := by
    intro x; unfold Ep.handleClose
    split
    · exact hsame
    · match x with
      | none => exact hc
      | some (true, st) => exact .closed (by simp [fail])
      | some (false, st) =>
        dsimp only
        split
        · next hv =>
          split
          · exact hb
          · next ho =>
            obtain ⟨q1, q2, q3⟩ := onFinish_same ({ e with state := .remoteClosed } : Ep α) st
            refine ⟨fun h1 => ?_, fun _ _ => ?_⟩
            · simp only [good, q2] at h1; rw [hv] at h1; cases h1
            · simp only [good, q3]; exact hsame.server hv (.inl (by simpa using ho))
        · split
          · exact hb
          · split
            · exact .closed (by simp [fail])
            · exact .closed (by simp [good, (onFinish_same _ _).1])
  cases r with
  | frame f => cases f <;> first | exact hi _ (fun y hy => by cases hy; rfl) | exact hd _ | exact hf _ | exact hcl _
  | corrupt k => cases k <;> first | exact hi _ nofun | exact hd _ | exact hf _ | exact hcl _
  | six => exact hsame
  | unknown => exact hsame.same (by simp [Ep.recv, good]) (by simp [Ep.recv, good]) ⟨[], by simp [Ep.recv, good]⟩ ⟨[], by simp⟩

theorem Agreed.sendMsg {e : Ep α} {hR} (h : Agreed e hR) (l) (m : SMsg α) : Agreed (e.sendMsg l m).st hR := by
  have hb := Agreed.bad (e := e) (hR := hR) l
  have hp : ∀ f (k : Ep α → Res α), Agreed (k (e.send true f)).st hR → Agreed (e.put l f k).st hR := by
    intro f k hk
    unfold Ep.put
    split
    · exact .codec l
    · split
      · exact h.same (by simp [fail]) (by simp [fail]) ⟨[], by simp [fail]⟩ ⟨[], by simp⟩
      · exact hk
  have hsend : ∀ f, Agreed (e.send true f) hR := fun f => h.same (by simp) (by simp) ⟨[f], by simp⟩ ⟨[], by simp⟩
  cases m with
  | init =>
    simp only [Ep.sendMsg, Ep.sendInit]
    split
    · next hv =>
      split
      · exact hb
      · refine hp _ _ ?_
        split
        · next ho =>
          refine ⟨fun h1 => by simp [good, hv] at h1, fun _ _ => ?_⟩
          have : l.dispatch.ret = 0 := by simp [Status.ok] at ho; exact ho.1
          simp [good, this]
        · exact .closed rfl
    · next hv =>
      split
      · exact hb
      · exact hp _ _ ⟨fun _ h2 => by simp [good] at h2, fun h1 => absurd h1 (by simpa [good] using hv)⟩
  | data a =>
    simp only [Ep.sendMsg, Ep.sendData]
    split
    · exact hb
    · exact hp _ _ (hsend _)
  | feedback n => exact hp _ _ (hsend _)
  | close r st =>
    simp only [Ep.sendMsg, Ep.sendClose]
    split
    · split
      · exact hb
      · exact hp _ _ (.closed rfl)
    · next hv =>
      split
      · exact hb
      · next ho =>
        have hv' : e.server = false := by simpa using hv
        have ho' : e.state = .opened := by simpa using ho
        exact hp _ _ ⟨fun _ _ => h.client hv' (.inl ho'), fun h1 => absurd h1 (by simpa [good] using hv)⟩

/-- **C89** (agreement): a client's stream is open only if the server has answered its INIT with success, and a server's only if it has sent such an answer. -/
theorem C89_agreed {b : Bool} {s : End α} (h : Reach handlers (.fresh b) s) :
    (s.st.server = false → s.st.state = .opened ∨ s.st.state = .localClosed → RMsg.frame (.init 0) ∈ s.handledR) ∧
    (s.st.server = true → s.st.state = .opened ∨ s.st.state = .remoteClosed → Frame.init 0 ∈ s.st.wire) := by
  have ht : Agreed s.st s.handledR := by
    refine h.lift (h := handlers) (fun e _ hR _ => Agreed e hR) ⟨fun _ => by simp [Ep.fresh], fun _ => by simp [Ep.fresh]⟩ ?_ ?_ ?_
    · rintro e hR hS r _ hi ⟨l, rfl⟩; exact hi.recv l r
    · rintro e hR hS m _ hi ⟨l, rfl⟩; exact hi.sendMsg l _
    · intro e e' f hR hS hi hu
      obtain ⟨_, e2, e3, e4, _⟩ := hu.fields
      exact hi.same e3 e4 ⟨[], by simp [e2]⟩ ⟨[], by simp⟩
  exact ⟨ht.client, ht.server⟩

/-! ### Runs -/

def fine : Luck := ⟨true, true, true, .succ⟩

/-- Both ends after the stream was opened. -/
def openNet : Net Nat where
  c := ⟨⟨false, .opened, .ready, .succ, [], [], [.init 0], false⟩, [], [], false, false, false, .off, false, false, [.frame (.init 0)], [(false, .init)], [.frame (.init 0)], [(false, .init)], 0⟩
  s := ⟨⟨true, .opened, .ready, .succ, [], [], [.init 0], false⟩, [], [], false, false, false, .off, false, false, [.frame (.init 0)], [(false, .init)], [.frame (.init 0)], [(false, .init)], 0⟩
  toS := 1
  toC := 1
  cutC := false
  cutS := false

theorem opened : NReach openNet := by
  have h := NReach.init (α := Nat)
  have h := h.step (.client (.start rfl))
  have h := h.step (.client (.run (.take rfl (.inr (by exact List.cons_ne_nil _ _)))))
  have h := h.step (.client (.run (.send rfl ⟨fine, rfl⟩)))
  have h := h.step (.client (.run (.next rfl)))
  have h := h.step (.client (.run (.rest rfl rfl rfl rfl)))
  have h := h.step (.toServer (f := .init 0) rfl rfl)
  have h := h.step (.server (.run (.take rfl (.inl (by exact List.cons_ne_nil _ _)))))
  have h := h.step (.server (.run (.recv rfl ⟨fine, rfl⟩)))
  have h := h.step (.server (.run (.op rfl)))
  have h := h.step (.server (.run (.next rfl)))
  have h := h.step (.server (.run (.take rfl (.inr (by exact List.cons_ne_nil _ _)))))
  have h := h.step (.server (.run (.send rfl ⟨fine, rfl⟩)))
  have h := h.step (.server (.run (.next rfl)))
  have h := h.step (.server (.run (.rest rfl rfl rfl rfl)))
  have h := h.step (.toClient (f := .init 0) rfl rfl)
  have h := h.step (.client (.run (.take rfl (.inl (by exact List.cons_ne_nil _ _)))))
  have h := h.step (.client (.run (.recv rfl ⟨fine, rfl⟩)))
  have h := h.step (.client (.run (.next rfl)))
  have h := h.step (.client (.run (.rest rfl rfl rfl rfl)))
  exact h

/-- The client sends 7 and closes; the server reads 7 and the end of file, answers 8 and closes; the client reads 8 and the end of file, and both ends are done. -/
theorem exchange : ∃ n : Net Nat, NReach n ∧ n.c.done = true ∧ n.s.done = true ∧ n.s.st.taken = [7] ∧ n.c.st.taken = [8] ∧ written n.c = [some 7, none] ∧
    written n.s = [some 8, none] ∧ (∃ e, n.c.st.read = some (.eof, e)) ∧ (∃ e, n.s.st.read = some (.eof, e)) ∧ n.c.failed = false ∧ n.s.failed = false ∧ n.c.st.status = .succ := by
  have h := opened
  have h := h.step (.client (.write 7))
  have h := h.step (.client (.close false .succ))
  have h := h.step (.client (.run (.take rfl (.inr (by exact List.cons_ne_nil _ _)))))
  have h := h.step (.client (.run (.send rfl ⟨fine, rfl⟩)))
  have h := h.step (.client (.run (.send rfl ⟨fine, rfl⟩)))
  have h := h.step (.client (.run (.next rfl)))
  have h := h.step (.client (.run (.rest rfl rfl rfl rfl)))
  have h := h.step (.toServer (f := .data 7) rfl rfl)
  have h := h.step (.toServer (f := .close false .succ) rfl rfl)
  have h := h.step (.server (.run (.take rfl (.inl (by exact List.cons_ne_nil _ _)))))
  have h := h.step (.server (.run (.recv rfl ⟨fine, rfl⟩)))
  have h := h.step (.server (.run (.recv rfl ⟨fine, rfl⟩)))
  have h := h.step (.server (.use (.read (g := .data 7 .succ) rfl)))
  have h := h.step (.server (.write 8))
  have h := h.step (.server (.close false .succ))
  have h := h.step (.server (.run (.next rfl)))
  have h := h.step (.server (.run (.take rfl (.inr (by exact List.cons_ne_nil _ _)))))
  have h := h.step (.server (.run (.send rfl ⟨fine, rfl⟩)))
  have h := h.step (.server (.run (.send rfl ⟨fine, rfl⟩)))
  have h := h.step (.server (.run (.op rfl)))
  have h := h.step (.server (.run (.next rfl)))
  have h := h.step (.server (.run (.last rfl rfl rfl rfl)))
  have h := h.step (.server (.run (.remove rfl)))
  have h := h.step (.server (.run (.finish rfl)))
  have h := h.step (.toClient (f := .data 8) rfl rfl)
  have h := h.step (.toClient (f := .close false .succ) rfl rfl)
  have h := h.step (.client (.run (.take rfl (.inl (by exact List.cons_ne_nil _ _)))))
  have h := h.step (.client (.run (.recv rfl ⟨fine, rfl⟩)))
  have h := h.step (.client (.run (.recv rfl ⟨fine, rfl⟩)))
  have h := h.step (.client (.run (.op rfl)))
  have h := h.step (.client (.run (.next rfl)))
  have h := h.step (.client (.run (.last rfl rfl rfl rfl)))
  have h := h.step (.client (.run (.remove rfl)))
  have h := h.step (.client (.run (.finish rfl)))
  have h := h.step (.client (.use (.read (g := .data 8 .succ) rfl)))
  exact ⟨_, h, rfl, rfl, rfl, rfl, rfl, rfl, ⟨_, rfl⟩, ⟨_, rfl⟩, rfl, rfl, rfl⟩

/-- `C88_complete` is not empty: a message is under way to a server that stays open. -/
example : ∃ n : Net Nat, NReach n ∧ n.toS = n.c.st.wire.length ∧ n.s.st.state ≠ .closed ∧ n.s.terminate = false ∧ n.c.failed = false ∧ n.s.failed = false ∧ written n.c = [some 7] ∧
    n.s.st.reader = [some 7] ∧ n.c.pc.isOff = true ∧ n.s.pc.isOff = true := by
  have h := opened
  have h := h.step (.client (.write 7))
  have h := h.step (.client (.run (.take rfl (.inr (by exact List.cons_ne_nil _ _)))))
  have h := h.step (.client (.run (.send rfl ⟨fine, rfl⟩)))
  have h := h.step (.client (.run (.next rfl)))
  have h := h.step (.client (.run (.rest rfl rfl rfl rfl)))
  have h := h.step (.toServer (f := .data 7) rfl rfl)
  have h := h.step (.server (.run (.take rfl (.inl (by exact List.cons_ne_nil _ _)))))
  have h := h.step (.server (.run (.recv rfl ⟨fine, rfl⟩)))
  have h := h.step (.server (.run (.next rfl)))
  have h := h.step (.server (.run (.rest rfl rfl rfl rfl)))
  exact ⟨_, h, rfl, by nofun, rfl, rfl, rfl, rfl, rfl, rfl, rfl⟩

/-- `C88_cut` and `C89_told` are not empty: the connection closes. -/
example : ∃ n : Net Nat, NReach n ∧ n.cutC = true ∧ n.c.failed = true ∧ n.c.done = true ∧ ∃ g e, n.c.st.read = some (.failed g, e) := by
  have h := opened
  have h := h.step (.cutClient rfl)
  have h := h.step (.client (.run (.take rfl (.inl (by exact List.cons_ne_nil _ _)))))
  have h := h.step (.client (.run (.recv rfl ⟨fine, rfl⟩)))
  have h := h.step (.client (.run (.error rfl)))
  have h := h.step (.client (.run (.remove rfl)))
  have h := h.step (.client (.run (.finish rfl)))
  exact ⟨_, h, rfl, rfl, rfl, _, _, rfl⟩

/-! ### What does not hold -/

/-- The server closes the stream in order while the client is idle, and the client is told. -/
theorem closedByServer : ∃ n : Net Nat, NReach n ∧ n.c.done = true ∧ n.c.failed = false ∧ n.c.st.status = .succ ∧ n.c.terminate = true ∧ n.c.sent = [(false, .init)] := by
  have h := opened
  have h := h.step (.server (.close false .succ))
  have h := h.step (.server (.run (.take rfl (.inr (by exact List.cons_ne_nil _ _)))))
  have h := h.step (.server (.run (.send rfl ⟨fine, rfl⟩)))
  have h := h.step (.server (.run (.op rfl)))
  have h := h.step (.server (.run (.next rfl)))
  have h := h.step (.server (.run (.last rfl rfl rfl rfl)))
  have h := h.step (.server (.run (.remove rfl)))
  have h := h.step (.server (.run (.finish rfl)))
  have h := h.step (.toClient (f := .close false .succ) rfl rfl)
  have h := h.step (.client (.run (.take rfl (.inl (by exact List.cons_ne_nil _ _)))))
  have h := h.step (.client (.run (.recv rfl ⟨fine, rfl⟩)))
  have h := h.step (.client (.run (.op rfl)))
  have h := h.step (.client (.run (.next rfl)))
  have h := h.step (.client (.run (.last rfl rfl rfl rfl)))
  have h := h.step (.client (.run (.remove rfl)))
  have h := h.step (.client (.run (.finish rfl)))
  exact ⟨_, h, rfl, rfl, rfl, rfl, rfl⟩

/-- **C90** (a lost message, refuted): a `Write` that returns success has not necessarily accepted the message: on a client whose server has closed the stream it returns success and
drops the message. -/
theorem C90_write_partial : ¬ ∀ (n : Net Nat) (a : Nat), NReach n → (write n.c a).1.ok = true → (write n.c a).2.sent = n.c.sent ++ [(false, .data a)] := by
  intro hall
  obtain ⟨n, h, _, _, hs, ht, he⟩ := closedByServer
  have hw : write n.c 5 = (n.c.st.status, n.c) := by simp [write, State.pushSend, ht]
  have := hall n 5 h (by rw [hw, hs]; rfl)
  rw [hw] at this
  simp at this

/-- As long as the stream was not stopped it has: the message is accepted. -/
theorem C90_write_accepted (s : End α) (a : α) (ht : s.terminate = false) (hs : (write s a).1.ok = true) : (write s a).2.sent = s.sent ++ [(false, .data a)] := by
  unfold write at hs ⊢
  by_cases hk : s.st.status.ok = true
  · rw [if_pos hk]
    simp only [State.pushSend, ht, Bool.false_eq_true, if_false]
    rw [(wake_fields _).2.2.2]
  · rw [if_neg hk] at hs
    exact absurd hs hk

/-- **C90** (a result lost in a race, refuted): a server that closes in order with success may leave its client with an error: if a message of the client waits to be sent while the
close is handled, the client resets the stream. -/
theorem C90_race_partial : ¬ ∀ n : Net Nat, NReach n → n.s.failed = false → n.s.done = true → n.s.st.wire = [.init 0, .close false .succ] → n.toC = 2 → n.cutC = false → n.c.done = true → n.c.st.status.ok = true := by
  intro hall
  have h := opened
  have h := h.step (.server (.close false .succ))
  have h := h.step (.server (.run (.take rfl (.inr (by exact List.cons_ne_nil _ _)))))
  have h := h.step (.server (.run (.send rfl ⟨fine, rfl⟩)))
  have h := h.step (.server (.run (.op rfl)))
  have h := h.step (.server (.run (.next rfl)))
  have h := h.step (.server (.run (.last rfl rfl rfl rfl)))
  have h := h.step (.server (.run (.remove rfl)))
  have h := h.step (.server (.run (.finish rfl)))
  have h := h.step (.client (.write 7))
  have h := h.step (.toClient (f := .close false .succ) rfl rfl)
  have h := h.step (.client (.run (.take rfl (.inl (by exact List.cons_ne_nil _ _)))))
  have h := h.step (.client (.run (.recv rfl ⟨fine, rfl⟩)))
  have h := h.step (.client (.run (.op rfl)))
  have h := h.step (.client (.run (.send rfl ⟨fine, rfl⟩)))
  have h := h.step (.client (.run (.error rfl)))
  have h := h.step (.client (.run (.remove rfl)))
  have h := h.step (.client (.run (.finish rfl)))
  have := hall _ h rfl rfl rfl rfl rfl rfl
  exact absurd this (by decide)

/-- **C90** (a message with an error, refuted): a `Read` that returns a message may return an error status with it, after an error that came later. -/
theorem C90_read_partial : ¬ ∀ (n : Net Nat) (a : Nat) (st : Status) (e : Ep Nat), NReach n → n.c.st.read = some (.data a st, e) → st.ok = true := by
  intro hall
  have h := opened
  have h := h.step (.server (.write 7))
  have h := h.step (.server (.run (.take rfl (.inr (by exact List.cons_ne_nil _ _)))))
  have h := h.step (.server (.run (.send rfl ⟨fine, rfl⟩)))
  have h := h.step (.server (.run (.next rfl)))
  have h := h.step (.server (.run (.rest rfl rfl rfl rfl)))
  have h := h.step (.toClient (f := .data 7) rfl rfl)
  have h := h.step (.cutClient rfl)
  have h := h.step (.client (.run (.take rfl (.inl (by exact List.cons_ne_nil _ _)))))
  have h := h.step (.client (.run (.recv rfl ⟨fine, rfl⟩)))
  have h := h.step (.client (.run (.recv rfl ⟨fine, rfl⟩)))
  have h := h.step (.client (.run (.error rfl)))
  have := hall _ 7 networkErr _ h rfl
  exact absurd this (by decide)

/-- **C90** (a silent end, refuted): a peer that sends a frame of type 6 ends a stream whose reader waits for ever: nothing is in its queue and no error is told. -/
theorem C90_silent_partial : ¬ ∀ s : End Nat, Reach handlers (.fresh true) s → s.failed = true → s.done = true → (∃ g, s.st.read = some g) ∨ s.st.simple = .notReady := by
  intro hall
  have h := opened.inv.rs
  have h := h.step (.pushRecv .six)
  have h := h.step (.run (.take rfl (.inl (by exact List.cons_ne_nil _ _))))
  have h := h.step (.run (.recv rfl ⟨fine, rfl⟩))
  have h := h.step (.run (.error rfl))
  have h := h.step (.run (.remove rfl))
  have h := h.step (.run (.finish rfl))
  rcases hall _ h rfl rfl with ⟨g, hg⟩ | hg <;> cases hg

end Verif.Stream.Trpc
