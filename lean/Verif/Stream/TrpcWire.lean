import Verif.Stream.TrpcNet

/-! What an end sends, whatever it receives; how it ends (C88, C89). -/

namespace Verif.Stream.Trpc

variable {α : Type}

/-! ### The frames of one end -/

/-- Close frames of either type. -/
def closes : List (Frame α) → Nat
  | [] => 0
  | .close _ _ :: l => closes l + 1
  | _ :: l => closes l

def inits : List (Frame α) → Nat
  | [] => 0
  | .init _ :: l => inits l + 1
  | _ :: l => inits l

@[simp] theorem closes_append (a b : List (Frame α)) : closes (a ++ b) = closes a + closes b := by
  induction a with
  | nil => simp [closes]
  | cons f a ih => cases f <;> simp [closes, ih]; omega

@[simp] theorem inits_append (a b : List (Frame α)) : inits (a ++ b) = inits a + inits b := by
  induction a with
  | nil => simp [inits]
  | cons f a ih => cases f <;> simp [inits, ih]; omega

/-- May frame `f` follow the frames `a`? INIT comes once and before any close; data and an orderly close need an INIT and no close of either type before; a reset or a feedback
may follow at most one close. -/
def fits (a : List (Frame α)) : Frame α → Prop
  | .init _ => inits a = 0 ∧ closes a = 0
  | .data _ => inits a = 1 ∧ closes a = 0
  | .close false _ => inits a = 1 ∧ closes a = 0
  | .close true _ => closes a ≤ 1
  | .feedback _ => closes a ≤ 1

/-- Every frame fits those before it. -/
def Legal (w : List (Frame α)) : Prop := ∀ a f b, w = a ++ f :: b → fits a f

theorem Legal.nil : Legal ([] : List (Frame α)) := by intro a f b h; simp at h

theorem Legal.snoc {w : List (Frame α)} {f} (h : Legal w) (hf : fits w f) : Legal (w ++ [f]) := by
  intro a g b e
  rcases List.eq_nil_or_concat b with rfl | ⟨b', x, rfl⟩
  · obtain ⟨rfl, e2⟩ := List.append_inj' e rfl
    cases e2; exact hf
  · rw [List.concat_eq_append, ← List.cons_append, ← List.append_assoc] at e
    obtain ⟨e1, _⟩ := List.append_inj' e rfl
    exact h a g b' e1

/-- The state of an end tells what it has sent. -/
structure Sent (e : Ep α) (failed : Bool) : Prop where
  legal : Legal e.wire
  one : failed = false → closes e.wire ≤ 1
  idle : failed = false → e.state = .idle ∨ (e.server = true ∧ e.state = .init) → inits e.wire = 0 ∧ closes e.wire = 0
  live : failed = false → e.state = .opened ∨ e.state = .remoteClosed ∨ (e.server = false ∧ e.state = .init) → inits e.wire = 1 ∧ closes e.wire = 0
  ok : e.crashed = false

theorem Sent.fail {e e' : Ep α} (h : Sent e false) (hw : e'.wire = e.wire ∨ ∃ st, e'.wire = e.wire ++ [.close true st]) (hc : e'.crashed = false) : Sent e' true := by
  refine ⟨?_, nofun, nofun, nofun, hc⟩
  rcases hw with hw | ⟨st, hw⟩ <;> rw [hw]
  · exact h.legal
  · exact h.legal.snoc (h.one rfl)

theorem Sent.bad {e : Ep α} (h : Sent e false) (l) : Sent (e.bad l).st (e.bad l).err :=
  h.fail (by simpa [Ep.bad, Trpc.fail] using sendReset_wire e l _) ((onError_crashed _ rfl).trans ((sendReset_crashed _ _ _).trans h.ok))

theorem Sent.codec {e : Ep α} (h : Sent e false) (l) : Sent (e.codec l).st (e.codec l).err :=
  h.fail (by simpa [Ep.codec, Trpc.fail] using sendReset_wire e l _) ((onError_crashed _ rfl).trans ((sendReset_crashed _ _ _).trans h.ok))

theorem Sent.err {e : Ep α} (h : Sent e false) (s : St) {st : Status} (hs : st.ok = false) : Sent (({ e with state := s } : Ep α).onError st) true :=
  h.fail (.inl (by simp)) ((onError_crashed _ hs).trans h.ok)

theorem resetStatus_ok (st : Status) : (resetStatus st).ok = false := by
  unfold resetStatus
  split
  · simp [Status.ok, unknownErr]
  · simp_all

theorem Sent.onFinish {e : Ep α} {b} (h : Sent e b) (st) : Sent (e.onFinish st) b := by
  unfold Ep.onFinish
  split
  · exact h
  · obtain ⟨h1, h2, h3, h4, h5⟩ := h; exact ⟨h1, h2, h3, h4, h5⟩

theorem Sent.onReady {e : Ep α} {b} (h : Sent e b) : Sent e.onReady b := by
  unfold Ep.onReady
  split
  · exact h
  · obtain ⟨h1, h2, h3, h4, h5⟩ := h; exact ⟨h1, h2, h3, h4, h5⟩

theorem Sent.recv {e : Ep α} (h : Sent e false) (l r) : Sent (e.recv l r).st (e.recv l r).err := by
  have hb := h.bad l
  have hc := h.codec l
  obtain ⟨h1, h2, h3, h4, h5⟩ := id h
  have hi : ∀ x, Sent (e.handleInit l x).st (e.handleInit l x).err := by
    intro x; unfold Ep.handleInit
    split
    · split
      · exact hb
      · next hs =>
        have hs : e.state = .idle := by simpa using hs
        cases x with
        | none => exact hc
        | some x => exact ⟨h1, h2, fun _ _ => h3 rfl (.inl hs), (by rintro _ (hh | hh | ⟨hh, _⟩) <;> simp_all [good]), h5⟩
    · split
      · exact hb
      · next hv hs =>
        have hs : e.state = .init := by simpa using hs
        cases x with
        | none => exact hc
        | some x =>
          dsimp only
          split
          · next hx => exact h.err _ (by simp [Status.ok, hx])
          · exact Sent.onReady ⟨h1, h2, (by rintro _ (hh | ⟨_, hh⟩) <;> cases hh), fun _ _ => h4 rfl (.inr (.inr ⟨by simpa using hv, hs⟩)), h5⟩
  have hd : ∀ x, Sent (e.handleData l x).st (e.handleData l x).err := by
    intro x; unfold Ep.handleData
    split
    · exact hb
    · cases x with
      | none => exact hc
      | some x => exact ⟨h1, h2, h3, h4, h5⟩
  have hf : ∀ x, Sent (e.handleFeedback l x).st (e.handleFeedback l x).err := by
    intro x; unfold Ep.handleFeedback
    split
    · exact h
    · exact hc
  have hcl : ∀ x, Sent (e.handleClose l x).st (e.handleClose l x).err := by
    intro x; unfold Ep.handleClose
    split
    · exact h
    · match x with
      | none => exact hc
      | some (true, st) => exact h.err _ (resetStatus_ok st)
      | some (false, st) =>
        dsimp only
        split
        · split
          · exact hb
          · next hs =>
            have hs : e.state = .opened := by simpa using hs
            exact Sent.onFinish (e := { e with state := .remoteClosed }) ⟨h1, h2, (by rintro _ (hh | ⟨_, hh⟩) <;> cases hh), fun _ _ => h4 rfl (.inl hs), h5⟩ _
        · split
          · exact hb
          · split
            · next hx => exact h.err _ (by simp [Status.ok, hx])
            · exact Sent.onFinish (e := { e with state := .closed }) ⟨h1, h2, (by rintro _ (hh | ⟨_, hh⟩) <;> cases hh), (by rintro _ (hh | hh | ⟨_, hh⟩) <;> cases hh), h5⟩ _
  cases r with
  | frame f => cases f <;> first | exact hi _ | exact hd _ | exact hf _ | exact hcl _
  | corrupt k => cases k <;> first | exact hi _ | exact hd _ | exact hf _ | exact hcl _
  | six => exact h.fail (.inl rfl) h5
  | unknown =>
    refine ⟨by simpa [Ep.recv, good] using h1, by simpa [Ep.recv, good] using h2, by simpa [Ep.recv, good] using h3, by simpa [Ep.recv, good] using h4, ?_⟩
    exact (onError_crashed _ rfl).trans h5

theorem Sent.put {e : Ep α} (h : Sent e false) (l f k) (hk : Sent (k (e.send true f)).st (k (e.send true f)).err) : Sent (e.put l f k).st (e.put l f k).err := by
  unfold Ep.put
  split
  · exact h.codec _
  · split
    · exact h.fail (.inl (by simp [Trpc.fail])) ((send_crashed _ _ _).trans h.ok)
    · exact hk

theorem Sent.sendMsg {e : Ep α} (h : Sent e false) (l) (m : SMsg α) : Sent (e.sendMsg l m).st (e.sendMsg l m).err := by
  have hb := h.bad l
  have hp := fun f k => h.put l f k
  obtain ⟨h1, h2, h3, h4, h5⟩ := h
  cases m with
  | init =>
    simp only [Ep.sendMsg, Ep.sendInit]
    split
    · next hv =>
      split
      · exact hb
      · next hs =>
        have hs : e.state = .init := by simpa using hs
        obtain ⟨i0, c0⟩ := h3 rfl (.inr ⟨hv, hs⟩)
        refine hp _ _ ?_
        split
        · refine Sent.onReady ⟨h1.snoc ⟨i0, c0⟩, ?_, (by rintro _ (hh | ⟨_, hh⟩) <;> cases hh), ?_, h5⟩
          · simp [closes, c0]
          · simp [closes, inits, c0, i0]
        · exact ⟨h1.snoc ⟨i0, c0⟩, nofun, nofun, nofun, h5⟩
    · split
      · exact hb
      · next hv hs =>
        have hs : e.state = .idle := by simpa using hs
        obtain ⟨i0, c0⟩ := h3 rfl (.inl hs)
        refine hp _ _ ⟨h1.snoc ⟨i0, c0⟩, ?_, ?_, ?_, h5⟩
        · simp [good, closes, c0]
        · simp [good]; simp_all
        · simp [good, closes, inits, c0, i0]
  | data a =>
    simp only [Ep.sendMsg, Ep.sendData]
    split
    · exact hb
    · next hs =>
      have hs : e.state = .opened ∨ e.state = .remoteClosed := by
        by_cases q1 : e.state = .opened <;> by_cases q2 : e.state = .remoteClosed <;> simp_all
      obtain ⟨i0, c0⟩ := h4 rfl (hs.elim .inl fun hh => .inr (.inl hh))
      refine hp _ _ ⟨h1.snoc ⟨i0, c0⟩, ?_, ?_, ?_, h5⟩
      · simp [good, closes, c0]
      · intro _ hh; simp only [good, send_state, send_server] at hh; rcases hs with hs | hs <;> simp_all
      · simp [good, closes, inits, c0, i0]
  | feedback n =>
    refine hp _ _ ⟨h1.snoc (h2 rfl), ?_, ?_, ?_, h5⟩
    · simpa [good, closes] using h2 rfl
    · intro _ hh; simpa [good, closes, inits] using h3 rfl hh
    · intro _ hh; simpa [good, closes, inits] using h4 rfl hh
  | close r st =>
    have hfit : inits e.wire = 1 ∧ closes e.wire = 0 → fits e.wire (.close r st) := by
      rintro ⟨i0, c0⟩; cases r
      · exact ⟨i0, c0⟩
      · simp [fits, c0]
    simp only [Ep.sendMsg, Ep.sendClose]
    split
    · split
      · exact hb
      · next hs =>
        have hs : e.state = .opened ∨ e.state = .remoteClosed := by
          by_cases q1 : e.state = .opened <;> by_cases q2 : e.state = .remoteClosed <;> simp_all
        have hl := h4 rfl (hs.elim .inl fun hh => .inr (.inl hh))
        refine hp _ _ ⟨h1.snoc (hfit hl), ?_, (by rintro _ (hh | ⟨_, hh⟩) <;> cases hh), (by rintro _ (hh | hh | ⟨_, hh⟩) <;> cases hh), h5⟩
        simp [good, closes, hl.2]
    · split
      · exact hb
      · next hs =>
        have hs : e.state = .opened := by simpa using hs
        have hl := h4 rfl (.inl hs)
        refine hp _ _ ⟨h1.snoc (hfit hl), ?_, (by rintro _ (hh | ⟨_, hh⟩) <;> cases hh), (by rintro _ (hh | hh | ⟨_, hh⟩) <;> cases hh), h5⟩
        simp [good, closes, hl.2]

theorem Sent.use {e e' : Ep α} {f} (h : Sent e f) (hu : Use e e') : Sent e' f := by
  obtain ⟨_, e2, e3, e4, e5, _⟩ := hu.fields
  obtain ⟨h1, h2, h3, h4, h5⟩ := h
  exact ⟨e2 ▸ h1, e2 ▸ h2, by rw [e2, e3, e4]; exact h3, by rw [e2, e3, e4]; exact h4, e5.trans h5⟩

theorem sent {b : Bool} {s : End α} (h : Reach handlers (.fresh b) s) : Sent s.st s.failed :=
  h.lift (h := handlers) (fun e f _ _ => Sent e f) ⟨.nil, fun _ => by simp [Ep.fresh, closes], fun _ _ => ⟨rfl, rfl⟩, by simp [Ep.fresh], rfl⟩
    (fun _ _ _ _ _ hi ⟨l, ho⟩ => ho ▸ hi.recv l _) (fun _ _ _ _ _ hi ⟨l, ho⟩ => ho ▸ hi.sendMsg l _) (fun _ _ _ _ _ hi hu => hi.use hu)

/-- **C89** (the protocol): whatever an end receives and whatever its users do, the frames it sends are in order: INIT at most once and before all data, no data and no second
orderly close after a close, nothing at all after two closes. -/
theorem C89_legal {b : Bool} {s : End α} (h : Reach handlers (.fresh b) s) : Legal s.st.wire := (sent h).legal

/-- **C89** (no crash): the check in `OnError` never fails. -/
theorem C89_no_crash {b : Bool} {s : End α} (h : Reach handlers (.fresh b) s) : s.st.crashed = false := (sent h).ok

/-- In numbers: at most one INIT, at most two closes. -/
theorem Legal.count {w : List (Frame α)} (h : Legal w) : inits w ≤ 1 ∧ closes w ≤ 2 := by
  suffices H : ∀ w' : List (Frame α), w' <+: w → inits w' ≤ 1 ∧ closes w' ≤ 2 from H w (List.prefix_refl _)
  intro w'
  generalize hn : w'.length = n
  induction n generalizing w' with
  | zero => intro _; rw [List.eq_nil_of_length_eq_zero hn]; simp [inits, closes]
  | succ n ih =>
    rcases List.eq_nil_or_concat w' with rfl | ⟨a, f, rfl⟩
    · cases hn
    rw [List.concat_eq_append] at *
    rintro ⟨c, hc⟩
    have ha := ih a (by simpa using hn) ⟨f :: c, by simpa using hc⟩
    have hf := h a f c (by simpa using hc.symm)
    cases f with
    | init _ => simp [inits, closes, fits] at *; omega
    | data _ => simp [inits, closes, fits] at *; omega
    | feedback _ => simp [inits, closes, fits] at *; omega
    | close b _ => cases b <;> simp [inits, closes, fits] at * <;> omega

/-! ### The end of a stream -/

/-- An end that is closed was stopped or is about to be. -/
def Ends (s : End α) : Prop := s.st.state = .closed → s.failed = true ∨ s.terminate = true ∨ ∃ rs ss ops e, s.pc = .batch rs ss ops e ∧ .stop ∈ ops

/-- Messages to close the stream at once. -/
def RMsg.isReset : RMsg α → Bool
  | .frame (.close true _) => true
  | _ => false

theorem recv_closed (e : Ep α) (l r) : (e.recv l r).st.state = .closed → e.state = .closed ∨ (e.recv l r).err = true ∨ .stop ∈ (e.recv l r).ops := by
  by_cases he : (e.recv l r).err = true
  · exact fun _ => .inr (.inl he)
  · by_cases hs : e.state = .closed
    · exact fun _ => .inl hs
    · intro hc
      right; right
      have fin : ∀ (s : St) (st : Status), (({ e with state := s } : Ep α).onFinish st).state = s := by intro s st; unfold Ep.onFinish; split <;> rfl
      have hi : ∀ x, (e.handleInit l x).err = false → (e.handleInit l x).st.state ≠ .closed := by
        intro x; unfold Ep.handleInit
        repeat' split
        all_goals simp [Ep.bad, Ep.codec, Trpc.fail, good]
      have hd : ∀ x, (e.handleData l x).err = false → (e.handleData l x).st.state ≠ .closed := by
        intro x; unfold Ep.handleData
        repeat' split
        all_goals simp [Ep.bad, Ep.codec, Trpc.fail, good, Ep.onData, hs]
      have hf : ∀ x, (e.handleFeedback l x).err = false → (e.handleFeedback l x).st.state ≠ .closed := by
        intro x; unfold Ep.handleFeedback
        repeat' split
        all_goals simp [Ep.codec, Trpc.fail, good, hs]
      have hcl : ∀ x, (e.handleClose l x).err = false → (e.handleClose l x).st.state = .closed → .stop ∈ (e.handleClose l x).ops := by
        intro x; unfold Ep.handleClose
        repeat' split
        all_goals simp_all [Ep.bad, Ep.codec, Trpc.fail, good]
      have he : (e.recv l r).err = false := by simpa using he
      cases r with
      | frame f =>
        cases f with
        | init _ => exact absurd hc (hi _ he)
        | data _ => exact absurd hc (hd _ he)
        | feedback _ => exact absurd hc (hf _ he)
        | close _ _ => exact hcl _ he hc
      | corrupt k =>
        cases k with
        | init => exact absurd hc (hi _ he)
        | data => exact absurd hc (hd _ he)
        | feedback => exact absurd hc (hf _ he)
        | close => exact hcl _ he hc
      | six => cases he
      | unknown => simp [Ep.recv, good] at hc; exact absurd hc hs

theorem send_closed (e : Ep α) (l m) : (e.sendMsg l m).st.state = .closed → e.state = .closed ∨ (e.sendMsg l m).err = true ∨ .stop ∈ (e.sendMsg l m).ops := by
  have hp : ∀ f (k : Ep α → Res α), ((k (e.send true f)).st.state = .closed → e.state = .closed ∨ (k (e.send true f)).err = true ∨ .stop ∈ (k (e.send true f)).ops) →
      (e.put l f k).st.state = .closed → e.state = .closed ∨ (e.put l f k).err = true ∨ .stop ∈ (e.put l f k).ops := by
    intro f k hk
    unfold Ep.put
    split
    · exact fun _ => .inr (.inl rfl)
    · split
      · exact fun _ => .inr (.inl rfl)
      · exact hk
  have hb : (e.bad l).st.state = .closed → e.state = .closed ∨ (e.bad l).err = true ∨ .stop ∈ (e.bad l).ops := fun _ => .inr (.inl rfl)
  cases m with
  | init =>
    simp only [Ep.sendMsg, Ep.sendInit]
    repeat' split
    all_goals first | exact hb | (refine hp _ _ ?_; (try split) <;> simp [good, Trpc.fail])
  | data a =>
    simp only [Ep.sendMsg, Ep.sendData]
    repeat' split
    all_goals first | exact hb | (refine hp _ _ ?_; simp [good])
  | feedback n => exact hp _ _ (by simp [good])
  | close b st =>
    simp only [Ep.sendMsg, Ep.sendClose]
    repeat' split
    all_goals first | exact hb | (refine hp _ _ ?_; simp [good])

theorem ends {b : Bool} {s : End α} (h : Reach handlers (.fresh b) s) : Ends s := by
  induction h with
  | init => intro hc; cases hc
  | @step s s' hreach hs ih =>
    have hi := hreach.inv
    have keep : ∀ s' : End α, s'.st.state = s.st.state → s'.failed = s.failed → (s.terminate = true → s'.terminate = true) → s'.pc = s.pc → Ends s' := by
      intro s' e1 e2 e3 e4 hc
      rcases ih (e1 ▸ hc) with hh | hh | hh
      · exact .inl (e2.trans hh)
      · exact .inr (.inl (e3 hh))
      · exact .inr (.inr (e4 ▸ hh))
    cases hs with
    | run hr =>
      cases hr with
      | rest hp _ _ _ =>
        intro hc
        rcases ih hc with hh | hh | ⟨_, _, _, _, hh, _⟩
        · exact .inl hh
        · exact .inr (.inl hh)
        · rw [hp] at hh; cases hh
      | last _ _ _ ht => intro _; exact .inr (.inl ht)
      | take hp _ =>
        intro hc
        rcases ih hc with hh | hh | ⟨_, _, _, _, hh, _⟩
        · exact .inl hh
        · exact .inr (.inl hh)
        · rw [hp] at hh; cases hh
      | recv hp hh =>
        obtain ⟨l, rfl⟩ := hh
        intro hc
        rcases recv_closed _ _ _ hc with h1 | h1 | h1
        · rcases ih h1 with h2 | h2 | ⟨_, _, _, _, h2, h3⟩
          · rw [← hi.err _ _ _ _ hp] at h2; cases h2
          · exact .inr (.inl h2)
          · rw [hp] at h2; cases h2; cases h3
        · exact .inl h1
        · exact .inr (.inr ⟨_, _, _, _, rfl, h1⟩)
      | send hp hh =>
        obtain ⟨l, rfl⟩ := hh
        intro hc
        rcases send_closed _ _ _ hc with h1 | h1 | h1
        · rcases ih h1 with h2 | h2 | ⟨_, _, _, _, h2, h3⟩
          · rw [← hi.err _ _ _ _ hp] at h2; cases h2
          · exact .inr (.inl h2)
          · rw [hp] at h2; cases h2; cases h3
        · exact .inl h1
        · exact .inr (.inr ⟨_, _, _, _, rfl, h1⟩)
      | @op rs ss o ops err hp =>
        intro hc
        have k := op_pc hi hp o
        have hst : (s.op o).st = s.st := by
          cases o with
          | push m => simp only [State.op, State.pushSend]; split; rfl; exact (wake_fields _).1
          | stop => simp only [State.op, State.stop]; split <;> rfl
        have hte : s.terminate = true → (s.op o).terminate = true := (Keeps.op s o).term
        dsimp only at hc
        rw [hst] at hc
        rcases ih hc with hh | hh | ⟨_, _, _, _, h2, h3⟩
        · exact .inl (k.2.2.trans hh)
        · exact .inr (.inl (hte hh))
        · rw [hp] at h2; cases h2
          rcases List.mem_cons.mp h3 with h3 | h3
          · subst h3
            refine .inr (.inl ?_)
            simp only [State.op, State.stop]; split <;> rfl
          · exact .inr (.inr ⟨_, _, _, _, rfl, h3⟩)
      | error hp =>
        intro _
        refine .inr (.inl ?_)
        simp only [State.stop]; split <;> rfl
      | next hp =>
        intro hc
        rcases ih hc with hh | hh | ⟨_, _, _, _, h2, h3⟩
        · exact .inl hh
        · exact .inr (.inl hh)
        · rw [hp] at h2; cases h2; cases h3
      | remove hp => intro _; exact .inr (.inl (hi.brk (by rw [hp]; rfl)))
      | finish hp => intro _; exact .inr (.inl (hi.brk (by rw [hp]; rfl)))
    | pushRecv r =>
      intro hc
      obtain ⟨e1, _, e3, _⟩ := pushRecv_fields s r
      rw [e1] at hc
      rcases ih hc with hh | hh | hh
      · left; unfold State.pushRecv State.wake; repeat' split
        all_goals exact hh
      · exact .inr (.inl (e3.trans hh))
      · right; right
        obtain ⟨rs, ss, ops, e, hp, hm⟩ := hh
        refine ⟨rs, ss, ops, e, ?_, hm⟩
        unfold State.pushRecv State.wake; repeat' split
        all_goals first | exact hp | simp_all
    | pushSend f m =>
      intro hc
      have e1 : (s.pushSend f m).st = s.st := by unfold State.pushSend; split; rfl; exact (wake_fields _).1
      have e3 : (s.pushSend f m).terminate = s.terminate := by unfold State.pushSend; split; rfl; exact (wake_fields _).2.2.1
      rw [e1] at hc
      rcases ih hc with hh | hh | hh
      · left; unfold State.pushSend State.wake; repeat' split
        all_goals exact hh
      · exact .inr (.inl (e3.trans hh))
      · right; right
        obtain ⟨rs, ss, ops, e, hp, hm⟩ := hh
        refine ⟨rs, ss, ops, e, ?_, hm⟩
        unfold State.pushSend State.wake; repeat' split
        all_goals first | exact hp | simp_all
    | stop =>
      intro _
      refine .inr (.inl ?_)
      simp only [State.stop]; split <;> rfl
    | env hu => exact keep _ hu.fields.2.2.1 rfl id rfl

/-- Once a reset has been handled without an error the end is closed. -/
theorem reset_closes {b : Bool} {s : End α} (h : Reach handlers (.fresh b) s) :
    s.failed = false → (∃ r ∈ s.handledR, r.isReset = true) → s.st.state = .closed := by
  refine h.lift (h := handlers) (fun e f hR _ => f = false → (∃ r ∈ hR, r.isReset = true) → e.state = .closed) (by simp) ?_ ?_ ?_
  · rintro e hR hS r _ ih ⟨l, rfl⟩ hf ⟨r', hm, hr⟩
    have stay : e.state = .closed → (e.recv l r).st.state = .closed := by
      intro hs
      cases r with
      | frame f => cases f <;> simp_all [Ep.recv, Ep.handleInit, Ep.handleData, Ep.handleFeedback, Ep.handleClose, Ep.bad, Trpc.fail, good]
      | corrupt k => cases k <;> simp_all [Ep.recv, Ep.handleInit, Ep.handleData, Ep.handleFeedback, Ep.handleClose, Ep.bad, Ep.codec, Trpc.fail, good]
      | six => exact hs
      | unknown => simp [Ep.recv, good, hs]
    rcases List.mem_append.mp hm with hm | hm
    · exact stay (ih rfl ⟨r', hm, hr⟩)
    · rw [List.mem_singleton] at hm
      subst hm
      by_cases hs : e.state = .closed
      · exact stay hs
      · exfalso
        unfold RMsg.isReset at hr
        split at hr
        · simp [Ep.recv, Ep.handleClose, hs, Trpc.fail] at hf
        · cases hr
  · rintro e hR hS m _ ih ⟨l, rfl⟩ hf hm
    have hs := ih rfl hm
    have hp : ∀ f (k : Ep α → Res α), (k (e.send true f)).st.state = .closed → (e.put l f k).st.state = .closed := by
      intro f k hk
      unfold Ep.put
      split
      · simp [Ep.codec, Trpc.fail]
      · split
        · simp [Trpc.fail, hs]
        · exact hk
    obtain ⟨bb, m⟩ := m
    cases m with
    | init => simp [Ep.sendMsg, Ep.sendInit, hs, Ep.bad, Trpc.fail]
    | data a => simp [Ep.sendMsg, Ep.sendData, hs, Ep.bad, Trpc.fail]
    | feedback n => exact hp _ _ (by simp [good, hs])
    | close r st => simp [Ep.sendMsg, Ep.sendClose, hs, Ep.bad, Trpc.fail]
  · intro e e' f hR hS ih hu hf hm
    rw [hu.fields.2.2.1]; exact ih hf hm

/-- **C88** (the end): once a reset has been pushed to an end — as `TrpcStreamHandler::Stop` does when the connection closes — the end is done as soon as it is at rest, whatever
state it was in: `Join` returns. -/
theorem C88_reset_ends {b : Bool} {s : End α} (h : Reach handlers (.fresh b) s) (hq : ∀ s', ¬ Run handlers s s') (hr : s.terminate = true ∨ ∃ r ∈ s.recvd, r.isReset = true) : s.done = true := by
  obtain ⟨q1, q2, q3, _⟩ := C87_quiet total_recv total_send h hq
  cases hf : s.failed with
  | true => exact q2 hf
  | false =>
    rcases hr with ht | hr
    · exact q3.mp ht
    · rw [← (q1 hf).1] at hr
      rcases ends h (reset_closes h hf hr) with hh | hh | ⟨_, _, _, _, hp, _⟩
      · rw [hf] at hh; cases hh
      · exact q3.mp hh
      · have := quiet_off total_recv total_send hq
        rw [hp] at this; cases this

/-- **C88** (the connection): after either end has learnt that the connection is closed its stream is done as soon as it is at rest. -/
theorem C88_cut {n : Net α} (h : NReach n) : (n.cutC = true → (∀ s', ¬ Run handlers n.c s') → n.c.done = true) ∧ (n.cutS = true → (∀ s', ¬ Run handlers n.s s') → n.s.done = true) := by
  have key : (n.cutC = true → n.c.terminate = true ∨ ∃ r ∈ n.c.recvd, r.isReset = true) ∧ (n.cutS = true → n.s.terminate = true ∨ ∃ r ∈ n.s.recvd, r.isReset = true) := by
    have push : ∀ (s : End α) r, (s.terminate = true ∨ ∃ r ∈ s.recvd, r.isReset = true) → (s.pushRecv r).terminate = true ∨ ∃ r' ∈ (s.pushRecv r).recvd, r'.isReset = true := by
      intro s r hh
      obtain ⟨_, _, e3, e4⟩ := pushRecv_fields s r
      rw [e3, e4]
      rcases hh with hh | ⟨r', hm, hr⟩
      · exact .inl hh
      · refine .inr ⟨r', ?_, hr⟩
        split
        · exact hm
        · exact List.mem_append_left _ hm
    have cut : ∀ (s : End α) st, (s.pushRecv (.frame (.close true st))).terminate = true ∨ ∃ r' ∈ (s.pushRecv (.frame (.close true st))).recvd, r'.isReset = true := by
      intro s st
      obtain ⟨_, _, e3, e4⟩ := pushRecv_fields s (.frame (.close true st))
      rw [e3, e4]
      cases hh : s.terminate with
      | true => exact .inl rfl
      | false => exact .inr ⟨.frame (.close true st), by simp, rfl⟩
    have keep : ∀ s s' : End α, Keeps s s' → (s.terminate = true ∨ ∃ r ∈ s.recvd, r.isReset = true) → (s'.terminate = true ∨ ∃ r ∈ s'.recvd, r.isReset = true) := by
      intro s s' k hh
      rw [k.recvd]
      exact hh.imp_left k.term
    induction h with
    | init => exact ⟨nofun, nofun⟩
    | step _ hs ih =>
      cases hs with
      | client ho => exact ⟨fun hc => keep _ _ ho.keeps (ih.1 hc), ih.2⟩
      | server ho => exact ⟨ih.1, fun hc => keep _ _ ho.keeps (ih.2 hc)⟩
      | toServer _ _ => exact ⟨ih.1, fun hc => push _ _ (ih.2 hc)⟩
      | toClient _ _ => exact ⟨fun hc => push _ _ (ih.1 hc), ih.2⟩
      | cutServer _ => exact ⟨ih.1, fun _ => cut _ _⟩
      | cutClient _ => exact ⟨fun _ => cut _ _, ih.2⟩
  exact ⟨fun hc hq => C88_reset_ends h.inv.rc hq (key.1 hc), fun hc hq => C88_reset_ends h.inv.rs hq (key.2 hc)⟩

end Verif.Stream.Trpc
