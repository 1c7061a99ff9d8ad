import Verif.Conn.Handshake

/-! Handshakes and messages (C85), and what goes wrong (C86). -/

namespace Verif.Conn.Handshake

def one (b : Bool) : Nat := if b then 1 else 0

@[simp] theorem one_true : one true = 1 := rfl
@[simp] theorem one_false : one false = 0 := rfl

def Pc.on : Pc → Nat
  | .idle => 0
  | _ => 1

@[simp] theorem Pc.on_idle : Pc.idle.on = 0 := rfl
@[simp] theorem Pc.on_check : Pc.check.on = 1 := rfl
@[simp] theorem Pc.on_lock : Pc.lock.on = 1 := rfl
@[simp] theorem Pc.on_flush : Pc.flush.on = 1 := rfl

structure Inv (s : State) : Prop where
  fresh : s.started = false → s.done = false ∧ s.read = 0 ∧ s.write = 0
  mid : s.started = true → s.done = false → s.read + s.write = 1 ∧ (s.needRestartRead = true ↔ s.read = 0)
  need : s.started = false → s.needRestartRead = true
  before : s.done = false → s.event = false ∧ s.sender ≠ .flush ∧ s.sender.on + one s.pending = one s.busy
  fin : s.done = true → s.read = 1 ∧ s.sender.on + s.write = one s.busy ∧ (s.event = true → s.write = 1)

theorem Inv.next {s a} (h : Inv s) (hk : s.killed = false) (hg : a.good s) :
    s.step a = .stuck ∨ ∃ s', s.step a = .ok s' ∧ (s'.killed = true ∨ Inv s') := by
  obtain ⟨busy, sender, done, pending, nrr, started, read, write, event, killed, emptied⟩ := s
  obtain ⟨h1, h2, h3, h4, h5⟩ := h
  dsimp only at hk h1 h2 h3 h4 h5
  subst hk
  cases a with
  | send =>
    cases busy <;> cases sender <;> simp [State.step]
    cases done <;> cases event <;> constructor <;> simp_all <;> omega
  | sender all =>
    cases sender <;> cases done <;> cases pending <;> cases busy <;> cases event <;> cases all <;> simp [State.step, State.mayFlush] at * <;>
      first | done | omega | (constructor <;> simp_all <;> omega) | (constructor <;> dsimp only <;> grind [one, Pc.on])
  | start st =>
    cases started <;> simp [State.step]
    cases st <;> cases done <;> cases pending <;> cases nrr <;> simp [doHandshake, Act.good] at * <;>
      first | done | omega | (constructor <;> simp_all <;> omega) | (constructor <;> dsimp only <;> grind [one, Pc.on])
  | readable st =>
    rcases Nat.eq_zero_or_pos read with hr | hr
    · left; simp [State.step, hr]
    · have hr' : read ≠ 0 := by omega
      cases started <;> cases done <;> cases st <;> cases pending <;> cases nrr <;> cases busy <;> simp [State.step, doHandshake, Act.good, hr'] at * <;>
        first | done | omega | (constructor <;> simp_all <;> omega) | (constructor <;> dsimp only <;> grind [one, Pc.on])
  | writable st =>
    rcases Nat.eq_zero_or_pos write with hr | hr
    · left; simp [State.step, hr]
    · have hr' : write ≠ 0 := by omega
      cases event
      · cases started <;> cases done <;> cases st <;> cases pending <;> cases nrr <;> cases busy <;> cases sender <;>
          simp [State.step, doHandshake, Act.good, State.mayFlush, hr'] at * <;> first | done | omega | (constructor <;> simp_all <;> omega) | (constructor <;> dsimp only <;> grind [one, Pc.on])
      · left; simp [State.step]
  | flushed all =>
    cases event <;> cases all <;> cases busy <;> cases done <;> simp [State.step] at * <;>
      first | done | omega | (constructor <;> simp_all <;> omega) | (constructor <;> dsimp only <;> grind [one, Pc.on])

theorem step_killed {s : State} {a : Act} (h : s.killed = true) : s.step a = .stuck := by
  cases a <;> simp [State.step, h]

theorem Good.inv {l s} (h : Good l s) : s.killed = true ∨ Inv s := by
  induction h with
  | init => exact .inr ⟨by simp [State.init], by simp [State.init], by simp [State.init], by simp [State.init], by simp [State.init]⟩
  | @step l s a s' _ hg hs ih =>
    rcases ih with ih | ih
    · rw [step_killed ih] at hs; cases hs
    · cases hk : s.killed with
      | true => rw [step_killed hk] at hs; cases hs
      | false =>
        rcases ih.next hk hg with e | ⟨t, e, ht⟩
        · rw [hs] at e; cases e
        · rw [hs] at e; injection e with e; subst e; exact ht

/-! ## C85 -/

/-- No check fails, and nobody begins to flush while another one does or when there is nothing to flush. -/
theorem C85_safe {l s a} (h : Good l s) (hg : a.good s) : s.step a ≠ .fail := by
  intro hf
  cases hk : s.killed with
  | true => rw [step_killed hk] at hf; cases hf
  | false =>
    rcases h.inv with hi | hi
    · rw [hk] at hi; cases hi
    · rcases hi.next hk hg with e | ⟨t, e, _⟩ <;> rw [e] at hf <;> cases hf

/-- Messages that nobody is flushing wait for a write event, or before its end for the handshake. -/
theorem C85_not_stranded {l s} (h : Good l s) (hk : s.killed = false) (hb : s.busy = true) (hs : s.sender = .idle) :
    if s.done then s.write = 1 else s.pending = true := by
  rcases h.inv with hi | hi
  · rw [hk] at hi; cases hi
  · cases hd : s.done with
    | true => have := (hi.fin hd).2.1; rw [hb, hs] at this; simpa using this
    | false =>
      have := (hi.before hd).2.2; rw [hb, hs] at this
      cases hp : s.pending with
      | true => simp
      | false => rw [hp] at this; simp at this

/-- The handshake waits for exactly one event, and when it is over, reading is on. -/
theorem C85_events {l s} (h : Good l s) (hk : s.killed = false) (hs : s.started = true) :
    if s.done then s.read = 1 ∧ s.write ≤ 1 else s.read + s.write = 1 := by
  rcases h.inv with hi | hi
  · rw [hk] at hi; cases hi
  · cases hd : s.done with
    | true =>
      have := hi.fin hd
      refine ⟨this.1, ?_⟩
      have := this.2.1
      cases hb : s.busy <;> rw [hb] at this <;> simp at this <;> omega
    | false => exact (hi.mid hs hd).1

/-- A handler that does not end the handshake outside of read events, as that of redis: all its runs are good. -/
theorem C85_read_handshake {l s} (h : Reach l s) (hl : .start .succ ∉ l ∧ .writable .succ ∉ l) : Good l s := by
  induction h with
  | init => exact .init
  | @step l s a s' _ hs ih =>
    refine (ih ⟨fun h => hl.1 (by simp [h]), fun h => hl.2 (by simp [h])⟩).step ?_ hs
    cases a with
    | start st => rintro rfl; exact absurd hl.1 (by simp)
    | writable st => rintro rfl; exact absurd hl.2 (by simp)
    | _ => trivial

theorem done_stays {s : State} {a : Act} {t} (hd : s.done = true) (hs : s.step a = .ok t) : t.done = true := by
  obtain ⟨busy, sender, done, pending, nrr, started, read, write, event, killed, emptied⟩ := s
  dsimp only at hd; subst hd
  cases a <;> simp only [State.step, doHandshake, if_true] at hs <;> (repeat' split at hs) <;>
    first | (cases hs; done) | (injection hs with hs; subst hs; rfl) | (simp_all; done) | (cases hs; simp_all)

/-- A handler without a handshake: all runs in which nobody sends before `StartHandshaking` are good. -/
theorem C85_no_handshake {l s} (h : Reach l s) (hl : l.head? = some (.start .succ)) : Good l s ∧ s.done = true := by
  induction h with
  | init => cases hl
  | @step l s a s' hr hs ih =>
    cases l with
    | nil =>
      simp at hl; subst hl
      have h0 : s = .init := by
        generalize he : ([] : List Act) = l0 at hr
        cases hr with
        | init => rfl
        | step => simp at he
      subst h0
      cases hs
      exact ⟨Good.step (l := []) .init (fun _ => rfl) rfl, rfl⟩
    | cons b l =>
      obtain ⟨h1, h2⟩ := ih (by simpa using hl)
      refine ⟨h1.step ?_ hs, done_stays h2 hs⟩
      cases a with
      | start st =>
        rcases h1.inv with hi | hi
        · rw [step_killed hi] at hs; cases hs
        · cases hst : s.started with
          | true => simp [State.step, hst] at hs
          | false => have := (hi.fresh hst).1; rw [h2] at this; cases this
      | writable st => exact fun _ => .inl h2
      | _ => trivial

def State.run (s : State) : List Act → Option State
  | [] => some s
  | a :: l => match s.step a with
    | .ok s' => s'.run l
    | _ => none

theorem Reach.run {l l' s s'} (h : Reach l s) (hr : s.run l' = some s') : Reach (l ++ l') s' := by
  induction l' generalizing l s with
  | nil => simp [State.run] at hr; subst hr; simpa using h
  | cons a l' ih =>
    simp only [State.run] at hr
    split at hr
    · next t ht =>
      have := ih (h.step ht) hr
      simpa using this
    · cases hr

/-- A handshake that needs to read, to write and to read again, with a message sent in between: the message is sent at the end. -/
def exampleRun : List Act :=
  [.start .needRead, .send, .sender false, .readable .needWrite, .sender false, .writable .needWrite, .writable .needRead, .readable .succ,
   .writable .failed, .flushed false, .writable .failed, .flushed true]

example : State.init.run exampleRun = some ⟨false, .idle, true, true, false, true, 1, 0, false, false, 1⟩ := by decide +kernel

/-- Before the end it waits. -/
example : State.init.run (exampleRun.take 7) = some ⟨true, .idle, false, true, false, true, 1, 0, false, false, 0⟩ := by decide +kernel

example : .start .succ ∉ exampleRun ∧ .writable .succ ∉ exampleRun := by decide

/-- The end of the handshake in a write event, with a message that waits, is good too. -/
example : ∃ l s, Good l s ∧ s.done = true ∧ Act.writable .succ ∈ l ∧ s.emptied = 1 := by
  have h0 := Good.init
  have h1 := h0.step (a := .start .needWrite) (by simp [Act.good]) rfl
  have h2 := h1.step (a := .send) trivial rfl
  have h3 := h2.step (a := .sender true) trivial rfl
  have h4 := h3.step (a := .sender true) trivial rfl
  have h5 := h4.step (a := .writable .succ) (fun _ => .inr rfl) rfl
  have h6 := h5.step (a := .flushed true) trivial rfl
  exact ⟨_, _, h6, rfl, by simp, rfl⟩

/-! ## C86: what goes wrong -/

/-- A message is sent before `StartHandshaking` and the handler has no handshake: this message and all later ones are never written, whatever happens. -/
theorem C86_forgotten_partial : ∃ l s, Reach l s ∧ Act.start .succ ∈ l ∧ s.killed = false ∧
    ∀ l' s', s.run l' = some s' → s'.busy = true ∧ s'.emptied = 0 ∧ s'.killed = false := by
  let l : List Act := [.send, .sender true, .sender true, .start .succ]
  have hr : State.init.run l = some ⟨true, .idle, true, true, true, true, 1, 0, false, false, 0⟩ := by decide +kernel
  refine ⟨[] ++ l, _, Reach.init.run hr, by simp [l], rfl, ?_⟩
  intro l'
  induction l' with
  | nil => intro s' h; simp [State.run] at h; subst h; simp
  | cons a l' ih =>
    intro s' h
    cases a with
    | readable st => cases st <;> exact ih s' h
    | _ => simp [State.run, State.step] at h

/-- The handshake ends in a write event and there is no message: a check fails. -/
theorem C86_nothing_to_write_partial : ∃ l s, Reach l s ∧ s.busy = false ∧ s.step (.writable .succ) = .fail := by
  let l : List Act := [.start .needRead, .readable .needWrite]
  have hr : ∃ s, State.init.run l = some s ∧ s.busy = false ∧ s.step (.writable .succ) = .fail := ⟨_, rfl, rfl, rfl⟩
  obtain ⟨s, h1, h2⟩ := hr
  exact ⟨[] ++ l, s, Reach.init.run h1, h2⟩

/-- The handshake ends in a write event just when a message is sent: the sender and `OnWritable` flush at once. -/
theorem C86_two_writers_partial : ∃ l s, Reach l s ∧ s.event = true ∧ s.sender = .check ∧ s.step (.sender true) = .fail := by
  let l : List Act := [.start .needRead, .readable .needWrite, .send, .writable .succ]
  have hr : ∃ s, State.init.run l = some s ∧ s.event = true ∧ s.sender = .check ∧ s.step (.sender true) = .fail := ⟨_, rfl, rfl, rfl, rfl⟩
  obtain ⟨s, h1, h2⟩ := hr
  exact ⟨[] ++ l, s, Reach.init.run h1, h2⟩

end Verif.Conn.Handshake
