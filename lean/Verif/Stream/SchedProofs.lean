import Verif.Stream.Sched

/-! What the scheduler of a stream guarantees for all handlers (C87). -/

namespace Verif.Stream

variable {σ R S : Type}

def Pc.isOff : Pc R S → Bool
  | .off => true
  | _ => false

def Pc.ending : Pc R S → Bool
  | .remove => true
  | .finish => true
  | _ => false

/-- The fiber will handle nothing more. -/
def Pc.over : Pc R S → Bool
  | .batch _ _ _ e => e
  | .top => false
  | _ => true

def Pc.leftR : Pc R S → List R
  | .batch rs _ _ _ => rs
  | _ => []

def Pc.leftS : Pc R S → List (Bool × S)
  | .batch _ ss _ _ => ss
  | _ => []

/-- Messages that were not pushed to the front. -/
def back (l : List (Bool × S)) : List S := l.filterMap fun x => if x.1 then none else some x.2

@[simp] theorem back_append (a b : List (Bool × S)) : back (a ++ b) = back a ++ back b := by simp [back]
@[simp] theorem back_nil : back ([] : List (Bool × S)) = [] := rfl
@[simp] theorem back_front (m : S) (l) : back ((true, m) :: l) = back l := by simp [back]
@[simp] theorem back_back (m : S) (l) : back ((false, m) :: l) = m :: back l := by simp [back]

structure Inv (s : State σ R S) : Prop where
  nb : s.broken = false
  idle : s.running = false → s.pc.isOff = true ∧ s.failed = false
  ran : s.running = true → s.pc.isOff = true → s.done = true
  dn : s.done = true → s.terminate = true ∧ s.pc.isOff = true
  td : s.terminate = true → s.running = false → s.done = true
  brk : s.pc.ending = true → s.terminate = true
  over : s.failed = true → s.pc.over = true
  err : ∀ rs ss ops e, s.pc = .batch rs ss ops e → e = s.failed
  empty : s.pc.isOff = true ∨ s.pc.ending = true → s.failed = false → s.recvQ = [] ∧ s.sendQ = []
  rem : s.done = true → 0 < s.removed
  fin : s.pc = .finish → 0 < s.removed
  rr : ∃ rest, s.recvd = s.handledR ++ rest ∧ (s.failed = false → rest = s.pc.leftR ++ s.recvQ)
  ss : ∃ rest, (s.handledS ++ rest).Perm s.sent ∧ back (s.handledS ++ rest) = back s.sent ∧ (s.failed = false → rest = s.pc.leftS ++ s.sendQ)

theorem Inv.wake {s : State σ R S} (hnb : s.broken = false) (idle : s.running = false → s.pc.isOff = true ∧ s.failed = false)
    (ran : s.running = true → s.pc.isOff = true → s.done = true) (dn : s.done = false) (ht : s.terminate = false)
    (brk : s.pc.ending = true → s.terminate = true) (over : s.failed = true → s.pc.over = true) (err : ∀ rs ss ops e, s.pc = .batch rs ss ops e → e = s.failed)
    (rr : ∃ rest, s.recvd = s.handledR ++ rest ∧ (s.failed = false → rest = s.pc.leftR ++ s.recvQ))
    (ss : ∃ rest, (s.handledS ++ rest).Perm s.sent ∧ back (s.handledS ++ rest) = back s.sent ∧ (s.failed = false → rest = s.pc.leftS ++ s.sendQ)) :
    Inv s.wake := by
  obtain ⟨st, recvQ, sendQ, terminate, done, running, pc, broken, failed, recvd, sent, handledR, handledS, removed⟩ := s
  dsimp only at *
  subst hnb; subst dn; subst ht
  cases running with
  | true =>
    cases pc with
    | off => exact absurd (ran rfl rfl) (by simp)
    | remove => exact absurd (brk rfl) (by simp)
    | finish => exact absurd (brk rfl) (by simp)
    | top => constructor <;> simp_all [State.wake, Pc.isOff, Pc.ending]
    | batch rs ss' ops e => constructor <;> simp_all [State.wake, Pc.isOff, Pc.ending]
  | false =>
    obtain ⟨h1, h2⟩ := idle rfl
    subst h2
    cases pc with
    | off => constructor <;> simp_all [State.wake, Pc.isOff, Pc.ending, Pc.over, Pc.leftR, Pc.leftS]
    | _ => cases h1

theorem Inv.pushRecv {s : State σ R S} (h : Inv s) (r : R) : Inv (s.pushRecv r) := by
  unfold State.pushRecv
  split
  · exact h
  · next ht =>
    have ht : s.terminate = false := by simpa using ht
    have hd : s.done = false := by
      cases hd : s.done with
      | false => rfl
      | true => have := (h.dn hd).1; rw [ht] at this; cases this
    refine Inv.wake h.nb h.idle h.ran hd ht h.brk h.over h.err ?_ h.ss
    obtain ⟨rest, e1, e2⟩ := h.rr
    exact ⟨rest ++ [r], by simp [e1], fun hf => by rw [e2 hf]; simp⟩

theorem Inv.pushSend {s : State σ R S} (h : Inv s) (front : Bool) (m : S) : Inv (s.pushSend front m) := by
  unfold State.pushSend
  split
  · exact h
  · next ht =>
    have ht : s.terminate = false := by simpa using ht
    have hd : s.done = false := by
      cases hd : s.done with
      | false => rfl
      | true => have := (h.dn hd).1; rw [ht] at this; cases this
    refine Inv.wake h.nb h.idle h.ran hd ht h.brk h.over h.err h.rr ?_
    obtain ⟨rest, e1, e2, e3⟩ := h.ss
    cases front with
    | false =>
      refine ⟨rest ++ [(false, m)], ?_, ?_, fun hf => by rw [e3 hf]; simp⟩
      · simpa using e1.append_right [(false, m)]
      · simp at e2 ⊢; rw [← e2]; simp
    | true =>
      cases hf : s.failed with
      | false =>
        have := e3 hf; subst this
        refine ⟨s.pc.leftS ++ (true, m) :: s.sendQ, ?_, ?_, fun _ => by simp⟩
        · dsimp only
          refine List.Perm.trans ?_ (e1.append_right [(true, m)])
          rw [← List.append_assoc, ← List.append_assoc]
          have : (s.handledS ++ s.pc.leftS ++ s.sendQ ++ [(true, m)]).Perm (s.handledS ++ s.pc.leftS ++ ([(true, m)] ++ s.sendQ)) := by
            rw [List.append_assoc]
            exact List.Perm.append_left _ List.perm_append_comm
          exact this.symm
        · simp at e2 ⊢; exact e2
      | true =>
        refine ⟨rest ++ [(true, m)], ?_, ?_, fun hf' => nomatch hf'⟩
        · simpa using e1.append_right [(true, m)]
        · simp at e2 ⊢; exact e2

theorem Inv.stop {s : State σ R S} (h : Inv s) : Inv s.stop := by
  obtain ⟨h1, h2, h3, h4, h5, h6, h7, h8, h9, h10, h11, h12, h13⟩ := h
  unfold State.stop
  cases hr : s.running with
  | true =>
    rw [if_pos rfl]
    constructor <;> first | exact h8 | simp_all
  | false =>
    rw [if_neg (by simp)]
    constructor <;> first | exact h8 | simp_all

/-- Calls of handlers do not move the fiber, which runs. -/
theorem op_pc {s : State σ R S} (h : Inv s) {rs ss ops e} (hp : s.pc = .batch rs ss ops e) (o : Op S) :
    (s.op o).pc = s.pc ∧ (s.op o).running = true ∧ (s.op o).failed = s.failed := by
  have hr : s.running = true := by
    cases hr : s.running with
    | true => rfl
    | false => have := (h.idle hr).1; rw [hp] at this; cases this
  cases o with
  | push m => simp only [State.op, State.pushSend]; split <;> simp [State.wake, hr]
  | stop => simp [State.op, State.stop, hr]

theorem Inv.op {s : State σ R S} (h : Inv s) (o : Op S) : Inv (s.op o) := by
  cases o with
  | push m => exact h.pushSend _ _
  | stop => exact h.stop

set_option maxHeartbeats 1000000 in
theorem Inv.run {hd : Handlers σ R S} {s s'} (h : Inv s) (hs : Run hd s s') : Inv s' := by
  cases hs with
  | rest hp hr hq ht =>
    obtain ⟨h1, h2, h3, h4, h5, h6, h7, h8, h9, h10, h11, h12, h13⟩ := h
    have hf : s.failed = false := by cases hf : s.failed <;> simp_all [Pc.over]
    constructor <;> simp_all [Pc.isOff, Pc.ending, Pc.over, Pc.leftR, Pc.leftS]
  | last hp hr hq ht =>
    obtain ⟨h1, h2, h3, h4, h5, h6, h7, h8, h9, h10, h11, h12, h13⟩ := h
    constructor <;> simp_all [Pc.isOff, Pc.ending, Pc.over, Pc.leftR, Pc.leftS]
  | take hp hq =>
    obtain ⟨h1, h2, h3, h4, h5, h6, h7, h8, h9, h10, h11, h12, h13⟩ := h
    have hf : s.failed = false := by cases hf : s.failed <;> simp_all [Pc.over]
    constructor <;> simp_all [Pc.isOff, Pc.ending, Pc.over, Pc.leftR, Pc.leftS]
  | @recv rs ss r out hp hh =>
    obtain ⟨h1, h2, h3, h4, h5, h6, h7, h8, h9, h10, h11, h12, h13⟩ := h
    have hf := (h8 _ _ _ _ hp).symm
    obtain ⟨rest, e1, e2⟩ := h12
    obtain ⟨rest', e3, e4, e5⟩ := h13
    have := e2 hf; subst this
    have := e5 hf; subst this
    refine ⟨h1, ?_, ?_, ?_, ?_, ?_, ?_, ?_, ?_, ?_, ?_, ⟨rs ++ s.recvQ, ?_, ?_⟩, ⟨ss ++ s.sendQ, ?_, ?_, ?_⟩⟩ <;>
      simp_all [Pc.isOff, Pc.ending, Pc.over, Pc.leftR, Pc.leftS]
  | @send ss m out hp hh =>
    obtain ⟨h1, h2, h3, h4, h5, h6, h7, h8, h9, h10, h11, h12, h13⟩ := h
    have hf := (h8 _ _ _ _ hp).symm
    obtain ⟨rest, e1, e2⟩ := h12
    obtain ⟨rest', e3, e4, e5⟩ := h13
    have := e2 hf; subst this
    have := e5 hf; subst this
    refine ⟨h1, ?_, ?_, ?_, ?_, ?_, ?_, ?_, ?_, ?_, ?_, ⟨s.recvQ, ?_, ?_⟩, ⟨ss ++ s.sendQ, ?_, ?_, ?_⟩⟩ <;>
      simp_all [Pc.isOff, Pc.ending, Pc.over, Pc.leftR, Pc.leftS]
  | @op rs ss o ops err hp =>
    obtain ⟨k1, k2, k3⟩ := op_pc h hp o
    have he := h.err _ _ _ _ hp
    have h' := h.op o
    rw [hp] at k1
    rw [← k3] at he
    clear k3 hp h
    generalize s.op o = s2 at *
    obtain ⟨h1, h2, h3, h4, h5, h6, h7, h8, h9, h10, h11, h12, h13⟩ := h'
    clear h8
    constructor <;> simp_all [Pc.isOff, Pc.ending, Pc.over, Pc.leftR, Pc.leftS]
  | @error rs ss hp =>
    have he := h.err _ _ _ _ hp
    have hr : s.running = true := by
      cases hr : s.running with
      | true => rfl
      | false => have := (h.idle hr).1; rw [hp] at this; cases this
    obtain ⟨h1, h2, h3, h4, h5, h6, h7, h8, h9, h10, h11, h12, h13⟩ := h
    obtain ⟨rest, e1, e2⟩ := h12
    obtain ⟨rest', e3, e4, e5⟩ := h13
    simp only [State.stop, hr, if_true]
    refine ⟨h1, ?_, ?_, ?_, ?_, ?_, ?_, ?_, ?_, ?_, ?_, ⟨rest, ?_, ?_⟩, ⟨rest', ?_, ?_, ?_⟩⟩ <;>
      simp_all [Pc.isOff, Pc.ending, Pc.over, Pc.leftR, Pc.leftS]
  | next hp =>
    obtain ⟨h1, h2, h3, h4, h5, h6, h7, h8, h9, h10, h11, h12, h13⟩ := h
    have hf := (h8 _ _ _ _ hp).symm
    constructor <;> simp_all [Pc.isOff, Pc.ending, Pc.over, Pc.leftR, Pc.leftS]
  | remove hp =>
    obtain ⟨h1, h2, h3, h4, h5, h6, h7, h8, h9, h10, h11, h12, h13⟩ := h
    constructor <;> simp_all [Pc.isOff, Pc.ending, Pc.over, Pc.leftR, Pc.leftS]
  | finish hp =>
    obtain ⟨h1, h2, h3, h4, h5, h6, h7, h8, h9, h10, h11, h12, h13⟩ := h
    constructor <;> simp_all [Pc.isOff, Pc.ending, Pc.over, Pc.leftR, Pc.leftS]

theorem Inv.init (st : σ) : Inv (State.init st : State σ R S) := by
  constructor <;> simp [State.init, Pc.isOff, Pc.ending, Pc.leftR, Pc.leftS]

theorem Inv.step {hd : Handlers σ R S} {s s'} (h : Inv s) (hs : Step hd s s') : Inv s' := by
  cases hs with
  | run hs => exact h.run hs
  | pushRecv r => exact h.pushRecv r
  | pushSend f m => exact h.pushSend f m
  | stop => exact h.stop
  | env _ => obtain ⟨h1, h2, h3, h4, h5, h6, h7, h8, h9, h10, h11, h12, h13⟩ := h; exact ⟨h1, h2, h3, h4, h5, h6, h7, h8, h9, h10, h11, h12, h13⟩

theorem Reach.inv {hd : Handlers σ R S} {st0 s} (h : Reach hd st0 s) : Inv s := by
  induction h with
  | init => exact Inv.init _
  | step _ hs ih => exact ih.step hs

end Verif.Stream
