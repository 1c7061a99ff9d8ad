import Verif.Stream.SchedProofs

/-! C87. -/

namespace Verif.Stream

variable {σ R S : Type}

/-- A step of anyone but the fiber. -/
inductive Other (h : Handlers σ R S) : State σ R S → State σ R S → Prop where
  | pushRecv {s} (r : R) : Other h s (s.pushRecv r)
  | pushSend {s} (front : Bool) (m : S) : Other h s (s.pushSend front m)
  | stop {s} : Other h s s.stop
  | env {s st} : h.env s.st st → Other h s { s with st := st }

/-- Any number of them. -/
inductive Others (h : Handlers σ R S) : State σ R S → State σ R S → Prop where
  | refl {s} : Others h s s
  | step {s t u} : Others h s t → Other h t u → Others h s u

/-- **C87** (one fiber): at no time are there two fibers of one stream, and no message is handled any more once the stream is done. -/
theorem C87_alone {h : Handlers σ R S} {st0 s} (hr : Reach h st0 s) :
    s.broken = false ∧ (s.done = true → ∀ s', Step h s s' → s'.done = true ∧ s'.handledR = s.handledR ∧ s'.handledS = s.handledS) := by
  have hi := hr.inv
  refine ⟨hi.nb, fun hd s' hs => ?_⟩
  obtain ⟨ht, ho⟩ := hi.dn hd
  cases hs with
  | run hs => cases hs <;> simp_all [Pc.isOff]
  | pushRecv r => simp [State.pushRecv, ht, hd]
  | pushSend f m => simp [State.pushSend, ht, hd]
  | stop => unfold State.stop; dsimp only; split <;> simp [hd]
  | env _ => exact ⟨hd, rfl, rfl⟩

/-- **C87** (order): received messages are handled in the order in which they were accepted; so are messages to send that were not pushed to the front; no message is
handled twice or made up. -/
theorem C87_order {h : Handlers σ R S} {st0 s} (hr : Reach h st0 s) :
    s.handledR <+: s.recvd ∧ back s.handledS <+: back s.sent ∧ ∃ rest, (s.handledS ++ rest).Perm s.sent := by
  have hi := hr.inv
  obtain ⟨r1, e1, _⟩ := hi.rr
  obtain ⟨r2, e2, e3, _⟩ := hi.ss
  exact ⟨⟨r1, e1.symm⟩, ⟨back r2, by rw [← back_append]; exact e3⟩, r2, e2⟩

theorem quiet_off {h : Handlers σ R S} (hR : ∀ st r, ∃ o, h.recv st r o) (hS : ∀ st m, ∃ o, h.send st m o) {s : State σ R S} (hq : ∀ s', ¬ Run h s s') : s.pc.isOff = true := by
  cases hp : s.pc with
  | off => rfl
  | top =>
    exfalso
    by_cases h1 : s.recvQ = []
    · by_cases h2 : s.sendQ = []
      · cases ht : s.terminate with
        | true => exact hq _ (.last hp h1 h2 ht)
        | false => exact hq _ (.rest hp h1 h2 ht)
      · exact hq _ (.take hp (.inr h2))
    · exact hq _ (.take hp (.inl h1))
  | remove => exact absurd (.remove hp) (hq _)
  | finish => exact absurd (.finish hp) (hq _)
  | batch rs ss ops e =>
    exfalso
    cases ops with
    | cons o ops => exact hq _ (.op hp)
    | nil =>
      cases e with
      | true => exact hq _ (.error hp)
      | false =>
        cases rs with
        | cons r rs => obtain ⟨o, ho⟩ := hR s.st r; exact hq _ (.recv hp ho)
        | nil =>
          cases ss with
          | cons m ss => obtain ⟨o, ho⟩ := hS s.st m.2; exact hq _ (.send hp ho)
          | nil => exact hq _ (.next hp)

/-- **C87** (nothing is left): if the fiber has nothing to do and no handler failed then every accepted message has been handled; and if `Stop` was called then the stream is
done and was removed from its connection. -/
theorem C87_quiet {h : Handlers σ R S} (hR : ∀ st r, ∃ o, h.recv st r o) (hS : ∀ st m, ∃ o, h.send st m o) {st0 s} (hr : Reach h st0 s) (hq : ∀ s', ¬ Run h s s') :
    (s.failed = false → s.handledR = s.recvd ∧ s.handledS.Perm s.sent ∧ back s.handledS = back s.sent) ∧
    (s.failed = true → s.done = true) ∧ (s.terminate = true ↔ s.done = true) ∧ (s.done = true → 0 < s.removed) := by
  have hi := hr.inv
  have ho := quiet_off hR hS hq
  refine ⟨fun hf => ?_, fun hf => ?_, ⟨fun ht => ?_, fun hd => (hi.dn hd).1⟩, hi.rem⟩
  · obtain ⟨r1, e1, e1'⟩ := hi.rr
    obtain ⟨r2, e2, e3, e3'⟩ := hi.ss
    obtain ⟨q1, q2⟩ := hi.empty (.inl ho) hf
    have hp : s.pc = .off := by cases hp : s.pc <;> simp_all [Pc.isOff]
    have := e1' hf
    rw [hp, q1] at this
    simp only [Pc.leftR, List.append_nil] at this
    subst this
    have := e3' hf
    rw [hp, q2] at this
    simp only [Pc.leftS, List.append_nil] at this
    subst this
    simp at e1 e2 e3
    exact ⟨e1.symm, e2, e3⟩
  · cases hrn : s.running with
    | true => exact hi.ran hrn ho
    | false => have := (hi.idle hrn).2; rw [hf] at this; cases this
  · cases hrn : s.running with
    | true => exact hi.ran hrn ho
    | false => exact hi.td ht hrn

/-- Work that is left for the fiber of a stopped stream. -/
def work (s : State σ R S) : Nat :=
  3 * (s.recvQ.length + s.sendQ.length) + match s.pc with
    | .off => 0
    | .finish => 1
    | .remove => 2
    | .top => 3
    | .batch rs ss _ _ => rs.length + ss.length + 4

def work2 (s : State σ R S) : Nat :=
  match s.pc with
  | .batch _ _ ops _ => ops.length
  | _ => 0

theorem Others.work {h : Handlers σ R S} {s t : State σ R S} (ht : s.terminate = true) (hs : Others h s t) :
    t.terminate = true ∧ work t = work s ∧ work2 t = work2 s := by
  induction hs with
  | refl => exact ⟨ht, rfl, rfl⟩
  | step _ ho ih =>
    obtain ⟨h1, h2, h3⟩ := ih
    cases ho with
    | pushRecv r => simp [State.pushRecv, h1, h2, h3]
    | pushSend f m => simp [State.pushSend, h1, h2, h3]
    | stop => unfold State.stop; dsimp only; rw [← h2, ← h3]; split <;> exact ⟨rfl, rfl, rfl⟩
    | env _ => exact ⟨h1, h2, h3⟩

theorem Run.work {h : Handlers σ R S} {s t : State σ R S} (ht : s.terminate = true) (hs : Run h s t) :
    t.terminate = true ∧ (work t < work s ∨ work t = work s ∧ work2 t < work2 s) := by
  cases hs with
  | rest _ _ _ h4 => rw [ht] at h4; cases h4
  | last hp h1 h2 _ => refine ⟨ht, .inl ?_⟩; simp [Stream.work, hp, h1, h2]
  | take hp hq =>
    refine ⟨ht, .inl ?_⟩
    have : 0 < s.recvQ.length + s.sendQ.length := by
      rcases hq with hq | hq <;> (have := List.length_pos_iff.mpr hq; omega)
    simp [Stream.work, hp]; omega
  | recv hp _ => refine ⟨ht, .inl ?_⟩; simp [Stream.work, hp]
  | send hp _ => refine ⟨ht, .inl ?_⟩; simp [Stream.work, hp]
  | @op rs ss o ops err hp =>
    have e : (s.op o).recvQ = s.recvQ ∧ (s.op o).sendQ = s.sendQ ∧ (s.op o).terminate = true := by
      cases o with
      | push m => simp [State.op, State.pushSend, ht]
      | stop => simp only [State.op, State.stop]; split <;> exact ⟨rfl, rfl, rfl⟩
    refine ⟨e.2.2, .inr ⟨?_, ?_⟩⟩
    · simp [Stream.work, hp, e.1, e.2.1]
    · simp [Stream.work2, hp]
  | @error rs ss hp =>
    have e : s.stop.recvQ = s.recvQ ∧ s.stop.sendQ = s.sendQ ∧ s.stop.terminate = true := by
      simp only [State.stop]; split <;> exact ⟨rfl, rfl, rfl⟩
    refine ⟨e.2.2, .inl ?_⟩
    simp [Stream.work, hp, e.1, e.2.1] <;> omega
  | next hp => refine ⟨ht, .inl ?_⟩; simp [Stream.work, hp]
  | remove hp => refine ⟨ht, .inl ?_⟩; simp [Stream.work, hp]
  | finish hp => refine ⟨ht, .inl ?_⟩; simp [Stream.work, hp]

/-- **C87** (`Join` returns): once `Stop` has been called the fiber takes finitely many steps, whatever others do meanwhile — and then, by `C87_quiet`, the stream is done. -/
theorem C87_stops {h : Handlers σ R S} {s : State σ R S} (ht : s.terminate = true) :
    Acc (fun t s => ∃ m, Others h s m ∧ Run h m t) s := by
  suffices H : ∀ n k, ∀ s : State σ R S, s.terminate = true → work s = n → work2 s = k → Acc (fun t s => ∃ m, Others h s m ∧ Run h m t) s from H _ _ s ht rfl rfl
  intro n
  induction n using Nat.strongRecOn with
  | _ n ihn =>
    intro k
    induction k using Nat.strongRecOn with
    | _ k ihk =>
      intro s ht hn hk
      refine ⟨_, fun t ⟨m, hm, hrun⟩ => ?_⟩
      obtain ⟨m1, m2, m3⟩ := hm.work ht
      obtain ⟨r1, r2⟩ := hrun.work m1
      rcases r2 with r2 | ⟨r2, r3⟩
      · exact ihn _ (by omega) _ t r1 rfl rfl
      · exact ihk _ (by omega) t r1 (by omega) rfl

section example_run

/-- A stream that answers every message with the same message and stops after a zero. -/
def echo : Handlers (List Nat) Nat Nat where
  recv st r o := o = ⟨st, if r = 0 then [.stop] else [.push r], false⟩
  send st m o := o = ⟨st ++ [m], [], false⟩
  env _ _ := False

/-- Two messages are echoed, a third stops the stream, which is then done. -/
theorem echo_run : ∃ s, Reach echo [] s ∧ s.st = [1, 2] ∧ s.recvd = [1, 2, 0] ∧ s.handledR = [1, 2, 0] ∧ back s.handledS = [1, 2] ∧ s.done = true ∧ s.failed = false ∧ s.removed = 1 := by
  have h := Reach.init (h := echo) (st0 := [])
  have h := h.step (.pushRecv 1)
  have h := h.step (.pushRecv 2)
  have h := h.step (.run (.take rfl (.inl (by exact List.cons_ne_nil _ _))))
  have h := h.step (.run (.recv rfl rfl))
  have h := h.step (.run (.op rfl))
  have h := h.step (.pushRecv 0)
  have h := h.step (.run (.recv rfl rfl))
  have h := h.step (.run (.op rfl))
  have h := h.step (.run (.next rfl))
  have h := h.step (.run (.take rfl (.inl (by exact List.cons_ne_nil _ _))))
  have h := h.step (.run (.recv rfl rfl))
  have h := h.step (.run (.op rfl))
  have h := h.step (.run (.send rfl rfl))
  have h := h.step (.run (.send rfl rfl))
  have h := h.step (.run (.next rfl))
  have h := h.step (.run (.last rfl rfl rfl rfl))
  have h := h.step (.run (.remove rfl))
  have h := h.step (.run (.finish rfl))
  exact ⟨_, h, rfl, rfl, rfl, rfl, rfl, rfl, rfl⟩

example : ∃ s, Reach echo [] s ∧ s.done = true ∧ ∀ s', ¬ Run echo s s' := by
  obtain ⟨s, hr, _, _, _, _, hd, _⟩ := echo_run
  have := (hr.inv.dn hd).2
  refine ⟨s, hr, hd, fun s' hs => ?_⟩
  cases hs <;> simp_all [Pc.isOff]

end example_run

end Verif.Stream
