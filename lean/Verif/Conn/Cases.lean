import Verif.Conn.Destroy

/-!
# When sending closes a connection, and cases that go wrong
-/

namespace Verif.Conn

def State.run (s : State) : List Act → Option State
  | [] => some s
  | a :: l => match s.step a with
    | .ok s' => s'.run l
    | _ => none

theorem Reach.run {l l' s s'} (h : Reach l s) (hr : s.run l' = some s') : Reach (l ++ l') s' := by
  induction l' generalizing l s with
  | nil => simp [State.run] at hr; subst hr; simpa using h
  | cons a l' ih =>
    simp only [State.run] at hr
    split at hr
    · next t ht =>
      have := ih (h.step ht) hr
      simpa using this
    · cases hr

/-! ## Runs -/

/-- Two senders; the system takes a part, then there is no more space; the fiber writes the rest and switches the event off. -/
def exampleRun : List Act :=
  [.send 0 [1, 2], .send 1 [3], .link 0, .link 1,
   .flush (.sender 0) false .again, .flush (.sender 0) false .again, .flush (.sender 0) false .again, .flush (.sender 0) false (.took 3 1),
   .flush (.sender 0) false .again, .flush (.sender 0) false .again, .restart 0, .task,
   .epollOut, .fiber, .flush .event false .again, .flush .event false .again, .flush .event false .again, .flush .event false (.took 2 2),
   .flush .event false .again, .flush .event false .again, .flush .event false .again, .fiber, .task]

example : ((State.init.run exampleRun).map fun s => (s.wire, s.done, s.killed, s.armed, s.tail)) =
    some ([1, 2, 3], [0, 1], false, false, none) := by decide +kernel

/-- In between: a byte is written and the system is asked for an event. -/
example : ((State.init.run (exampleRun.take 12)).map fun s => (s.wire, s.done, s.armed, s.writeEvents, s.head)) =
    some ([1], [], true, 0, some 0) := by decide +kernel

/-- A flusher that waits for a sender (`spin`). -/
example : ((State.init.run [.send 0 [1], .link 0, .flush (.sender 0) false .again, .flush (.sender 0) false .again, .flush (.sender 0) false (.took 1 1),
    .flush (.sender 0) false .again, .send 1 [2], .flush (.sender 0) false .again]).map fun s => (s.pc (.sender 0), s.wire)) =
    some (some (.spin 0 true false), [1]) := by decide +kernel

example : (match (State.init.run exampleRun).map (·.destroy true) with | some (.ok s) => s.nodes.map (·.live) | _ => [true]) = [false, false, false] := by
  decide +kernel

example : (match (State.init.run (exampleRun.take 12)).map (·.destroy false) with | some (.ok s) => s.nodes.map (·.live) | _ => [true]) = [false, false] := by
  decide +kernel

/-! ## C81 -/

/-- The system does its work, and nobody closes the connection. -/
def Act.fine : Act → Prop
  | .kill => False
  | .flush _ _ .error => False
  | .flush _ _ (.took g n) => 0 < g → 0 < n
  | _ => True

def FPc.wrote : FPc → Bool
  | .rewind _ _ w _ => w
  | .cas _ w _ => w
  | .spin _ w _ => w
  | .setHead _ w _ => w
  | .leave _ w _ => w
  | _ => true

structure Alive (s : State) : Prop where
  off : ∀ (i : Nat) nd, s.nodes[i]? = some nd → nd.off < nd.msg.length
  pcs : ∀ w f, s.pc w = some f → f.wrote = true
  alive : s.killed = false

theorem pc_setPc {s : State} {w w' f g} (h : (s.setPc w f).pc w' = some g) : (w' = w ∧ g = f) ∨ s.pc w' = some g := by
  cases w with
  | sender i =>
    cases w' with
    | sender j =>
      rw [pc_sender] at h
      by_cases e : j = i
      · subst e
        simp [State.setPc, setSender_self] at h
        exact .inl ⟨rfl, h.symm⟩
      · simp only [State.setPc, setSender_ne e] at h
        exact .inr (pc_sender.2 h)
    | event => exact .inr h
  | event =>
    cases w' with
    | sender j => exact .inr h
    | event =>
      have := pc_event.1 h
      injection this with this
      exact .inl ⟨rfl, this.symm⟩

theorem Alive.setPc {s : State} {w f} (h : Alive s) (hf : f.wrote = true) : Alive (s.setPc w f) := by
  refine ⟨?_, ?_, ?_⟩
  · rw [setPc_nodes]; exact h.off
  · intro w' g hg
    rcases pc_setPc hg with ⟨_, rfl⟩ | hg
    · exact hf
    · exact h.pcs _ _ hg
  · cases w <;> exact h.alive

theorem Alive.setSender {s : State} {i p} (h : Alive s) (hp : ∀ f, p = .flush f → f.wrote = true) : Alive (s.setSender i p) := by
  refine ⟨h.off, ?_, h.alive⟩
  intro w f hf
  cases w with
  | sender j =>
    rw [pc_sender] at hf
    by_cases e : j = i
    · subst e; rw [setSender_self] at hf; exact hp f hf
    · rw [setSender_ne e] at hf; exact h.pcs _ _ (pc_sender.2 hf)
  | event => exact h.pcs .event f hf

theorem Alive.setFiber {s : State} {p} (h : Alive s) (hp : ∀ f, p = .flush f → f.wrote = true) : Alive { s with fiber := p } := by
  refine ⟨h.off, ?_, h.alive⟩
  intro w f hf
  cases w with
  | sender j => exact h.pcs (.sender j) f hf
  | event => exact hp f (pc_event.1 hf)

/-- Fields that do not matter. -/
theorem Alive.congr {s t : State} (h : Alive s) (h1 : t.nodes = s.nodes) (h2 : t.pc = s.pc) (h3 : t.killed = s.killed) : Alive t :=
  ⟨by rw [h1]; exact h.off, by rw [h2]; exact h.pcs, by rw [h3]; exact h.alive⟩

theorem Alive.modify {s : State} {i : Nat} {f : Node → Node} (h : Alive s) (hf : ∀ nd, s.nodes[i]? = some nd → (f nd).off < (f nd).msg.length) :
    Alive { s with nodes := s.nodes.modify i f } := by
  refine ⟨?_, h.pcs, h.alive⟩
  intro j nd hj
  simp only [List.getElem?_modify] at hj
  cases hx : s.nodes[j]? with
  | none => rw [hx] at hj; simp at hj
  | some nd0 =>
    rw [hx] at hj
    by_cases e : i = j
    · subst e; simp at hj; subst hj; exact hf _ hx
    · simp [e] at hj; subst hj; exact h.off _ _ hx

theorem Alive.free {s : State} {i} (h : Alive s) : Alive (s.free i) := h.modify (fun nd hnd => h.off _ nd hnd)

theorem Alive.flushed {s s' : State} {w e sh st} (h : Alive s) (hs : s.flushed w e true sh st = .ok s') : Alive s' := by
  unfold State.flushed at hs
  rw [if_neg (by simp)] at hs
  split at hs
  · cases hs
  · cases w <;> dsimp only at hs <;> split at hs <;> try split at hs
    all_goals
      injection hs with hs; subst hs
      first
      | exact h.setSender (by intro f hf; cases hf; try rfl)
      | exact h.setFiber (by intro f hf; cases hf; try rfl)

theorem data_ne {s : State} {i l d} (h : Alive s) (hd : s.data (i :: l) = some d) : d ≠ [] := by
  simp only [State.data] at hd
  split at hd
  · cases hd
  · next nd hnd =>
    split at hd
    · cases hx : s.data l with
      | none => rw [hx] at hd; cases hd
      | some d' =>
        rw [hx] at hd
        injection hd with hd
        subst hd
        have := h.off _ _ hnd
        intro e
        have := congrArg List.length e
        simp at this
        omega
    · cases hd

theorem Alive.flushStep {s s' : State} {a o w f st io} (hi : Inv s a o) (h : Alive s) (hw : s.pc w = some f) (hf : (Act.flush w st io).fine)
    (hs : s.flushStep w f st io = .ok s') : Alive s' := by
  have hwr := h.pcs _ _ hw
  cases f with
  | start =>
    simp only [State.flushStep] at hs
    split at hs
    · cases hs
    · split at hs
      · cases hs
      · injection hs with hs; subst hs; exact h.setPc rfl
  | walk vis cur =>
    simp only [State.flushStep] at hs
    split at hs
    · cases hs
    · split at hs
      · injection hs with hs; subst hs; exact h.setPc rfl
      · split at hs
        · cases hs
        · split at hs <;> (injection hs with hs; subst hs; exact h.setPc rfl)
  | write vis =>
    obtain ⟨_, k, hk, _, hv, _⟩ := hi.f _ _ hw
    have hv' : vis = a :: List.range' (a + 1) (k - 1) := by
      rw [hv]
      cases k with
      | zero => omega
      | succ k => simp [List.range'_succ]
    simp only [State.flushStep] at hs
    split at hs
    · cases hs
    · next d hd =>
      have hne : d ≠ [] := by rw [hv'] at hd; exact data_ne h hd
      cases io with
      | again =>
        cases w <;> (dsimp only at hs; injection hs with hs; subst hs)
        · exact h.setSender (by intro f hf; cases hf)
        · exact h.setFiber (by intro f hf; cases hf)
      | error => cases hf
      | took g n =>
        dsimp only at hs
        split at hs
        · next hc =>
          have hg : 0 < g := by
            rcases hc.2.1 with e | e
            · exact absurd e hne
            · exact e
          have hn : 0 < n := hf hg
          rw [if_neg (by omega)] at hs
          split at hs
          · cases hs
          · injection hs with hs; subst hs
            refine Alive.setPc (h.congr rfl ?_ rfl) (by simp [FPc.wrote, hn])
            funext w; cases w <;> rfl
        · cases hs
  | rewind cur fl wr sh =>
    simp only [FPc.wrote] at hwr
    subst hwr
    simp only [State.flushStep] at hs
    split at hs
    · cases hs
    · next nd hnd =>
      have hnd' : s.nodes[cur]? = some nd := by
        simp only [State.node?] at hnd
        cases hx : s.nodes[cur]? with
        | none => rw [hx] at hnd; cases hnd
        | some x => rw [hx] at hnd; simp [Option.filter] at hnd; rw [hnd.2]
      have hd : Alive { s with done := s.done ++ [cur] } := h.congr rfl (by funext w; cases w <;> rfl) rfl
      split at hs
      · split at hs
        · split at hs
          · injection hs with hs; subst hs; exact hd.setPc rfl
          · cases hs
        · injection hs with hs; subst hs; exact hd.free.setPc rfl
      · next hb =>
        injection hs with hs; subst hs
        refine Alive.setPc (h.modify ?_) rfl
        intro nd' hx
        rw [hnd'] at hx
        injection hx with hx
        subst hx
        dsimp only
        omega
  | cas cur wr sh =>
    simp only [FPc.wrote] at hwr
    subst hwr
    simp only [State.flushStep] at hs
    split at hs
    · exact Alive.flushed (Alive.free (h.congr (t := { s with tail := none }) rfl (by funext w; cases w <;> rfl) rfl)) hs
    · injection hs with hs; subst hs; exact h.setPc rfl
  | spin cur wr sh =>
    simp only [FPc.wrote] at hwr
    subst hwr
    simp only [State.flushStep] at hs
    split at hs
    · cases hs
    · split at hs
      · injection hs with hs; subst hs; exact h
      · injection hs with hs; subst hs; exact h.free.setPc rfl
  | setHead nx wr sh =>
    simp only [FPc.wrote] at hwr
    subst hwr
    simp only [State.flushStep] at hs
    exact Alive.flushed (h.congr (t := { s with head := some nx }) rfl (by funext w; cases w <;> rfl) rfl) hs
  | leave nx wr sh =>
    simp only [FPc.wrote] at hwr
    subst hwr
    simp only [State.flushStep] at hs
    exact Alive.flushed (h.congr (t := { s with head := some nx }) rfl (by funext w; cases w <;> rfl) rfl) hs

theorem Alive.step {s s' : State} {a o act} (hi : Inv s a o) (h : Alive s) (hf : act.fine) (hm : ∀ i m, act = .send i m → m ≠ [])
    (hs : s.step act = .ok s') : Alive s' := by
  cases act with
  | send i m =>
    simp only [State.step] at hs
    split at hs
    · injection hs with hs; subst hs
      refine Alive.setSender ⟨?_, ?_, h.alive⟩ (by intro f hf; cases hf)
      · intro j nd hj
        dsimp only at hj
        by_cases e : j < s.nodes.length
        · rw [List.getElem?_append_left e] at hj; exact h.off _ _ hj
        · rw [List.getElem?_append_right (by omega)] at hj
          cases hx : j - s.nodes.length with
          | zero =>
            rw [hx] at hj; simp at hj; subst hj
            have := hm i m rfl
            exact List.length_pos_iff.2 this
          | succ k => rw [hx] at hj; cases hj
      · intro w f hf
        cases w with
        | sender j => exact h.pcs (.sender j) f hf
        | event => exact h.pcs .event f hf
    · cases hs
  | link i =>
    simp only [State.step] at hs
    split at hs
    · injection hs with hs; subst hs
      refine Alive.setSender (h.congr rfl ?_ rfl) (by intro f hf; cases hf; rfl)
      funext w; cases w <;> rfl
    · split at hs
      · cases hs
      · split at hs
        · cases hs
        · injection hs with hs; subst hs
          exact Alive.setSender (h.modify (fun nd hnd => h.off _ nd hnd)) (by intro f hf; cases hf)
    · cases hs
  | flush w st io =>
    simp only [State.step] at hs
    cases hw : s.pc w with
    | none => rw [hw] at hs; cases hs
    | some f => rw [hw] at hs; exact h.flushStep hi hw hf hs
  | drop i =>
    simp only [State.step] at hs
    split at hs
    · injection hs with hs; subst hs; exact h.setSender (by intro f hf; cases hf)
    · cases hs
  | restart i =>
    simp only [State.step] at hs
    split at hs
    · injection hs with hs; subst hs
      refine Alive.setSender (h.congr rfl ?_ rfl) (by intro f hf; cases hf)
      funext w; cases w <;> rfl
    · cases hs
  | epollOut =>
    simp only [State.step] at hs
    split at hs
    · next ha =>
      obtain ⟨t, e1, _, e3⟩ := hi.e.handleWrite ha
      rw [e1] at hs; injection hs with hs; subst hs
      rcases e3 with rfl | ⟨rfl, _, _⟩
      · exact h.congr rfl (by funext w; cases w <;> rfl) rfl
      · exact Alive.setFiber (s := { s with writeEvents := 1 }) (h.congr rfl (by funext w; cases w <;> rfl) rfl) (by intro f hf; cases hf)
    · cases hs
  | fiber =>
    simp only [State.step] at hs
    rcases hi.e.fiberStep with e1 | ⟨t, e1, _, ⟨we, p, ts, e3⟩, e4, e5⟩
    · rw [e1] at hs; cases hs
    · rw [e1] at hs; injection hs with hs
      have hp : ∀ f, p = .flush f → f.wrote = true := by
        intro f hpf
        have hf' : t.fiber = .flush f := by rw [e3]; exact hpf
        rcases e5 with e5 | ⟨_, _, e5⟩
        · rw [e5] at hf'; cases hf'
        · rw [e5 f hf']; rfl
      subst hs
      rw [e3]
      exact Alive.setFiber (s := { s with writeEvents := we, tasks := ts }) (h.congr rfl (by funext w; cases w <;> rfl) rfl) hp
  | task =>
    simp only [State.step] at hs
    rcases hi.e.taskStep with e1 | ⟨t, e1, _, ⟨k1, k2, k3, k4, k5, k6, k7⟩, h4⟩
    · rw [e1] at hs; cases hs
    · rw [e1] at hs; injection hs with hs; subst hs
      refine ⟨by rw [k1]; exact h.off, ?_, by rw [k7]; exact h.alive⟩
      intro w f hf'
      cases w with
      | sender j =>
        rw [pc_sender, k4] at hf'
        exact h.pcs _ _ (pc_sender.2 hf')
      | event =>
        rw [pc_event] at hf'
        rcases h4 with h4 | ⟨h4, _, _⟩
        · rw [h4] at hf'; exact h.pcs _ _ (pc_event.2 hf')
        · rw [h4] at hf'; cases hf'
  | kill => cases hf

/-- Messages that are not empty, a system that writes what it is given or says that it cannot now, and nobody who closes: the connection is not closed. -/
theorem C81_stays_open {l s} (h : Reach l s) (hm : ∀ x ∈ sends l, x.2 ≠ []) (hf : ∀ act ∈ l, act.fine) : s.killed = false := by
  suffices Alive s from this.alive
  induction h with
  | init => exact ⟨fun i nd h => by simp [State.init] at h, fun w f hf => by cases w <;> simp [State.pc, State.init] at hf, rfl⟩
  | @step l s act s' hr hs ih =>
    obtain ⟨a, o, hi⟩ := hr.inv
    rw [sends_push] at hm
    refine (ih (fun x hx => hm x (by simp [hx])) (fun x hx => hf x (by simp [hx]))).step hi (hf act (by simp)) ?_ hs
    rintro i m rfl
    exact hm (i, m) (by simp [sends])

/-- With it: when nothing runs, everything is written or the system is asked to tell when it is possible to write. -/
theorem C81_all_written {l s} (h : Reach l s) (hm : ∀ x ∈ sends l, x.2 ≠ []) (hf : ∀ act ∈ l, act.fine) (hq : s.quiet) :
    s.wire = ((sends l).map (·.2)).flatten ∨ s.armed = true := by
  rcases C79_not_stranded h hq (C81_stays_open h hm hf) with ⟨h1, _⟩ | ⟨h1, _⟩
  · exact .inl h1
  · exact .inr h1

example : (∀ x ∈ sends exampleRun, x.2 ≠ []) ∧ ∀ act ∈ exampleRun, act.fine := by
  refine ⟨by decide, ?_⟩
  intro act h
  simp only [exampleRun, List.mem_cons, List.not_mem_nil, or_false] at h
  rcases h with h | h | h | h | h | h | h | h | h | h | h | h | h | h | h | h | h | h | h | h | h | h | h <;> subst h <;> simp [Act.fine]

/-! ## C82: what goes wrong -/

/-- An empty message, and another one while it is taken from the list: the connection is closed though the system wrote what it was given. -/
theorem C82_empty_message_partial : ∃ l s, Reach l s ∧ (∀ act ∈ l, act.fine) ∧ s.killed = true ∧ ∃ x ∈ sends l, x.2 ≠ [] ∧ s.wire = [] := by
  let l : List Act := [.send 0 [], .link 0, .flush (.sender 0) false .again, .flush (.sender 0) false .again, .flush (.sender 0) false (.took 0 0),
    .flush (.sender 0) false .again, .send 1 [7], .flush (.sender 0) false .again, .link 1, .flush (.sender 0) false .again, .flush (.sender 0) false .again]
  have hr : ∃ s, State.init.run l = some s ∧ s.killed = true ∧ s.wire = [] := by
    have h : ((State.init.run l).map fun s => (s.killed, s.wire)) = some (true, []) := by decide +kernel
    cases hs : State.init.run l with
    | none => rw [hs] at h; cases h
    | some s => rw [hs] at h; simp at h; exact ⟨s, rfl, h.1, h.2⟩
  obtain ⟨s, h1, h2, h3⟩ := hr
  refine ⟨[] ++ l, s, Reach.init.run h1, ?_, h2, (1, [7]), by simp [l, sends], by simp, h3⟩
  intro act h
  simp only [l, List.nil_append, List.mem_cons, List.not_mem_nil, or_false] at h
  rcases h with h | h | h | h | h | h | h | h | h | h | h <;> subst h <;> simp [Act.fine]

/-- Outside of a fiber and without `Stop`: after all messages are written the destructor uses a node that is freed. -/
theorem C82_destroy_outside_partial : ∃ l s, Reach l s ∧ s.quiet ∧ s.destroy false = .fail := by
  let l : List Act := [.send 0 [1], .link 0, .flush (.sender 0) false .again, .flush (.sender 0) false .again, .flush (.sender 0) false (.took 1 1),
    .flush (.sender 0) false .again, .flush (.sender 0) false .again]
  have hr : ∃ s, State.init.run l = some s ∧ s.fiber = .none ∧ s.tasks = [] ∧ s.destroy false = .fail ∧ ∀ i, s.senders i = .idle := by
    refine ⟨_, rfl, rfl, rfl, rfl, ?_⟩
    intro i
    cases i <;> rfl
  obtain ⟨s, h1, h2, h3, h4, h5⟩ := hr
  exact ⟨[] ++ l, s, Reach.init.run h1, ⟨h5, h2, h3⟩, h4⟩

/-! A sender that waits for space in the queue (writing_buffer_list.cc:184-191) and a flusher that makes space (lines 120-122) or stops the list (lines 68-71).
`size_` and `stop_token_` change without `mutex_`. -/

inductive WPc where
  /-- has the mutex, before the predicate -/
  | test
  /-- the predicate was false, before it sleeps and gives the mutex back in one step -/
  | sleep
  | asleep
  | passed
  deriving DecidableEq

structure Gate where
  size : Nat
  capacity : Nat
  stopped : Bool
  waiter : WPc
  /-- calls of `notify_one` and `notify_all` that are due -/
  due : Nat
  deriving DecidableEq

inductive GateStep : Gate → Gate → Prop where
  | test {g} : g.waiter = .test → GateStep g { g with waiter := if g.size < g.capacity ∨ g.stopped then .passed else .sleep }
  | sleep {g} : g.waiter = .sleep → GateStep g { g with waiter := .asleep }
  /-- `size_.fetch_sub` -/
  | flush {g} (n : Nat) : n ≤ g.size → GateStep g { g with size := g.size - n, due := g.due + if g.size - n < g.capacity then 1 else 0 }
  /-- `stop_token_.store(true)` -/
  | stop {g} : GateStep g { g with stopped := true, due := g.due + 1 }
  /-- `notify`: who sleeps wakes up and tests again -/
  | notify {g} : 0 < g.due → GateStep g { g with due := g.due - 1, waiter := if g.waiter = .asleep then .test else g.waiter }

inductive GateReach (c : Nat) : Gate → Prop where
  | init (n : Nat) : GateReach c ⟨n, c, false, .test, 0⟩
  | step {g g'} : GateReach c g → GateStep g g' → GateReach c g'

/-- There is space in the queue, the list is stopped, all calls of `notify` are done, and the sender sleeps (until its timeout). -/
theorem C82_lost_wakeup_partial (c : Nat) (hc : 0 < c) : ∃ g, GateReach c g ∧ g.waiter = .asleep ∧ g.due = 0 ∧ g.size < g.capacity ∧ g.stopped = true := by
  have h0 : GateReach c ⟨c, c, false, .test, 0⟩ := .init c
  have h1 := h0.step (.test rfl)
  simp at h1
  have h2 := h1.step (.flush c (Nat.le_refl _))
  simp [hc] at h2
  have h3 := h2.step .stop
  have h4 := h3.step (.notify (by simp))
  have h5 := h4.step (.notify (by simp))
  have h6 := h5.step (.sleep (by simp))
  exact ⟨_, h6, rfl, by simp, hc, rfl⟩

/-- The sender is woken if it sleeps before the space is made. -/
theorem C82_wakeup {c g} (_h : GateReach c g) (ha : g.waiter = .asleep) (n : Nat) (hn : n ≤ g.size) (hs : g.size - n < g.capacity) :
    ∃ g1 g2 g3, GateStep g g1 ∧ GateStep g1 g2 ∧ GateStep g2 g3 ∧ g3.waiter = .passed := by
  refine ⟨_, _, _, .flush n hn, .notify (by simp [hs]), .test (by simp [ha]), ?_⟩
  simp [hs]

end Verif.Conn
