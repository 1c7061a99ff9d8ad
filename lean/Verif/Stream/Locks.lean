/-!
The locks of the trpc stream handler and of its streams in fiber mode (C91).

Code: `TrpcStreamHandler` (trpc/stream/trpc/trpc_stream_handler.cc:29-98), `FiberStreamJobScheduler` (trpc/stream/fiber_stream_job_scheduler.cc:24-165), and who stops a stream
(common_stream.cc:214-234, trpc_client_stream.cc:123-145).

A handler has one `mutex_`, and each of its streams has a `stream_mutex_`. A thread is the list of the lock operations that it still has to do and the locks that it holds. What is
done between the operations is left out. Where the code branches, a thread is given one of the branches when it starts, so that the model has more runs than the code.
-/

namespace Verif.Stream.Locks

inductive Lock where
  /-- `mutex_` of the handler -/
  | handler
  /-- `stream_mutex_` of a stream -/
  | stream (i : Nat)
deriving DecidableEq

inductive Act where
  | acq (l : Lock)
  | rel (l : Lock)
deriving DecidableEq

/-- A section under one lock. -/
def sect (l : Lock) : List Act := [.acq l, .rel l]

/-- `RemoveStream` (trpc_stream_handler.cc:29-43). -/
def remove : List Act := sect .handler

/-- `PushRecvMessage`, `PushSendMessage`, `IsTerminate` (fiber_stream_job_scheduler.cc:24-85). -/
def push (i : Nat) : List Act := sect (.stream i)

/-- What a thread does. -/
inductive Role where
  /-- `PushMessage` of the handler: find the stream, give it the message (trpc_stream_handler.cc:57-71) -/
  | message (i : Nat)
  /-- `IsNewStream` and `CreateStream` of the handler -/
  | table
  /-- `Write`, `Close`, `Reset` of a user -/
  | user (i : Nat)
  /-- `Run` with some rounds, that goes to rest (fiber_stream_job_scheduler.cc:106-120) -/
  | rest (i : Nat) (rounds : Nat)
  /-- `Run` with some rounds and calls of `Stop` and of the push functions in its handlers, that ends the stream (lines 121-165) -/
  | ending (i : Nat) (rounds : Nat)
  /-- `Stop` of the handler while it has these streams (trpc_stream_handler.cc:73-98) -/
  | close (is : List Nat)
  /-- `Stop` of a stream by a user while `running_` (fiber_stream_job_scheduler.cc:87-91) -/
  | stopBusy (i : Nat)
  /-- `Stop` of a stream by a user while not `running_` (lines 87-98) -/
  | stopIdle (i : Nat)

/-- The lock operations of a role. In a round of `Run` the lock is held to take the messages; a handler takes it again for each push. -/
def Role.prog : Role → List Act
  | .message i => sect .handler ++ push i
  | .table => sect .handler
  | .user i => push i
  | .rest i n => (List.replicate n (sect (.stream i))).flatten ++ sect (.stream i)
  | .ending i n => (List.replicate n (sect (.stream i))).flatten ++ remove ++ sect (.stream i)
  | .close is => .acq .handler :: (is.map push).flatten ++ [.rel .handler]
  | .stopBusy i => sect (.stream i)
  | .stopIdle i => .acq (.stream i) :: remove ++ [.rel (.stream i)]

structure Th where
  held : List Lock
  todo : List Act

/-- The threads so far. -/
abbrev Sys := List Th

/-- One operation of a thread. A lock can be taken if no thread holds it. -/
inductive Move : Sys → Sys → Prop where
  | acq {s t : Sys} {h : List Lock} {l : Lock} {k : List Act} (hf : ∀ x ∈ s ++ ⟨h, .acq l :: k⟩ :: t, l ∉ x.held) : Move (s ++ ⟨h, .acq l :: k⟩ :: t) (s ++ ⟨l :: h, k⟩ :: t)
  | rel {s t : Sys} {h : List Lock} {l : Lock} {k : List Act} : Move (s ++ ⟨h, .rel l :: k⟩ :: t) (s ++ ⟨h.erase l, k⟩ :: t)

/-- A thread of a role of this kind starts, or a thread moves. -/
inductive Step (P : Role → Prop) : Sys → Sys → Prop where
  | start {s : Sys} (r : Role) (h : P r) : Step P s (s ++ [⟨[], r.prog⟩])
  | move {s t : Sys} (h : Move s t) : Step P s t

inductive Reach (P : Role → Prop) : Sys → Sys → Prop where
  | refl {s : Sys} : Reach P s s
  | step {a b c : Sys} (h : Reach P a b) (hs : Step P b c) : Reach P a c

/-- Moves only. -/
inductive Moves : Sys → Sys → Prop where
  | refl {s : Sys} : Moves s s
  | head {a b c : Sys} (hs : Move a b) (h : Moves b c) : Moves a c

/-! ### No lock order is broken -/

def rank : Lock → Nat
  | .handler => 0
  | .stream _ => 1

/-- Locks are taken in the order of their ranks and given back. -/
def Good : List Lock → List Act → Prop
  | held, [] => held = []
  | held, .acq l :: k => (∀ h ∈ held, rank h < rank l) ∧ Good (l :: held) k
  | held, .rel l :: k => l ∈ held ∧ Good (held.erase l) k

theorem Good.sects {held k} (i n) (hh : ∀ h ∈ held, rank h < 1) (h : Good held k) : Good held ((List.replicate n (sect (.stream i))).flatten ++ k) := by
  induction n with
  | zero => simpa using h
  | succ n ih =>
    rw [List.replicate_succ, List.flatten_cons, List.append_assoc]
    exact ⟨hh, by simp, by simpa using ih⟩

theorem Good.pushes {held k} (is : List Nat) (hh : ∀ h ∈ held, rank h < 1) (h : Good held k) : Good held ((is.map push).flatten ++ k) := by
  induction is with
  | nil => simpa using h
  | cons i is ih =>
    rw [List.map_cons, List.flatten_cons, List.append_assoc]
    exact ⟨hh, by simp, by simpa using ih⟩

theorem Role.good (r : Role) (h : ∀ i, r ≠ .stopIdle i) : Good [] r.prog := by
  cases r with
  | message i => simp [Role.prog, sect, push, Good]
  | table => simp [Role.prog, sect, Good]
  | user i => simp [Role.prog, sect, push, Good]
  | rest i n => exact Good.sects i n (by simp) (by simp [sect, Good])
  | ending i n =>
    simp only [Role.prog, List.append_assoc]
    exact Good.sects i n (by simp) (by simp [sect, remove, Good])
  | close is =>
    refine ⟨by simp, ?_⟩
    exact Good.pushes is (by simp [rank]) (by simp [Good])
  | stopBusy i => simp [Role.prog, sect, Good]
  | stopIdle i => exact absurd rfl (h i)

def AllGood (s : Sys) : Prop := ∀ x ∈ s, Good x.held x.todo

theorem Move.good {s t : Sys} (h : Move s t) (hg : AllGood s) : AllGood t := by
  cases h with
  | @acq s t h l k hf =>
    intro x hx
    have hm : Good h (.acq l :: k) := hg ⟨h, .acq l :: k⟩ (by simp)
    rw [List.mem_append, List.mem_cons] at hx
    rcases hx with hx | rfl | hx
    · exact hg x (by simp [hx])
    · exact hm.2
    · exact hg x (by simp [hx])
  | @rel s t h l k =>
    intro x hx
    have hm : Good h (.rel l :: k) := hg ⟨h, .rel l :: k⟩ (by simp)
    rw [List.mem_append, List.mem_cons] at hx
    rcases hx with hx | rfl | hx
    · exact hg x (by simp [hx])
    · exact hm.2
    · exact hg x (by simp [hx])

/-- A thread can go on, or it waits for a lock. -/
theorem blocked {s : Sys} {x : Th} (hx : x ∈ s) (ht : x.todo ≠ []) : (∃ t, Move s t) ∨ ∃ l k, x.todo = .acq l :: k ∧ ∃ y ∈ s, l ∈ y.held := by
  obtain ⟨held, todo⟩ := x
  obtain ⟨a, b, rfl⟩ := List.append_of_mem hx
  cases todo with
  | nil => exact absurd rfl ht
  | cons act k =>
    cases act with
    | rel l => exact .inl ⟨_, .rel⟩
    | acq l =>
      by_cases hf : ∀ y ∈ a ++ ⟨held, .acq l :: k⟩ :: b, l ∉ y.held
      · exact .inl ⟨_, .acq hf⟩
      · right
        simp only [Classical.not_forall, Classical.not_not] at hf
        obtain ⟨y, hy, hl⟩ := hf
        exact ⟨l, k, rfl, y, hy, hl⟩

theorem progress {s : Sys} (hg : AllGood s) (h : ∃ x ∈ s, x.todo ≠ []) : ∃ t, Move s t := by
  obtain ⟨x, hx, ht⟩ := h
  rcases blocked hx ht with hm | ⟨l, k, hk, y, hy, hl⟩
  · exact hm
  have hgy := hg y hy
  have hty : y.todo ≠ [] := by
    intro h0; rw [h0] at hgy; rw [hgy] at hl; cases hl
  rcases blocked hy hty with hm | ⟨l', k', hk', z, hz, hl'⟩
  · exact hm
  have hgz := hg z hz
  have htz : z.todo ≠ [] := by
    intro h0; rw [h0] at hgz; rw [hgz] at hl'; cases hl'
  rcases blocked hz htz with hm | ⟨l'', k'', hk'', w, hw, hl''⟩
  · exact hm
  rw [hk'] at hgy
  rw [hk''] at hgz
  have h1 := hgy.1 l hl
  have h2 := hgz.1 l' hl'
  have : rank l'' ≤ 1 := by cases l'' <;> simp [rank]
  omega

def size : Sys → Nat
  | [] => 0
  | x :: s => x.todo.length + size s

theorem size_append (s t : Sys) : size (s ++ t) = size s + size t := by
  induction s with
  | nil => simp [size]
  | cons x s ih => simp only [List.cons_append, size, ih]; omega

theorem Move.size {s t : Sys} (h : Move s t) : size t < size s := by
  cases h <;> simp only [size_append, Locks.size, List.length_cons] <;> omega

theorem finish : ∀ (n : Nat) (s : Sys), size s = n → AllGood s → ∃ t, Moves s t ∧ ∀ x ∈ t, x.todo = [] := by
  intro n
  induction n using Nat.strongRecOn with
  | ind n ih =>
    intro s hn hg
    by_cases h : ∃ x ∈ s, x.todo ≠ []
    · obtain ⟨t, ht⟩ := progress hg h
      obtain ⟨u, hu, hf⟩ := ih (size t) (hn ▸ ht.size) t rfl (ht.good hg)
      exact ⟨u, .head ht hu, hf⟩
    · refine ⟨s, .refl, fun x hx => ?_⟩
      by_cases h0 : x.todo = []
      · exact h0
      · exact absurd ⟨x, hx, h0⟩ h

/-- **C91** (no deadlock): as long as no user stops an idle stream, all threads of all streams of a handler can finish, from every state that can be reached. -/
theorem C91_no_deadlock {s : Sys} (h : Reach (fun r => ∀ i, r ≠ .stopIdle i) [] s) : ∃ t, Moves s t ∧ ∀ x ∈ t, x.todo = [] := by
  refine finish _ s rfl ?_
  induction h with
  | refl => intro x hx; cases hx
  | step _ hs ih =>
    cases hs with
    | start r hr =>
      intro x hx
      rw [List.mem_append, List.mem_singleton] at hx
      rcases hx with hx | rfl
      · exact ih x hx
      · exact r.good hr
    | move hm => exact hm.good ih

/-- No move and no start of a thread makes one of these two go on. -/
def Stuck (i : Nat) (s : Sys) : Prop :=
  ∃ is k, ⟨[.handler], .acq (.stream i) :: is⟩ ∈ s ∧ ⟨[.stream i], .acq .handler :: k⟩ ∈ s

theorem Stuck.step {i : Nat} {P : Role → Prop} {s t : Sys} (h : Stuck i s) (hs : Step P s t) : Stuck i t := by
  obtain ⟨is, k, h1, h2⟩ := h
  have key : ∀ (a b : Sys) (held : List Lock) (act : Act) (kk : List Act) (x' : Th), s = a ++ ⟨held, act :: kk⟩ :: b →
      (act = .acq (.stream i) → ¬ ∀ y ∈ s, Lock.stream i ∉ y.held) → (∀ l, act = .acq l → ∀ y ∈ s, l ∉ y.held) → Stuck i (a ++ x' :: b) := by
    intro a b held act kk x' hs _ hfree
    subst hs
    refine ⟨is, k, ?_, ?_⟩
    · rw [List.mem_append, List.mem_cons] at h1
      rcases h1 with h1 | h1 | h1
      · simp [h1]
      · injection h1 with _ hh; injection hh with hh _
        exact absurd (by simp) (hfree _ hh.symm _ h2)
      · simp [h1]
    · have h2' := h2
      rw [List.mem_append, List.mem_cons] at h2'
      rcases h2' with h2' | h2' | h2'
      · simp [h2']
      · injection h2' with _ hh; injection hh with hh _
        exact absurd (by simp) (hfree _ hh.symm _ h1)
      · simp [h2']
  cases hs with
  | start r hr => exact ⟨is, k, by simp [h1], by simp [h2]⟩
  | move hm =>
    cases hm with
    | @acq a b h l kk hf =>
      exact key a b h (.acq l) kk _ rfl (fun hh hall => absurd (by simp) (hall _ h2)) (fun l' hl y hy => by injection hl with hl; subst hl; exact hf y hy)
    | @rel a b h l kk => exact key a b h (.rel l) kk _ rfl nofun nofun

/-- **C91** (a deadlock, refuted): a user that stops an idle stream, as `Finish` and `Start` do after a time-out, can meet the close of the connection so that neither ever goes on. -/
theorem C91_stop_partial : ¬ ∀ s : Sys, Reach (fun _ => True) [] s → ∃ t, Moves s t ∧ ∀ x ∈ t, x.todo = [] := by
  intro hall
  have h : Reach (fun _ => True) [] [] := .refl
  have h := h.step (.start (.close [1]) trivial)
  have h := h.step (.start (.stopIdle 1) trivial)
  have h := h.step (.move (.acq (s := []) (l := .handler) (h := []) (k := [.acq (.stream 1), .rel (.stream 1), .rel .handler]) (t := [⟨[], (Role.stopIdle 1).prog⟩]) (by simp)))
  have h := h.step (.move (.acq (s := [⟨[.handler], [.acq (.stream 1), .rel (.stream 1), .rel .handler]⟩]) (l := .stream 1) (h := []) (k := [.acq .handler, .rel .handler, .rel (.stream 1)]) (t := []) (by simp)))
  obtain ⟨t, ht, hf⟩ := hall _ h
  have hs : Stuck 1 ([⟨[.handler], [.acq (.stream 1), .rel (.stream 1), .rel .handler]⟩] ++ ⟨[.stream 1], [.acq .handler, .rel .handler, .rel (.stream 1)]⟩ :: []) :=
    ⟨[.rel (.stream 1), .rel .handler], [.rel .handler, .rel (.stream 1)], by simp, by simp⟩
  have hst : Stuck 1 t := by
    clear hf h
    generalize hg : ([⟨[.handler], [.acq (.stream 1), .rel (.stream 1), .rel .handler]⟩] ++ ⟨[.stream 1], [.acq .handler, .rel .handler, .rel (.stream 1)]⟩ :: [] : Sys) = u at ht hs
    clear hg
    induction ht with
    | refl => exact hs
    | head hm _ ih => exact ih (hs.step (P := fun _ => True) (.move hm))
  obtain ⟨is, k, h1, _⟩ := hst
  exact absurd (hf _ h1) nofun

/-- C91 is not empty: the connection closes while a message is pushed and a stream ends. -/
example : Reach (fun r => ∀ i, r ≠ .stopIdle i) [] ([] ++ [⟨[], (Role.close [1, 2]).prog⟩] ++ [⟨[], (Role.ending 2 3).prog⟩]) :=
  (Reach.refl.step (.start (.close [1, 2]) nofun)).step (.start (.ending 2 3) nofun)

end Verif.Stream.Locks
