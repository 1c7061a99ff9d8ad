import Verif.Common.Sum

/-!
# A pipelined connection of the fiber transport

/repo/trpc/transport/client/fiber/pipeline/fiber_tcp_pipeline_connector.cc, with the group that calls it (fiber_tcp_pipeline_connector_group.cc), and the writing of its connection (/repo/trpc/runtime/iomodel/reactor/fiber/writing_buffer_list.cc:75-162, :228-237), on which see Conn/Writes

* One connector. A call is its number in the order of starting; request ids are different (they are those of the contexts).
* `un`: messages in the writing list that `PreSendMessage` was not called for; `fl`: those that it was called for, not yet written completely. `FlushTo` goes through the list from its head, calls `PreSendMessage` once for each message, and writes in the same order (C78): both are done here one message at a time, which allows more interleavings than there are.
* The server answers in the order of arrival, once for each message that expects an answer. `echo`: it answers one-way messages, too (as Redis does).
* `send_request_id_queue_` is a FIFO queue of a capacity (`cap`, a power of two), the call map a set with an atomic `TryReclaimContext` (C28). Receiving is done by one fiber: take an answer, dequeue an id, reclaim the context. `ClearReqMsg` is a loop of dequeues, one collection of the ids, and a loop of reclaims.
* `cl`: the connector may begin to close the connection (`CloseConnection`, `Stop`: after a call that failed, or an idle time). The end of a connection by the peer ends receiving first (C83).
-/

namespace Verif.Transport.Pipeline

inductive Res where
  /-- the answer to this message -/
  | ok (j : Nat)
  | timeout
  /-- "connector destroy" -/
  | gone
  /-- "network error." -/
  | refused
deriving DecidableEq, Repr

/-- A caller: about to save its context; to send; sent. Refused; or one-way: it expects no answer. -/
inductive Pc where
  | checked
  | saved
  | sent
  | refused
  | oneway
deriving DecidableEq, Repr

/-- The fiber that receives: waiting; has the answer to `r`; matched it with id `i`; stopped. -/
inductive Rx where
  | idle
  | got (r : Nat)
  | matched (r i : Nat)
  | off
deriving DecidableEq, Repr

/-- The fiber that runs `ClearResource`. -/
inductive Cl where
  | none
  | drain
  | collect
  | dispatch (ids : List Nat)
  | done
deriving DecidableEq, Repr

structure S where
  cap : Nat
  healthy : Bool
  /-- the calls so far -/
  pcs : List Pc
  /-- contexts in the call map -/
  calls : List Nat
  un : List (Nat × Bool)
  fl : List (Nat × Bool)
  queue : List Nat
  /-- messages that the server has, and answers on their way -/
  srv : List Nat
  inflight : List Nat
  rx : Rx
  cl : Cl
  /-- the ids that `ClearReqMsg` collected -/
  seen : List Nat
  results : List (Nat × Res)
  crash : Bool
deriving DecidableEq, Repr

def S.init (cap : Nat) : S := ⟨cap, true, [], [], [], [], [], [], [], .idle, .none, [], [], false⟩

def S.pc (s : S) (i : Nat) (p : Pc) : S := { s with pcs := s.pcs.set i p }

/-- `cleanup_.exchange(true)` (.cc:136-142, :165-171): the fiber is started once. -/
def S.clean (s : S) : S := { s with healthy := false, cl := if s.cl = .none then .drain else s.cl }

/-- What is still to be answered by the server. -/
def expect (echo : Bool) (m : Nat × Bool) : List Nat := if m.2 && !echo then [] else [m.1]

inductive Step (cl echo : Bool) : S → S → Prop
  /-- `SaveCallContext` (.cc:278-301): the test -/
  | start {s : S} : Step cl echo s (if s.healthy then { s with pcs := s.pcs ++ [.checked] } else { s with pcs := s.pcs ++ [.refused], results := (s.pcs.length, .refused) :: s.results })
  | save {s : S} (i : Nat) (h : s.pcs[i]? = some .checked) : Step cl echo s { (s.pc i .saved) with calls := i :: s.calls }
  /-- `Send` (.cc:206-236): it is queued, or the connection refuses it -/
  | send {s : S} (i : Nat) (q : Bool) (h : s.pcs[i]? = some .saved) (hq : q = true ∨ s.rx = .off) : Step cl echo s { (s.pc i .sent) with un := if q then s.un ++ [(i, false)] else s.un }
  | oneway {s : S} : Step cl echo s { s with pcs := s.pcs ++ [.oneway], un := s.un ++ [(s.pcs.length, true)] }
  /-- `PreSendMessage` (writing_buffer_list.cc:228-237), `NotifyPipelineSendMsg` (.cc:389-393) -/
  | pre {s : S} (i : Nat) (o : Bool) (u : List (Nat × Bool)) (h : s.un = (i, o) :: u) :
      Step cl echo s (if o then { s with un := u, fl := s.fl ++ [(i, o)] }
        else if s.queue.length < s.cap then { s with un := u, fl := s.fl ++ [(i, o)], queue := s.queue ++ [i] }
        else { s with crash := true })
  | write {s : S} (m : Nat × Bool) (f : List (Nat × Bool)) (h : s.fl = m :: f) : Step cl echo s { s with fl := f, srv := s.srv ++ expect echo m }
  | answer {s : S} (j : Nat) (r : List Nat) (h : s.srv = j :: r) : Step cl echo s { s with srv := r, inflight := s.inflight ++ [j] }
  /-- `MessageHandleFunction` (.cc:238-276) -/
  | got {s : S} (j : Nat) (r : List Nat) (h : s.inflight = j :: r) (hr : s.rx = .idle) : Step cl echo s { s with inflight := r, rx := .got j }
  | matched {s : S} (j i : Nat) (q : List Nat) (hr : s.rx = .got j) (h : s.queue = i :: q) : Step cl echo s { s with queue := q, rx := .matched j i }
  | unmatched {s : S} (j : Nat) (hr : s.rx = .got j) (h : s.queue = []) : Step cl echo s { s.clean with rx := .off }
  | deliver {s : S} (j i : Nat) (hr : s.rx = .matched j i) (h : i ∈ s.calls) : Step cl echo s { s with rx := .idle, calls := s.calls.erase i, results := (i, .ok j) :: s.results }
  | late {s : S} (j i : Nat) (hr : s.rx = .matched j i) (h : i ∉ s.calls) : Step cl echo s { s with rx := .idle }
  /-- `OnTimeout` (.cc:311-315) -/
  | timeout {s : S} (i : Nat) (h : i ∈ s.calls) : Step cl echo s { s with calls := s.calls.erase i, results := (i, .timeout) :: s.results }
  /-- the peer closes the connection: `ConnectionCleanFunction` (.cc:132-149) -/
  | ended {s : S} (hr : s.rx = .idle) : Step cl echo s { s.clean with rx := .off }
  /-- `CloseConnection`, `Stop` (.cc:162-176, :58-66) -/
  | close {s : S} (hc : cl = true) : Step cl echo s s.clean
  /-- `ClearReqMsg` (.cc:178-191) and the rest of `ClearResource` (.cc:193-205) -/
  | drain {s : S} (i : Nat) (q : List Nat) (h : s.cl = .drain) (hq : s.queue = i :: q) : Step cl echo s { s with queue := q }
  | drained {s : S} (h : s.cl = .drain) (hq : s.queue = []) : Step cl echo s { s with cl := .collect }
  | collect {s : S} (h : s.cl = .collect) : Step cl echo s { s with cl := .dispatch s.calls, seen := s.calls }
  | dispatch {s : S} (i : Nat) (ids : List Nat) (h : s.cl = .dispatch (i :: ids)) :
      Step cl echo s (if i ∈ s.calls then { s with cl := .dispatch ids, calls := s.calls.erase i, results := (i, .gone) :: s.results } else { s with cl := .dispatch ids })
  | stop {s : S} (h : s.cl = .dispatch []) (hr : s.rx = .idle ∨ s.rx = .off) : Step cl echo s { s with cl := .done, rx := .off }

inductive Reach (cl echo : Bool) (cap : Nat) : S → Prop
  | init : Reach cl echo cap (.init cap)
  | step {s s' : S} (h : Reach cl echo cap s) (hc : s.crash = false) (hs : Step cl echo s s') : Reach cl echo cap s'

/-! ## One result for each call -/

structure Inv (s : S) : Prop where
  nd : (s.calls ++ s.results.map Prod.fst).Nodup
  bound : ∀ i, i ∈ s.calls ++ s.results.map Prod.fst → ∃ p, s.pcs[i]? = some p ∧ p ≠ .checked
  all : ∀ i p, s.pcs[i]? = some p → p = .saved ∨ p = .sent → i ∈ s.calls ++ s.results.map Prod.fst

theorem erase_perm {l r : List Nat} {i : Nat} (h : i ∈ l) : (l.erase i ++ i :: r).Perm (l ++ r) := by
  have h1 : (l.erase i ++ i :: r).Perm (i :: (l.erase i ++ r)) := List.perm_middle
  exact h1.trans (((List.perm_cons_erase h).symm).append_right r)

/-- A call gets its result. -/
theorem Inv.result {s s' : S} (v : Inv s) {i : Nat} {r : Res} (h : i ∈ s.calls) (h1 : s'.pcs = s.pcs) (h2 : s'.calls = s.calls.erase i) (h3 : s'.results = (i, r) :: s.results) : Inv s' := by
  have p : (s'.calls ++ s'.results.map Prod.fst).Perm (s.calls ++ s.results.map Prod.fst) := by rw [h2, h3]; exact erase_perm h
  exact ⟨p.nodup_iff.2 v.nd, fun j hj => by rw [h1]; exact v.bound j (p.mem_iff.1 hj), fun j q hj hq => p.mem_iff.2 (v.all j q (by rw [← h1]; exact hj) hq)⟩

theorem Inv.same {s s' : S} (v : Inv s) (h1 : s'.pcs = s.pcs) (h2 : s'.calls = s.calls) (h3 : s'.results = s.results) : Inv s' :=
  ⟨by rw [h2, h3]; exact v.nd, by rw [h1, h2, h3]; exact v.bound, by rw [h1, h2, h3]; exact v.all⟩

theorem get_lt {l : List Pc} {i : Nat} {p : Pc} (h : l[i]? = some p) : i < l.length := by
  obtain ⟨hi, _⟩ := List.getElem?_eq_some_iff.1 h; exact hi

theorem append_get {l : List Pc} {i : Nat} {p q : Pc} (h : (l ++ [q])[i]? = some p) : l[i]? = some p ∨ (i = l.length ∧ p = q) := by
  rw [List.getElem?_append] at h
  split at h
  · exact .inl h
  · rename_i hi
    have h1 := get_lt h
    simp at h1
    have : i = l.length := by omega
    subst this
    simp at h
    exact .inr ⟨rfl, h.symm⟩

theorem append_old {l : List Pc} {i : Nat} {p q : Pc} (h : l[i]? = some p) : (l ++ [q])[i]? = some p := by
  rw [List.getElem?_append, if_pos (get_lt h)]; exact h

theorem Step.inv {cl echo : Bool} {s s' : S} (hs : Step cl echo s s') (v : Inv s) : Inv s' := by
  cases hs with
  | start =>
    split
    · refine ⟨v.nd, ?_, ?_⟩
      · intro i hi
        obtain ⟨p, h1, h2⟩ := v.bound i hi
        exact ⟨p, append_old h1, h2⟩
      · intro i q hi hq
        rcases append_get hi with h | ⟨_, h⟩
        · exact v.all i q h hq
        · subst h; simp at hq
    · have hnew : s.pcs.length ∉ s.calls ++ s.results.map Prod.fst := by
        intro h
        obtain ⟨p, h1, _⟩ := v.bound _ h
        exact absurd (get_lt h1) (by omega)
      have p : (s.calls ++ ((s.pcs.length, Res.refused) :: s.results).map Prod.fst).Perm (s.pcs.length :: (s.calls ++ s.results.map Prod.fst)) := List.perm_middle
      refine ⟨p.nodup_iff.2 (List.nodup_cons.2 ⟨hnew, v.nd⟩), ?_, ?_⟩
      · intro i hi
        have := p.mem_iff.1 hi
        simp only [List.mem_cons] at this
        rcases this with rfl | h
        · exact ⟨.refused, by simp, by simp⟩
        · obtain ⟨p, h1, h2⟩ := v.bound i h
          exact ⟨p, append_old h1, h2⟩
      · intro i q hi hq
        rcases append_get hi with h | ⟨_, h⟩
        · exact p.mem_iff.2 (List.mem_cons_of_mem _ (v.all i q h hq))
        · subst h; simp at hq
  | save i h =>
    have hnew : i ∉ s.calls ++ s.results.map Prod.fst := by
      intro hi
      obtain ⟨p, h1, h2⟩ := v.bound i hi
      rw [h] at h1
      exact h2 (by simpa using h1.symm)
    refine ⟨List.nodup_cons.2 ⟨hnew, v.nd⟩, ?_, ?_⟩
    · intro j hj
      simp only [List.cons_append, List.mem_cons] at hj
      simp only [S.pc]
      rw [List.getElem?_set]
      by_cases e : i = j
      · subst e
        exact ⟨.saved, by simp [get_lt h], by simp⟩
      · rw [if_neg e]
        rcases hj with rfl | hj
        · exact absurd rfl e
        · exact v.bound j hj
    · intro j q hj hq
      simp only [S.pc] at hj
      rw [List.getElem?_set] at hj
      simp only [List.cons_append, List.mem_cons]
      split at hj
      · rename_i e; exact .inl e.symm
      · exact .inr (v.all j q hj hq)
  | send i q h hq =>
    refine ⟨v.nd, ?_, ?_⟩
    · intro j hj
      obtain ⟨p, h1, h2⟩ := v.bound j hj
      simp only [S.pc]
      rw [List.getElem?_set]
      by_cases e : i = j
      · subst e; exact ⟨.sent, by simp [get_lt h], by simp⟩
      · rw [if_neg e]; exact ⟨p, h1, h2⟩
    · intro j q hj hq
      simp only [S.pc] at hj
      rw [List.getElem?_set] at hj
      split at hj
      · rename_i e; subst e; exact v.all i _ h (.inl rfl)
      · exact v.all j q hj hq
  | oneway =>
    refine ⟨v.nd, ?_, ?_⟩
    · intro i hi
      obtain ⟨p, h1, h2⟩ := v.bound i hi
      exact ⟨p, append_old h1, h2⟩
    · intro i q hi hq
      rcases append_get hi with h | ⟨_, h⟩
      · exact v.all i q h hq
      · subst h; simp at hq
  | pre i o u h =>
    split
    · exact v.same rfl rfl rfl
    · split
      · exact v.same rfl rfl rfl
      · exact v.same rfl rfl rfl
  | deliver j i hr h => exact v.result h rfl rfl rfl
  | timeout i h => exact v.result h rfl rfl rfl
  | dispatch i ids h =>
    split
    · rename_i hi; exact v.result hi rfl rfl rfl
    · exact v.same rfl rfl rfl
  | _ => exact v.same rfl rfl rfl

theorem Reach.inv {cl echo : Bool} {cap : Nat} {s : S} (h : Reach cl echo cap s) : Inv s := by
  induction h with
  | init => exact ⟨by simp [S.init], by simp [S.init], by simp [S.init]⟩
  | step h hc hs ih => exact hs.inv ih

/-- **C124.** No call completes twice, or completes while it is still waiting. -/
theorem C124_once {cl echo : Bool} {cap : Nat} {s : S} (h : Reach cl echo cap s) : (s.results.map Prod.fst).Nodup ∧ ∀ i ∈ s.calls, i ∉ s.results.map Prod.fst := by
  have := List.nodup_append.1 h.inv.nd
  exact ⟨this.2.1, fun i hi hj => this.2.2 i hi i hj rfl⟩

/-- Requests that are announced in the queue and not answered. -/
def S.open (s : S) : List Nat := s.inflight ++ s.srv ++ (s.fl.filter (fun m => !m.2)).map Prod.fst

/-- While receiving: the queue has the ids in the order in which the answers come. -/
structure Ord (s : S) : Prop where
  q : match s.rx with
    | .idle => s.queue = s.open
    | .got j => s.queue = j :: s.open
    | .matched j i => i = j ∧ s.queue = s.open
    | .off => True
  cl : s.rx ≠ .off → s.cl = .none
  res : ∀ i j, (i, Res.ok j) ∈ s.results → i = j

theorem expect_eq (m : Nat × Bool) (f : List (Nat × Bool)) : expect false m ++ (f.filter (fun m => !m.2)).map Prod.fst = ((m :: f).filter (fun m => !m.2)).map Prod.fst := by
  obtain ⟨i, o⟩ := m
  cases o <;> simp [expect]

theorem Ord.same {s s' : S} (v : Ord s) (h1 : s'.queue = s.queue) (h2 : s'.open = s.open) (h3 : s'.rx = s.rx) (h4 : s'.cl = s.cl) (h5 : ∀ i j, (i, Res.ok j) ∈ s'.results → (i, Res.ok j) ∈ s.results) : Ord s' :=
  ⟨by rw [h1, h2, h3]; exact v.q, by rw [h3, h4]; exact v.cl, fun i j h => v.res i j (h5 i j h)⟩

theorem Ord.off {s s' : S} (v : Ord s) (h : s'.rx = .off) (h5 : ∀ i j, (i, Res.ok j) ∈ s'.results → (i, Res.ok j) ∈ s.results) : Ord s' :=
  ⟨by rw [h]; trivial, fun h' => absurd h h', fun i j h => v.res i j (h5 i j h)⟩

theorem Step.ord {s s' : S} (hs : Step false false s s') (hc : s'.crash = false) (v : Ord s) : Ord s' := by
  have iscl : ∀ {c : Cl}, s.cl = c → c ≠ .none → s.rx = .off := fun h hn => by
    by_cases e : s.rx = .off
    · exact e
    · have := v.cl e; rw [h] at this; exact absurd this hn
  cases hs with
  | start =>
    split
    · exact v.same rfl rfl rfl rfl (fun _ _ h => h)
    · exact v.same rfl rfl rfl rfl (fun _ _ h => by simpa using h)
  | save i h => exact v.same rfl rfl rfl rfl (fun _ _ h => h)
  | send i q h hq => exact v.same rfl rfl rfl rfl (fun _ _ h => h)
  | oneway => exact v.same rfl rfl rfl rfl (fun _ _ h => h)
  | pre i o u h =>
    cases o with
    | true => exact v.same rfl (by simp [S.open]) rfl rfl (fun _ _ h => h)
    | false =>
      simp only [Bool.false_eq_true, if_false] at hc ⊢
      split
      · have e : ∀ (cap : Nat) (h' : Bool) (pcs : List Pc) (calls : List Nat) (se : List Nat) (re : List (Nat × Res)) (c : Bool) (r : Rx) (k : Cl) (q : List Nat), S.open ⟨cap, h', pcs, calls, u, s.fl ++ [(i, false)], q, s.srv, s.inflight, r, k, se, re, c⟩ = s.open ++ [i] := by
          intros; simp [S.open]
        refine ⟨?_, v.cl, v.res⟩
        have := v.q
        simp only [e]
        cases hrx : s.rx <;> simp only [hrx] at this ⊢
        · rw [this]
        · rw [this]; rfl
        · exact ⟨this.1, by rw [this.2]⟩
      · rename_i hq; rw [if_neg hq] at hc; cases hc
  | write m f h =>
    refine v.same rfl ?_ rfl rfl (fun _ _ h => h)
    simp only [S.open]
    rw [h, ← expect_eq m f]
    simp
  | answer j r h =>
    refine v.same rfl ?_ rfl rfl (fun _ _ h => h)
    simp only [S.open]
    rw [h]
    simp
  | got j r h hr =>
    refine ⟨?_, fun _ => v.cl (by rw [hr]; simp), v.res⟩
    have := v.q
    simp only [hr] at this
    simp only [this, S.open]
    rw [h]
    simp
  | matched j i q hr h =>
    refine ⟨?_, fun _ => v.cl (by rw [hr]; simp), v.res⟩
    have := v.q
    simp only [hr, h, List.cons.injEq] at this
    exact ⟨this.1, this.2⟩
  | unmatched j hr h => exact v.off rfl (fun _ _ h => h)
  | deliver j i hr h =>
    have := v.q
    simp only [hr] at this
    refine ⟨this.2, fun _ => v.cl (by rw [hr]; simp), ?_⟩
    intro a b hab
    simp only [List.mem_cons, Prod.mk.injEq, Res.ok.injEq] at hab
    rcases hab with ⟨rfl, rfl⟩ | hab
    · exact this.1
    · exact v.res a b hab
  | late j i hr h =>
    have := v.q
    simp only [hr] at this
    exact ⟨this.2, fun _ => v.cl (by rw [hr]; simp), v.res⟩
  | timeout i h => exact v.same rfl rfl rfl rfl (fun _ _ h => by simpa using h)
  | ended hr => exact v.off rfl (fun _ _ h => h)
  | close h1 => exact absurd h1 (by simp)
  | drain i q h hq => exact v.off (iscl h (by simp)) (fun _ _ h => h)
  | drained h hq => exact v.off (iscl h (by simp)) (fun _ _ h => h)
  | collect h => exact v.off (iscl h (by simp)) (fun _ _ h => h)
  | dispatch i ids h =>
    split
    · exact v.off (iscl h (by simp)) (fun _ _ h => by simpa using h)
    · exact v.off (iscl h (by simp)) (fun _ _ h => h)
  | stop h hr => exact v.off rfl (fun _ _ h => h)

theorem Step.cfg {cl echo : Bool} {s s' : S} (hs : Step cl echo s s') : s'.cap = s.cap := by
  cases hs with
  | start => split <;> rfl
  | pre i o u h => split
                   · rfl
                   · split <;> rfl
  | dispatch i ids h => split <;> rfl
  | _ => rfl

theorem Reach.ord {cap : Nat} {s : S} (h : Reach false false cap s) (hc : s.crash = false) : Ord s := by
  induction h with
  | init => exact ⟨rfl, fun _ => rfl, by simp [S.init]⟩
  | step h hc' hs ih => exact hs.ord hc (ih hc')

theorem results_crash {cl echo : Bool} {s s' : S} (hs : Step cl echo s s') (h0 : s.crash = false) (h : s'.crash = true) : s'.results = s.results ∧ s.cap ≤ s.queue.length := by
  cases hs with
  | start => split at h <;> simp_all
  | pre i o u hu =>
    split at h
    · simp_all
    · split at h
      · simp_all
      · rename_i h1 h2; rw [if_neg h1, if_neg h2]; exact ⟨rfl, by omega⟩
  | dispatch i ids hi => split at h <;> simp_all
  | _ => simp_all [S.pc, S.clean]

/-- **C124.** Until the connector itself begins to close the connection, every caller that gets an answer gets the one to their own request. -/
theorem C124_own {cap : Nat} {s : S} (h : Reach false false cap s) {i j : Nat} (hr : (i, Res.ok j) ∈ s.results) : i = j := by
  cases h with
  | init => simp [S.init] at hr
  | @step s0 _ h hc hs =>
    by_cases e : s.crash = false
    · exact (Reach.ord (.step h hc hs) e).res i j hr
    · rw [(results_crash hs hc (by simpa using e)).1] at hr
      exact (h.ord hc).res i j hr

theorem Reach.cap_eq {cl echo : Bool} {cap : Nat} {s : S} (h : Reach cl echo cap s) : s.cap = cap := by
  induction h with
  | init => rfl
  | step h hc hs ih => rw [hs.cfg, ih]

/-- **C124.** It only fails the check on the queue if as many requests as its capacity are sent, or being written, and have no answer (the one that is being handled included). -/
theorem C124_capacity {cap : Nat} {s s' : S} (h : Reach false false cap s) (hc : s.crash = false) (hx : s.rx ≠ .off) (hs : Step false false s s') (h' : s'.crash = true) :
    cap ≤ s.open.length + (match s.rx with | .got _ => 1 | _ => 0) := by
  have h1 := (results_crash hs hc h').2
  rw [h.cap_eq] at h1
  have := (h.ord hc).q
  cases hrx : s.rx <;> simp only [hrx] at this ⊢
  · rw [this] at h1; exact h1
  · rw [this] at h1; exact h1
  · rw [this.2] at h1; exact h1
  · exact absurd hrx hx

/-! ## Cleaning -/

structure Clean (s : S) : Prop where
  got : ∀ i ∈ s.seen, i ∈ s.calls → ∃ ids, s.cl = .dispatch ids ∧ i ∈ ids
  was : ∀ i ∈ s.seen, i ∈ s.calls ++ s.results.map Prod.fst

theorem Clean.result {s s' : S} (v : Clean s) {i : Nat} {r : Res} (h : i ∈ s.calls) (hn : s.calls.Nodup) (h0 : s'.seen = s.seen) (h2 : s'.calls = s.calls.erase i) (h3 : s'.results = (i, r) :: s.results)
    (hcl : ∀ ids, s.cl = .dispatch ids → ∃ ids', s'.cl = .dispatch ids' ∧ ∀ k ∈ ids, k ∈ ids' ∨ k = i) : Clean s' := by
  refine ⟨?_, ?_⟩
  · intro k hk hc
    rw [h0] at hk
    rw [h2] at hc
    obtain ⟨ids, h4, h5⟩ := v.got k hk (List.mem_of_mem_erase hc)
    obtain ⟨ids', h6, h7⟩ := hcl ids h4
    rcases h7 k h5 with h8 | rfl
    · exact ⟨ids', h6, h8⟩
    · exact absurd hc (fun hc => (hn.mem_erase_iff.1 hc).1 rfl)
  · intro k hk
    rw [h0] at hk
    have p : (s'.calls ++ s'.results.map Prod.fst).Perm (s.calls ++ s.results.map Prod.fst) := by rw [h2, h3]; exact erase_perm h
    exact p.mem_iff.2 (v.was k hk)

theorem Clean.same {s s' : S} (v : Clean s) (h0 : s'.seen = s.seen) (h2 : s'.calls = s.calls) (h3 : ∀ x, x ∈ s.results → x ∈ s'.results)
    (hcl : ∀ ids, s.cl = .dispatch ids → ∃ ids', s'.cl = .dispatch ids' ∧ ∀ k ∈ ids, k ∈ s.calls → k ∈ ids') : Clean s' := by
  refine ⟨?_, ?_⟩
  · intro k hk hc
    rw [h0] at hk
    rw [h2] at hc
    obtain ⟨ids, h4, h5⟩ := v.got k hk hc
    obtain ⟨ids', h6, h7⟩ := hcl ids h4
    exact ⟨ids', h6, h7 k h5 hc⟩
  · intro k hk
    rw [h0] at hk
    have := v.was k hk
    rw [h2]
    simp only [List.mem_append, List.mem_map] at this ⊢
    rcases this with h | ⟨x, hx, he⟩
    · exact .inl h
    · exact .inr ⟨x, h3 x hx, he⟩

theorem Step.clean {cl echo : Bool} {s s' : S} (hs : Step cl echo s s') (iv : Inv s) (v : Clean s) : Clean s' := by
  have hn : s.calls.Nodup := (List.nodup_append.1 iv.nd).1
  have id0 : ∀ ids, s.cl = .dispatch ids → ∃ ids', s.cl = .dispatch ids' ∧ ∀ k ∈ ids, k ∈ s.calls → k ∈ ids' := fun ids h => ⟨ids, h, fun _ h _ => h⟩
  have id1 : ∀ i, ∀ ids, s.cl = .dispatch ids → ∃ ids', s.cl = .dispatch ids' ∧ ∀ k ∈ ids, k ∈ ids' ∨ k = i := fun i ids h => ⟨ids, h, fun _ h => .inl h⟩
  have idc : ∀ ids, s.cl = .dispatch ids → ∃ ids', s.clean.cl = .dispatch ids' ∧ ∀ k ∈ ids, k ∈ s.calls → k ∈ ids' := fun ids h => ⟨ids, by simp [S.clean, h], fun _ h _ => h⟩
  cases hs with
  | start =>
    split
    · exact v.same rfl rfl (fun _ h => h) id0
    · exact v.same rfl rfl (fun _ h => List.mem_cons_of_mem _ h) id0
  | save i h =>
    have hnew : i ∉ s.calls ++ s.results.map Prod.fst := by
      intro hi
      obtain ⟨p, h1, h2⟩ := iv.bound i hi
      rw [h] at h1
      exact h2 (by simpa using h1.symm)
    refine ⟨?_, ?_⟩
    · intro k hk hc
      simp only [List.mem_cons] at hc
      rcases hc with rfl | hc
      · exact absurd (v.was k hk) hnew
      · exact v.got k hk hc
    · intro k hk
      exact List.mem_cons_of_mem _ (v.was k hk)
  | pre i o u h =>
    split
    · exact v.same rfl rfl (fun _ h => h) id0
    · split
      · exact v.same rfl rfl (fun _ h => h) id0
      · exact v.same rfl rfl (fun _ h => h) id0
  | unmatched j hr h => exact v.same rfl rfl (fun _ h => h) idc
  | ended hr => exact v.same rfl rfl (fun _ h => h) idc
  | close hc => exact v.same rfl rfl (fun _ h => h) idc
  | deliver j i hr h => exact v.result h hn rfl rfl rfl (id1 i)
  | timeout i h => exact v.result h hn rfl rfl rfl (id1 i)
  | drained h hq => exact v.same rfl rfl (fun _ h => h) (fun ids h' => by rw [h] at h'; cases h')
  | collect h => exact ⟨fun k hk _ => ⟨_, rfl, hk⟩, fun k hk => List.mem_append_left _ hk⟩
  | dispatch i ids h =>
    split
    · rename_i hi
      refine v.result hi hn rfl rfl rfl ?_
      intro ids' h'
      rw [h] at h'
      cases h'
      refine ⟨ids, rfl, fun k hk => ?_⟩
      simp only [List.mem_cons] at hk
      rcases hk with rfl | hk
      · exact .inr rfl
      · exact .inl hk
    · rename_i hi
      refine v.same rfl rfl (fun _ h => h) ?_
      intro ids' h'
      rw [h] at h'
      cases h'
      refine ⟨ids, rfl, fun k hk hc => ?_⟩
      simp only [List.mem_cons] at hk
      rcases hk with rfl | hk
      · exact absurd hc hi
      · exact hk
  | stop h hr =>
    refine ⟨?_, v.was⟩
    intro k hk hc
    obtain ⟨ids, h1, h2⟩ := v.got k hk hc
    rw [h] at h1
    cases h1
    cases h2
  | _ => exact v.same rfl rfl (fun _ h => h) id0

theorem Reach.clean {cl echo : Bool} {cap : Nat} {s : S} (h : Reach cl echo cap s) : Clean s := by
  induction h with
  | init => exact ⟨by simp [S.init], by simp [S.init]⟩
  | step h hc hs ih => exact hs.clean h.inv ih

/-- **C124.** When the connection has been cleaned up, every call that was waiting when the ids were collected has its result. -/
theorem C124_cleaned {cl echo : Bool} {cap : Nat} {s : S} (h : Reach cl echo cap s) (hd : s.cl = .done) : ∀ i ∈ s.seen, i ∈ s.results.map Prod.fst := by
  intro i hi
  have := h.clean.was i hi
  simp only [List.mem_append] at this
  rcases this with h1 | h1
  · obtain ⟨ids, h2, _⟩ := h.clean.got i hi h1
    rw [hd] at h2
    cases h2
  · exact h1

/-- **C124.** A call whose context is saved has its result, or is waiting with its timer set. -/
theorem C124_waits {cl echo : Bool} {cap : Nat} {s : S} (h : Reach cl echo cap s) {i : Nat} (hp : s.pcs[i]? = some .saved ∨ s.pcs[i]? = some .sent) : i ∈ s.results.map Prod.fst ∨ (i ∈ s.calls ∧ ∃ s', Step cl echo s s' ∧ (i, Res.timeout) ∈ s'.results) := by
  have : i ∈ s.calls ++ s.results.map Prod.fst := hp.elim (fun h' => h.inv.all i _ h' (.inl rfl)) (fun h' => h.inv.all i _ h' (.inr rfl))
  simp only [List.mem_append] at this
  rcases this with h1 | h1
  · exact .inr ⟨h1, _, .timeout i h1, List.mem_cons_self⟩
  · exact .inl h1

/-! ## What goes wrong -/

theorem Reach.to {cl echo : Bool} {cap : Nat} {s s' t : S} (h : Reach cl echo cap s) (hc : s.crash = false) (hs : Step cl echo s s') (e : s' = t) : Reach cl echo cap t := e ▸ .step h hc hs

/-- A request is started, saved and sent. -/
theorem Reach.call {cl echo : Bool} {cap : Nat} {s : S} (h : Reach cl echo cap s) (hc : s.crash = false) (hh : s.healthy = true) :
    Reach cl echo cap { s with pcs := s.pcs ++ [.sent], calls := s.pcs.length :: s.calls, un := s.un ++ [(s.pcs.length, false)] } := by
  have h1 := h.to hc .start rfl
  rw [if_pos hh] at h1
  have h2 := h1.to (by exact hc) (.save s.pcs.length (by simp)) rfl
  have h3 := h2.to (by exact hc) (.send s.pcs.length true (by simp [S.pc]) (.inl rfl)) rfl
  simpa [S.pc] using h3

/-- It is announced, written, and its answer is on its way. -/
theorem Reach.serve {cl echo : Bool} {cap : Nat} {s : S} {i : Nat} (h : Reach cl echo cap s) (hc : s.crash = false) (hu : s.un = [(i, false)]) (hf : s.fl = []) (hv : s.srv = []) (hq : s.queue.length < s.cap) :
    Reach cl echo cap { s with un := [], queue := s.queue ++ [i], inflight := s.inflight ++ [i] } := by
  have h1 := h.to hc (.pre i false [] hu) rfl
  simp only [Bool.false_eq_true, if_false, if_pos hq, hf, List.nil_append] at h1
  have h2 := h1.to (by exact hc) (.write (i, false) [] rfl) rfl
  simp only [hv, expect, Bool.false_and, Bool.false_eq_true, if_false, List.nil_append] at h2
  have h3 := h2.to (by exact hc) (.answer i [] rfl) rfl
  simpa [hf, hv] using h3

/-- One request is answered; another is written. -/
theorem reach_one (cl echo : Bool) {cap : Nat} (hc : 0 < cap) : Reach cl echo cap ⟨cap, true, [.sent], [0], [], [], [0], [], [0], .idle, .none, [], [], false⟩ :=
  (Reach.init.call rfl rfl).serve rfl rfl rfl rfl hc

theorem reach_two (cl echo : Bool) {cap : Nat} (hc : 1 < cap) : Reach cl echo cap ⟨cap, true, [.sent, .sent], [1, 0], [], [], [0, 1], [], [0, 1], .idle, .none, [], [], false⟩ :=
  ((reach_one cl echo (by omega)).call rfl rfl).serve rfl rfl rfl rfl (by simpa using hc)

/-- Not vacuous: both calls get their own answers. -/
example {cap : Nat} (hc : 1 < cap) : ∃ s, Reach false false cap s ∧ s.results = [(1, .ok 1), (0, .ok 0)] := by
  have h := reach_two false false hc
  have h := h.to rfl (.got 0 [1] rfl rfl) rfl
  have h := h.to rfl (.matched 0 0 [1] rfl rfl) rfl
  have h := h.to rfl (.deliver 0 0 rfl (by simp)) rfl
  have h := h.to rfl (.got 1 [] rfl rfl) rfl
  have h := h.to rfl (.matched 1 1 [] rfl rfl) rfl
  exact ⟨_, h.to rfl (.deliver 1 1 rfl (by simp)) rfl, rfl⟩

/-- and after the peer closed the connection, a call that waits gets an error. -/
example {cap : Nat} (hc : 0 < cap) : ∃ s, Reach false false cap s ∧ s.cl = .done ∧ s.seen = [0] ∧ s.results = [(0, .gone)] := by
  have h := reach_one false false hc
  have h := h.to rfl (.ended rfl) rfl
  have h := h.to rfl (.drain 0 [] rfl rfl) rfl
  have h := h.to rfl (.drained rfl rfl) rfl
  have h := h.to rfl (.collect rfl) rfl
  have h := h.to rfl (.dispatch 0 [] rfl) rfl
  have h := h.to rfl (.stop rfl (.inr rfl)) rfl
  exact ⟨_, h, rfl, rfl, rfl⟩

/-- **C125.** `ClearReqMsg` takes ids from the queue while answers are still received: a caller gets the answer to the request of another one. -/
theorem C125_closing_partial {cap : Nat} (hc : 1 < cap) : ∃ s, Reach true false cap s ∧ (1, Res.ok 0) ∈ s.results := by
  have h := reach_two true false hc
  have h := h.to rfl (.close rfl) rfl
  have h := h.to rfl (.drain 0 [1] rfl rfl) rfl
  have h := h.to rfl (.got 0 [1] rfl rfl) rfl
  have h := h.to rfl (.matched 0 1 [] rfl rfl) rfl
  have h := h.to rfl (.deliver 0 1 rfl (by simp [S.clean])) rfl
  exact ⟨_, h, List.mem_cons_self⟩

/-- **C125.** So does a caller that found the connection healthy, and sends after the queue was emptied: here when all the others have got an error already. -/
theorem C125_late_partial {cap : Nat} (hc : 0 < cap) : ∃ s, Reach true false cap s ∧ (1, Res.ok 0) ∈ s.results ∧ (0, Res.gone) ∈ s.results := by
  have h := reach_one true false hc
  have h := h.to rfl .start rfl
  have h := h.to rfl (.close rfl) rfl
  have h := h.to rfl (.drain 0 [] rfl rfl) rfl
  have h := h.to rfl (.drained rfl rfl) rfl
  have h := h.to rfl (.collect rfl) rfl
  have h := h.to rfl (.dispatch 0 [] rfl) rfl
  have h := h.to rfl (.save 1 rfl) rfl
  have h := h.to rfl (.send 1 true rfl (.inl rfl)) rfl
  have h := h.to rfl (.pre 1 false [] rfl) (if_pos hc)
  have h := h.to rfl (.got 0 [] rfl rfl) rfl
  have h := h.to rfl (.matched 0 1 [] rfl rfl) rfl
  have h := h.to rfl (.deliver 0 1 rfl (by simp [S.clean, S.pc])) rfl
  exact ⟨_, h, by simp, by simp [S.clean, S.pc]⟩

/-- **C125.** If the server answers one-way requests, the answer goes to the next caller, without any failure. -/
theorem C125_oneway_partial {cap : Nat} (hc : 0 < cap) : ∃ s, Reach false true cap s ∧ (1, Res.ok 0) ∈ s.results := by
  have h := (Reach.init (cl := false) (echo := true) (cap := cap)).to rfl .oneway rfl
  have h := h.call rfl rfl
  have h := h.to rfl (.pre 0 true [(1, false)] rfl) rfl
  have h := h.to rfl (.pre 1 false [] rfl) (if_pos hc)
  have h := h.to rfl (.write (0, true) [(1, false)] rfl) rfl
  have h := h.to rfl (.answer 0 [] rfl) rfl
  have h := h.to rfl (.got 0 [] rfl rfl) rfl
  have h := h.to rfl (.matched 0 1 [] rfl rfl) rfl
  have h := h.to rfl (.deliver 0 1 rfl (by simp [S.init])) rfl
  exact ⟨_, h, List.mem_cons_self⟩

theorem fill {cap n : Nat} (h : n ≤ cap) : ∃ s, Reach false false cap s ∧ s.crash = false ∧ s.healthy = true ∧ s.un = [] ∧ s.queue.length = n := by
  induction n with
  | zero => exact ⟨_, .init, rfl, rfl, rfl, rfl⟩
  | succ n ih =>
    obtain ⟨s, h1, h2, h3, h4, h5⟩ := ih (by omega)
    have h6 := h1.call h2 h3
    have hq : s.queue.length < s.cap := by rw [h1.cap_eq]; omega
    have h7 := h6.to h2 (.pre s.pcs.length false [] (by simp [h4])) rfl
    simp only [Bool.false_eq_true, if_false, if_pos hq] at h7
    exact ⟨_, h7, h2, h3, rfl, by simp [h5]⟩

/-- **C125.** Whatever the capacity is: with one more request than that before the first answer, the process is ended by the check. -/
theorem C125_capacity_partial (cap : Nat) : ∃ s, Reach false false cap s ∧ s.crash = true := by
  obtain ⟨s, h1, h2, h3, h4, h5⟩ := fill (Nat.le_refl cap)
  have h6 := h1.call h2 h3
  have hq : ¬ s.queue.length < s.cap := by rw [h1.cap_eq]; omega
  have h7 := h6.to h2 (.pre s.pcs.length false [] (by simp [h4])) rfl
  simp only [Bool.false_eq_true, if_false, if_neg hq] at h7
  exact ⟨_, h7, rfl⟩

end Verif.Transport.Pipeline
