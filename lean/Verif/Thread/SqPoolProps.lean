import Verif.Thread.SqPoolSpec
/-!
# Properties of the thread pool with a single queue
-/

namespace Verif.Thread.SqPool

theorem run_append (s : St) (tr : List Ev) (as bs : List Act) :
    run s tr (as ++ bs) = run (run s tr as).1 (run s tr as).2 bs := by
  induction as generalizing s tr with
  | nil => rfl
  | cons a as ih => exact ih _ _

/-- An invariant of the state and the trace holds in the end. -/
theorem run_inv (P : St → List Ev → Prop) (hs : ∀ s tr a, P s tr → P (step s a).1 (tr ++ (step s a).2))
    (s : St) (tr : List Ev) (h : P s tr) (as : List Act) : P (run s tr as).1 (run s tr as).2 := by
  induction as generalizing s tr with
  | nil => exact h
  | cons a as ih => exact ih _ _ (hs _ _ _ h)

theorem started_append (a b : List Ev) : started (a ++ b) = started a ++ started b := by simp [started]
theorem entered_append (a b : List Ev) : entered (a ++ b) = entered a ++ entered b := by simp [entered]
theorem answered_append (ok : Bool) (a b : List Ev) : answered ok (a ++ b) = answered ok a ++ answered ok b := by
  simp [answered]

theorem entered_nil : entered [] = [] := rfl
theorem answered_nil (ok : Bool) : answered ok [] = [] := rfl

/-- **C48.** Tasks are started in the order they entered the queue, each once, and none disappears. -/
theorem C48_fifo (n cap : Nat) (as : List Act) :
    started (run (init n cap) [] as).2 ++ (run (init n cap) [] as).1.queue = entered (run (init n cap) [] as).2 := by
  refine run_inv (fun s tr => started tr ++ s.queue = entered tr) ?_ _ _ rfl as
  intro s tr a h
  rw [started_append, entered_append, ← h]
  cases a with
  | worker i =>
    simp only [step]
    split
    · unfold workerStep
      split <;> (try split) <;> simp_all [St.toW, started, entered]
    · simp [started, entered]
  | add c t => simp only [step]; split <;> simp [St.toC, started, entered]
  | stop c => simp only [step]; split <;> simp [St.toC, started, entered]
  | client c i =>
    simp only [step, clientStep]
    split <;> (try split) <;> (try split) <;> simp [St.toC, St.toW, started, entered]
  | spurious i => simp only [step]; split <;> simp [St.toW, started, entered]

/-- The task of a call in progress. -/
def CPc.task : CPc → Option Nat
  | .check t | .push t | .count t | .wake t => some t
  | _ => none

/-- The task of a call in progress that is in the queue. -/
def CPc.inQueue : CPc → Option Nat
  | .count t | .wake t => some t
  | _ => none

/-- **C48.** An accepted task entered the queue. -/
theorem C48_accepted (n cap : Nat) (as : List Act) (t : Nat) (h : t ∈ answered true (run (init n cap) [] as).2) :
    t ∈ entered (run (init n cap) [] as).2 := by
  refine (run_inv (fun s tr => (∀ t ∈ answered true tr, t ∈ entered tr) ∧
    ∀ c t, (s.c c).inQueue = some t → t ∈ entered tr) ?_ _ _ ?_ as).1 t h
  · intro s tr a ⟨h1, h2⟩
    simp only [answered_append, entered_append, List.mem_append]
    cases a with
    | worker i =>
      simp only [step]
      split
      · have : (workerStep s i).1.c = s.c ∧ answered true (workerStep s i).2 = [] := by
          unfold workerStep
          split <;> (try split) <;> simp [St.toW, answered]
        rw [this.1, this.2]
        grind
      · grind [answered]
    | add c t => simp only [step]; split <;> simp only [St.toC, answered_nil, entered_nil] <;> grind [CPc.inQueue, upd]
    | stop c => simp only [step]; split <;> simp only [St.toC, answered_nil, entered_nil] <;> grind [CPc.inQueue, upd]
    | client c i =>
      have := h2 c
      simp only [step, clientStep]
      split <;> (try split) <;> (try split) <;> simp only [St.toC, St.toW, answered, entered] <;>
        grind [CPc.inQueue, upd, answered, entered]
    | spurious i => simp only [step]; split <;> simp only [St.toW, answered_nil, entered_nil] <;> grind
  · simp [init, answered, CPc.inQueue]

/-- The tasks given to `AddTask`. -/
def given : List Act → List Nat
  | [] => []
  | .add _ t :: as => t :: given as
  | _ :: as => given as

/-- Every task has at most one call. -/
structure Once (s : St) (tr : List Ev) (H : List Nat) : Prop where
  task : ∀ c t, (s.c c).task = some t → t ∈ H
  same : ∀ c d t, (s.c c).task = some t → (s.c d).task = some t → c = d
  refused : ∀ t ∈ answered false tr, t ∈ H ∧ t ∉ entered tr ∧ ∀ c, (s.c c).task ≠ some t
  enter : ∀ t ∈ entered tr, t ∈ H ∧ ∀ c, (s.c c).task = some t → (s.c c).inQueue = some t

theorem Once.step {s : St} {tr : List Ev} {H : List Nat} (h : Once s tr H) (a : Act) (ha : ∀ t ∈ given [a], t ∉ H) :
    Once (step s a).1 (tr ++ (step s a).2) (H ++ given [a]) := by
  obtain ⟨h1, h2, h3, h4⟩ := h
  cases a with
  | worker i =>
    have : (SqPool.step s (.worker i)).1.c = s.c ∧ answered false (SqPool.step s (.worker i)).2 = [] ∧
        entered (SqPool.step s (.worker i)).2 = [] := by
      simp only [SqPool.step]
      split
      · unfold workerStep
        split <;> (try split) <;> simp [St.toW, answered, entered]
      · simp [answered, entered]
    constructor <;> simp only [answered_append, entered_append, this.1, this.2.1, this.2.2, given, List.append_nil] <;> assumption
  | add c t =>
    have ha : t ∉ H := ha t (by simp [given])
    simp only [SqPool.step]
    split <;> constructor <;> simp only [given, List.append_nil, St.toC] <;> grind [CPc.task, CPc.inQueue, upd]
  | stop c =>
    simp only [SqPool.step]
    split <;> constructor <;> simp only [given, List.append_nil, St.toC] <;> grind [CPc.task, CPc.inQueue, upd]
  | client c i =>
    have g1 := h1 c
    have g2 := h2 c
    simp only [SqPool.step, clientStep, given, List.append_nil]
    split <;> (try split) <;> (try split) <;> constructor <;>
      simp only [St.toC, St.toW, answered_append, entered_append] <;>
        grind [CPc.task, CPc.inQueue, upd, answered, entered]
  | spurious i =>
    have : (SqPool.step s (.spurious i)).1.c = s.c ∧ (SqPool.step s (.spurious i)).2 = [] := by
      simp only [SqPool.step]
      split <;> simp [St.toW]
    constructor <;> simp only [this.1, this.2, given, List.append_nil] <;> assumption

theorem given_append (as bs : List Act) : given (as ++ bs) = given as ++ given bs := by
  induction as with
  | nil => rfl
  | cons a as ih => cases a <;> simp [given, ih]

theorem Once.run {as : List Act} {s : St} {tr : List Ev} {H : List Nat} (h : Once s tr H) (ha : (H ++ given as).Nodup) :
    Once (run s tr as).1 (run s tr as).2 (H ++ given as) := by
  induction as generalizing s tr H with
  | nil => simpa [SqPool.run, given] using h
  | cons a as ih =>
    have e : given (a :: as) = given [a] ++ given as := given_append [a] as
    have := ih (h.step a (by grind)) (by rw [e] at ha; simpa using ha)
    rw [e, ← List.append_assoc]
    exact this

/-- **C48.** A task that was refused is never started (if every task is given once). -/
theorem C48_refused (n cap : Nat) (as : List Act) (h1 : (given as).Nodup) (t : Nat)
    (ht : t ∈ answered false (run (init n cap) [] as).2) : t ∉ started (run (init n cap) [] as).2 := by
  have h : Once (init n cap) [] [] := by constructor <;> simp [init, CPc.task, answered, entered]
  have := (h.run (as := as) (by simpa using h1)).refused t ht
  have e := C48_fifo n cap as
  grind

/-- **C48.** A task given once is started at most once. -/
theorem C48_once (n cap : Nat) (as : List Act) (t : Nat) (ht : (entered (run (init n cap) [] as).2).count t ≤ 1) :
    (started (run (init n cap) [] as).2).count t ≤ 1 := by
  rw [← C48_fifo, List.count_append] at ht
  omega

/-! ### Lost wake-ups -/

/-- All workers do one step that only changes where they are. -/
theorem run_workers (s : St) (tr : List Ev) (p : WPc) (k : Nat) (hk : k ≤ s.n)
    (hp : ∀ w i, i < k → w i = s.w i → workerStep { s with w := w } i = ({ s with w := upd w i p }, [])) :
    run s tr ((List.range k).map .worker) = ({ s with w := fun j => if j < k then p else s.w j }, tr) := by
  induction k with
  | zero => simp [run]
  | succ k ih =>
    rw [List.range_succ, List.map_append, run_append, ih (by omega) (fun w i hi => hp w i (by omega))]
    simp only [List.map_cons, List.map_nil, run, step]
    rw [if_pos (by omega), hp _ k (by omega) (by simp)]
    simp only [List.append_nil, Prod.mk.injEq, and_true]
    congr 1
    funext j
    simp only [upd]
    grind

/-- A whole call of `AddTask` while nobody sleeps. -/
def addOne (t : Nat) : List Act := [.add 0 t, .client 0 0, .client 0 0, .client 0 0, .client 0 0]

theorem run_addOne (s : St) (tr : List Ev) (t : Nat) (h1 : s.c 0 = .idle) (h2 : stopped s.word = false)
    (h3 : s.queue.length < s.cap) (h4 : ∀ i, s.w i ≠ .asleep) :
    run s tr (addOne t) = ({ s with queue := s.queue ++ [t], word := count s.word },
      tr ++ [.queued t, .returned 0 t true]) := by
  have h5 : ∀ s' : St, s'.n = s.n → s'.w = s.w → s'.sleeper = false := by
    intro s' e1 e2
    simp [St.sleeper, e1, e2, h4]
  have hc : upd (upd (upd (upd (upd s.c 0 (.check t)) 0 (.push t)) 0 (.count t)) 0 (.wake t)) 0 .idle = s.c := by
    funext c
    simp only [upd]
    grind
  simp [addOne, run, step, h1, clientStep, St.toC, h2, h3, h4, h5, hc]

theorem stopped_count (w : Nat) : stopped (count w) = stopped w := by
  simp only [stopped, count]
  congr 1
  omega

theorem run_adds (ts : List Nat) (s : St) (tr : List Ev) (h1 : s.c 0 = .idle) (h2 : stopped s.word = false)
    (h3 : s.queue.length + ts.length ≤ s.cap) (h4 : ∀ i, s.w i ≠ .asleep) :
    ∃ w' tr', run s tr (ts.flatMap addOne) = ({ s with queue := s.queue ++ ts, word := w' }, tr ++ tr') ∧
      stopped w' = false ∧ answered true tr' = ts ∧ entered tr' = ts := by
  induction ts generalizing s tr with
  | nil => exact ⟨s.word, [], by simp [run], h2, rfl, rfl⟩
  | cons t ts ih =>
    simp only [List.length_cons] at h3
    rw [List.flatMap_cons, run_append, run_addOne s tr t h1 h2 (by omega) h4]
    obtain ⟨w', tr', e1, e2, e3, e4⟩ := ih { s with queue := s.queue ++ [t], word := count s.word }
      (tr ++ [.queued t, .returned 0 t true]) h1 (by rw [stopped_count]; exact h2)
      (by simp only [List.length_append, List.length_singleton]; omega) h4
    refine ⟨w', .queued t :: .returned 0 t true :: tr', ?_, e2, ?_, ?_⟩
    · rw [e1]; simp
    · simp only [answered] at e3 ⊢
      simp [e3]
    · simp only [entered] at e4 ⊢
      simp [e4]

/-- Everybody looks for a task, the tasks arrive, everybody goes to sleep. -/
def lost (n : Nat) (ts : List Nat) : List Act :=
  (List.range n).map .worker ++ ts.flatMap addOne ++ (List.range n).map .worker ++ (List.range n).map .worker

/-- **C49**, refuted: whatever the number of workers, any number of accepted tasks can be left in the queue with all workers
asleep. -/
theorem C49_lost (n cap : Nat) (ts : List Nat) (h : ts.length ≤ cap) :
    Stuck (run (init n cap) [] (lost n ts)).1 ∧ (run (init n cap) [] (lost n ts)).1.queue = ts ∧
      answered true (run (init n cap) [] (lost n ts)).2 = ts ∧ started (run (init n cap) [] (lost n ts)).2 = [] := by
  have key : ∃ s tr, run (init n cap) [] (lost n ts) = (s, tr) ∧ s.queue = ts ∧ answered true tr = ts ∧ entered tr = ts ∧
      Stuck s := by
    unfold lost
    rw [run_append, run_append, run_append]
    have f1 := run_workers (init n cap) [] .check n (Nat.le_refl _) (by
      intro w i hi hw
      simp only [init] at hw
      simp [workerStep, hw, St.toW, init])
    rw [f1]
    obtain ⟨w', tr', e1, e2, e3, e4⟩ := run_adds ts { init n cap with w := fun j => if j < n then .check else (init n cap).w j } []
      rfl rfl (by simpa [init] using h) (by simp only [init]; grind)
    simp only at e1 ⊢
    rw [e1]
    have f2 := run_workers ⟨n, cap, ts, w', fun j => if j < n then .check else (init n cap).w j, fun _ => .idle⟩ tr' (.wait w') n
      (Nat.le_refl _) (by
        intro w i hi hw
        simp only at hw
        rw [if_pos hi] at hw
        simp [workerStep, hw, St.toW, e2])
    simp only [init, List.nil_append] at f2 ⊢
    rw [f2]
    have f3 := run_workers ⟨n, cap, ts, w', fun j => if j < n then .wait w' else if j < n then .check else .pop, fun _ => .idle⟩ tr'
      .asleep n (Nat.le_refl _) (by
        intro w i hi hw
        simp only at hw
        rw [if_pos hi] at hw
        simp [workerStep, hw, St.toW])
    simp only at f3 ⊢
    rw [f3]
    refine ⟨_, _, rfl, rfl, e3, e4, fun c => rfl, fun i hi => ?_⟩
    simp only at hi
    simp [hi]
  have hf := C48_fifo n cap (lost n ts)
  obtain ⟨s, tr, e, h1, h2, h4, h3⟩ := key
  rw [e] at hf ⊢
  refine ⟨h3, h1, h2, ?_⟩
  simp only [h1, h4] at hf
  simpa using hf


/-- `Stop` in another thread between the check and the push of `AddTask`, with one worker. -/
def late : List Act :=
  [.add 0 7, .client 0 0, .stop 1, .client 1 0, .client 1 0, .worker 0, .worker 0, .worker 0, .client 0 0, .client 0 0, .client 0 0]

/-- **C49**, refuted: a task can be accepted after all workers have left. -/
theorem C49_late : Stuck (run (init 1 8) [] late).1 ∧ (run (init 1 8) [] late).1.queue = [7] ∧
    (run (init 1 8) [] late).2 = [.queued 7, .returned 0 7 true] := by
  refine ⟨⟨fun c => ?_, fun i hi => ?_⟩, by decide, by decide⟩
  · simp [late, run, step, clientStep, workerStep, init, St.toC, St.toW, upd, stopped, setStop, count, St.sleeper]
    grind
  · have : i = 0 := by
      have : (run (init 1 8) [] late).1.n = 1 := by decide
      omega
    subst this
    exact Or.inr (by decide)

/-- A worker that looks for tasks and is left alone starts everything in the queue. -/
theorem drains (i : Nat) (q : List Nat) (s : St) (tr : List Ev) (hi : i < s.n) (hw : s.w i = .pop) (hq : s.queue = q) :
    (run s tr (List.replicate (2 * q.length) (.worker i))).1.queue = [] ∧
      (run s tr (List.replicate (2 * q.length) (.worker i))).2 = tr ++ q.map (.ran i) := by
  induction q generalizing s tr with
  | nil => simp [run, hq]
  | cons t q ih =>
    have e : List.replicate (2 * (t :: q).length) (Act.worker i) =
        .worker i :: .worker i :: List.replicate (2 * q.length) (.worker i) := rfl
    rw [e]
    simp only [run, step, if_pos hi, workerStep, hw, hq, St.toW, upd_same, List.append_nil]
    have := ih { s with w := upd (upd s.w i .busy) i .pop, queue := q } (tr ++ [.ran i t]) hi (by simp) rfl
    simpa using this

/-- **C49**, part: when `AddTask` has returned, a sleeping worker was woken unless none slept. -/
theorem C49_wakes_partial (s : St) (c i t : Nat) (h : s.c c = .wake t) (hret : (step s (.client c i)).2 ≠ []) :
    (i < s.n ∧ s.w i = .asleep ∧ (step s (.client c i)).1.w i = .pop) ∨ ∀ j, j < s.n → s.w j ≠ .asleep := by
  simp only [step, clientStep, h] at hret ⊢
  by_cases h1 : i < s.n ∧ s.w i = .asleep
  · rw [if_pos h1]
    simp [St.toW, h1]
  · rw [if_neg h1] at hret ⊢
    by_cases h2 : s.sleeper = true
    · simp [h2] at hret
    · right
      intro j hj
      simp only [St.sleeper, List.any_eq_true, not_exists, not_and, List.mem_range, decide_eq_true_eq] at h2
      exact h2 j hj

/-- **C49**, part: a worker that was woken and is left alone starts all tasks. -/
theorem C49_drains_partial (s : St) (tr : List Ev) (i : Nat) (hi : i < s.n) (hw : s.w i = .pop) :
    ∃ as, (∀ a ∈ as, a = .worker i) ∧ (run s tr as).1.queue = [] ∧ (run s tr as).2 = tr ++ s.queue.map (.ran i) :=
  ⟨_, fun _ h => List.eq_of_mem_replicate h, drains i s.queue s tr hi hw rfl⟩

theorem stopped_setStop (w : Nat) : stopped (setStop w) = true := by
  simp only [stopped, setStop, beq_iff_eq]
  by_cases h : w % 2 = 1
  · simp [h]
  · simp only [h, if_false]; omega

/-- A worker has left only after `Stop`. -/
theorem exited_stopped (n cap : Nat) (as : List Act) (i : Nat) (h : (run (init n cap) [] as).1.w i = .exited) :
    stopped (run (init n cap) [] as).1.word = true := by
  refine run_inv (fun s _ => ∀ i, s.w i = .exited ∨ s.w i = .drain ∨ s.w i = .drainBusy → stopped s.word = true) ?_ _ _ ?_ as i
    (Or.inl h)
  · intro s tr a h
    cases a with
    | worker i =>
      have := h i
      simp only [step]
      split
      · unfold workerStep
        split <;> (try split) <;> simp only [St.toW] <;> grind [upd]
      · exact h
    | add c t => simp only [step]; split <;> simpa only [St.toC] using h
    | stop c => simp only [step]; split <;> simpa only [St.toC] using h
    | client c i =>
      simp only [step, clientStep]
      split <;> (try split) <;> (try split) <;> simp only [St.toC, St.toW] <;> grind [stopped_count, stopped_setStop, upd]
    | spurious i => simp only [step]; split <;> simp only [St.toW] <;> grind [upd]
  · simp [init]

/-- **C49**, part: if no `AddTask` is between its check and its push when `Stop` takes effect, then every task that entered
the queue has been started when a worker has left. -/
theorem C49_stop_partial (n cap : Nat) (as bs : List Act) (c k i : Nat) (h1 : (run (init n cap) [] as).1.c c = .stop)
    (h2 : ∀ d t, (run (init n cap) [] as).1.c d ≠ .push t) (h3 : stopped (run (init n cap) [] as).1.word = false)
    (h4 : (run (init n cap) [] (as ++ .client c k :: bs)).1.w i = .exited) :
    started (run (init n cap) [] (as ++ .client c k :: bs)).2 = entered (run (init n cap) [] (as ++ .client c k :: bs)).2 := by
  have hq : (run (init n cap) [] (as ++ .client c k :: bs)).1.queue = [] := by
    have hex := exited_stopped n cap as
    rw [run_append] at h4 ⊢
    generalize run (init n cap) [] as = r at *
    obtain ⟨s, tr⟩ := r
    simp only at *
    refine (run_inv (fun s _ => stopped s.word = true ∧ (∀ d t, s.c d ≠ .push t) ∧ ((∃ i, s.w i = .exited) → s.queue = [])) ?_
      _ _ ?_ bs).2.2 ⟨i, h4⟩
    · intro s tr a ⟨g1, g2, g3⟩
      cases a with
      | worker i =>
        simp only [step]
        split
        · unfold workerStep
          split <;> (try split) <;> simp only [St.toW] <;> grind [upd]
        · exact ⟨g1, g2, g3⟩
      | add c t => simp only [step]; split <;> simp only [St.toC] <;> grind [upd]
      | stop c => simp only [step]; split <;> simp only [St.toC] <;> grind [upd]
      | client c i =>
        have := g2 c
        simp only [step, clientStep]
        split <;> (try split) <;> (try split) <;> simp only [St.toC, St.toW] <;> grind [stopped_count, stopped_setStop, upd]
      | spurious i => simp only [step]; split <;> simp only [St.toW] <;> grind [upd]
    · simp only [step, clientStep, h1, St.toC]
      refine ⟨stopped_setStop _, ?_, ?_⟩
      · intro d t
        simp only [upd]
        split <;> simp [h2]
      · rintro ⟨j, hj⟩
        have := hex j hj
        simp [this] at h3
  have := C48_fifo n cap (as ++ .client c k :: bs)
  rw [hq] at this
  simpa using this

/-- **C49**, part: when `Stop` is over, no worker sleeps, so all workers go on to leave. -/
theorem C49_stop_wakes_partial (n cap : Nat) (as : List Act) (h1 : stopped (run (init n cap) [] as).1.word = true)
    (h2 : ∀ c, (run (init n cap) [] as).1.c c = .idle) (i : Nat) : (run (init n cap) [] as).1.w i ≠ .asleep := by
  have := run_inv (fun s _ => (∀ i st, s.w i = .wait st → stopped st = false) ∧
    (∀ i, s.w i = .asleep → stopped s.word = false ∨ ∃ c, s.c c = .stopWake)) (by
    intro s tr a ⟨g1, g2⟩
    cases a with
    | worker i =>
      have := g1 i
      simp only [step]
      split
      · unfold workerStep
        split <;> (try split) <;> simp only [St.toW] <;> grind [upd]
      · exact ⟨g1, g2⟩
    | add c t =>
      simp only [step]
      split
      · simp only [St.toC]
        refine ⟨g1, fun i hi => (g2 i hi).imp id ?_⟩
        rintro ⟨d, hd⟩
        exact ⟨d, by grind [upd]⟩
      · exact ⟨g1, g2⟩
    | stop c =>
      simp only [step]
      split
      · simp only [St.toC]
        refine ⟨g1, fun i hi => (g2 i hi).imp id ?_⟩
        rintro ⟨d, hd⟩
        exact ⟨d, by grind [upd]⟩
      · exact ⟨g1, g2⟩
    | client c i =>
      -- a step other than the waking of `Stop`, by which workers are at most woken
      have keep : ∀ s' : St, (∀ i, s'.w i = s.w i ∨ s'.w i = .pop) → (stopped s'.word = stopped s.word) → s.c c ≠ .stopWake →
          (∀ d, d ≠ c → s'.c d = s.c d) → (∀ i st, s'.w i = .wait st → stopped st = false) ∧
          (∀ i, s'.w i = .asleep → stopped s'.word = false ∨ ∃ c, s'.c c = .stopWake) := by
        intro s' k1 k2 k3 k4
        refine ⟨fun i st hi => g1 i st (by grind), fun i hi => ?_⟩
        rw [k2]
        refine (g2 i (by grind)).imp id ?_
        rintro ⟨d, hd⟩
        exact ⟨d, by rw [k4 d (by rintro rfl; exact k3 hd)]; exact hd⟩
      simp only [step]
      cases hc : s.c c with
      | idle => simp only [clientStep, hc]; exact ⟨g1, g2⟩
      | check t =>
        simp only [clientStep, hc]
        split <;> exact keep _ (fun i => Or.inl rfl) rfl (by simp [hc]) (fun d hd => by simp [St.toC, upd, hd])
      | push t =>
        simp only [clientStep, hc]
        split <;> exact keep _ (fun i => Or.inl rfl) rfl (by simp [hc]) (fun d hd => by simp [St.toC, upd, hd])
      | count t =>
        simp only [clientStep, hc]
        exact keep { s.toC c (.wake t) with word := SqPool.count s.word } (fun i => Or.inl rfl) (stopped_count _) (by simp [hc])
          (fun d hd => by simp [St.toC, upd, hd])
      | wake t =>
        simp only [clientStep, hc]
        split
        · refine keep _ (fun j => ?_) rfl (by simp [hc]) (fun d hd => by simp [St.toC, St.toW, upd, hd])
          simp only [St.toC, St.toW, upd]
          split <;> simp
        · split
          · exact ⟨g1, g2⟩
          · exact keep _ (fun i => Or.inl rfl) rfl (by simp [hc]) (fun d hd => by simp [St.toC, upd, hd])
      | stop =>
        simp only [clientStep, hc, St.toC]
        exact ⟨g1, fun i _ => Or.inr ⟨c, by simp⟩⟩
      | stopWake =>
        simp only [clientStep, hc, St.toC]
        refine ⟨fun i st hi => g1 i st (by grind), fun i hi => ?_⟩
        by_cases hw : s.w i = .asleep <;> simp [hw] at hi
    | spurious i =>
      simp only [step]
      split
      · simp only [St.toW]
        refine ⟨fun j st hj => g1 j st (by grind [upd]), fun j hj => g2 j (by grind [upd])⟩
      · exact ⟨g1, g2⟩) (init n cap) [] (by simp [init]) as
  intro hi
  rcases this.2 i hi with g | ⟨c, g⟩
  · rw [h1] at g; simp at g
  · rw [h2 c] at g; simp at g

/-! ### The hypotheses are satisfiable -/

/-- `Stop` while both workers sleep. -/
example : stopped (run (init 2 8) [] ([.worker 0, .worker 0, .worker 0, .worker 1, .worker 1, .worker 1, .stop 0, .client 0 0, .client 0 0])).1.word = true ∧
    (run (init 2 8) [] ([.worker 0, .worker 0, .worker 0, .worker 1, .worker 1, .worker 1])).1.w 1 = .asleep := by decide

/-- Two workers, three tasks, one of which is refused. -/
def story : List Act :=
  addOne 1 ++ [.worker 0, .worker 1, .worker 1, .worker 1] ++
    [.add 0 2, .client 0 0, .client 0 0, .client 0 0, .client 0 0, .client 0 1, .worker 1, .stop 0, .client 0 0, .client 0 0,
      .add 0 3, .client 0 0, .worker 0, .worker 0, .worker 0, .worker 0]

example : (run (init 2 8) [] story).2 = [.queued 1, .returned 0 1 true, .ran 0 1, .queued 2, .returned 0 2 true, .ran 1 2,
    .returned 0 3 false] ∧ (run (init 2 8) [] story).1.w 0 = .exited := by decide

example : (given story).Nodup ∧ 3 ∈ answered false (run (init 2 8) [] story).2 := by decide

example : (lost 3 [1, 2]).length = 19 ∧ (run (init 3 8) [] (lost 3 [1, 2])).2 =
    [.queued 1, .returned 0 1 true, .queued 2, .returned 0 2 true] := by decide

/-- `Stop` with a task in the queue. -/
example : started (run (init 1 8) [] (addOne 5 ++ [.stop 1] ++ .client 1 0 ::
      [.client 1 0, .worker 0, .worker 0, .worker 0, .worker 0, .worker 0])).2 = [5] ∧
    (run (init 1 8) [] (addOne 5 ++ [.stop 1] ++ .client 1 0 ::
      [.client 1 0, .worker 0, .worker 0, .worker 0, .worker 0, .worker 0])).1.w 0 = .exited := by decide

end Verif.Thread.SqPool
