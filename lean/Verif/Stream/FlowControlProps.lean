import Verif.Stream.FlowControlSpec
/-!
# C27, C41: stream flow control
-/

namespace Verif.Stream.Flow

@[simp] theorem sent_append (a b : List Ev) : sent (a ++ b) = sent a ++ sent b := List.filterMap_append
@[simp] theorem fedBack_append (a b : List Ev) : fedBack (a ++ b) = fedBack a + fedBack b := by
  simp [fedBack, List.filterMap_append, List.sum_append]
@[simp] theorem sent_nil : sent [] = [] := rfl
@[simp] theorem fedBack_nil : fedBack [] = 0 := rfl
@[simp] theorem sent_sent (n : Nat) : sent [.sent n] = [n] := rfl
@[simp] theorem sent_refused (n : Nat) : sent [.refused n] = [] := rfl
@[simp] theorem sent_fedBack (n : Nat) : sent [.fedBack n] = [] := rfl
@[simp] theorem fedBack_sent (n : Nat) : fedBack [.sent n] = 0 := rfl
@[simp] theorem fedBack_refused (n : Nat) : fedBack [.refused n] = 0 := rfl
@[simp] theorem fedBack_fedBack (n : Nat) : fedBack [.fedBack n] = n := by simp [fedBack, Ev.fedBack?]

/-- What is on its way, and its relation to what has been sent and acknowledged. -/
structure Bytes (w : Nat) (s : St) (tr : List Ev) : Prop where
  bytes : (sent tr).sum = fedBack tr + s.data.sum + s.consumed + s.feedback.sum
  cons : s.consumed ≤ w / 4
  sizes : ∀ n ∈ s.data, n ∈ sent tr

theorem Bytes.read {w : Nat} {s : St} {tr : List Ev} (h : Bytes w s tr) (hs : SizesOk w tr) :
    Bytes w (read w s) tr := by
  unfold Flow.read
  split
  · exact h
  · next n d e =>
    have hn := hs n (h.sizes n (by simp [e]))
    have hb := h.bytes
    have hc := h.cons
    rw [e] at hb
    have hm : (s.consumed + n) % 2 ^ 32 = s.consumed + n := Nat.mod_eq_of_lt (by omega)
    simp only [updateConsume, hm]
    refine ⟨?_, ?_, fun m hm => h.sizes m (by simp [e, show m ∈ d from hm])⟩
    · simp only [List.sum_cons] at hb
      split
      · simp only
        split
        · simp [List.sum_append]; omega
        · omega
      · simp; omega
    · simp only; split <;> simp; omega

theorem Bytes.send {w : Nat} {s : St} {tr : List Ev} (h : Bytes w s tr) (n : Nat) (x : Int) :
    Bytes w { s with window := x, data := s.data ++ [n] } (tr ++ [.sent n]) := by
  refine ⟨?_, h.cons, ?_⟩
  · have := h.bytes
    simp [List.sum_append]; omega
  · intro m hm
    simp at hm ⊢
    rcases hm with hm | hm
    · exact Or.inl (h.sizes m hm)
    · exact Or.inr hm

theorem Bytes.deliver {w : Nat} {s : St} {tr : List Ev} (h : Bytes w s tr) {f : Nat} {fs : List Nat}
    (e : s.feedback = f :: fs) (x : Int) :
    Bytes w { s with window := x, feedback := fs } (tr ++ [.fedBack f]) := by
  refine ⟨?_, h.cons, ?_⟩
  · have := h.bytes
    rw [e] at this
    simp at this ⊢; omega
  · intro m hm; simpa using h.sizes m hm

structure Inv (w : Nat) (s : St) (tr : List Ev) : Prop extends Bytes w s tr where
  window : s.window = w + fedBack tr - (sent tr).sum
  last : 0 ≤ s.window + lastSent tr

theorem SizesOk.of_append {w : Nat} {a b : List Ev} (h : SizesOk w (a ++ b)) : SizesOk w a :=
  fun n hn => h n (by simp [hn])

theorem Inv.step {w : Nat} {s : St} {tr : List Ev} (h : Inv w s tr) (a : Act)
    (hs : SizesOk w tr) : Inv w (step w s a).1 (tr ++ (step w s a).2) := by
  cases a with
  | send n =>
    simp only [Flow.step, decrease]
    have hw := h.window
    have hl := h.last
    by_cases hlt : s.window < 0
    · simp only [hlt, if_true, Bool.false_eq_true, if_false]
      exact ⟨⟨by simpa using h.bytes, h.cons, by simpa using h.sizes⟩, by simpa using hw, by simpa [lastSent] using hl⟩
    · simp only [hlt, if_false, if_true]
      refine ⟨h.toBytes.send n _, ?_, ?_⟩
      · simp [List.sum_append]; omega
      · simp [lastSent]; omega
  | read =>
    have := h.toBytes.read hs
    refine ⟨by simpa [Flow.step] using this, ?_, ?_⟩
    · have : (Flow.read w s).window = s.window := by unfold Flow.read; split <;> rfl
      simpa [Flow.step, this] using h.window
    · have : (Flow.read w s).window = s.window := by unfold Flow.read; split <;> rfl
      simpa [Flow.step, this] using h.last
  | deliver =>
    simp only [Flow.step]
    split
    · simpa using h
    · next f fs e =>
      refine ⟨h.toBytes.deliver e _, ?_, ?_⟩
      · have := h.window; simp [increase]; omega
      · have := h.last; simp [increase, lastSent] at this ⊢; omega

theorem Inv.init (w : Nat) : Inv w (init w) [] :=
  ⟨⟨rfl, Nat.zero_le _, by simp [Flow.init]⟩, by simp [Flow.init], by simp [Flow.init, lastSent]⟩

theorem run_trace (w : Nat) (as : List Act) : ∀ s tr, tr <+: (run w s tr as).2 := by
  induction as with
  | nil => intro s tr; exact List.prefix_refl _
  | cons a as ih => intro s tr; exact (List.prefix_append _ _).trans (ih _ _)

theorem Inv.run {w : Nat} (as : List Act) : ∀ {s tr}, Inv w s tr → SizesOk w (run w s tr as).2 →
    Inv w (run w s tr as).1 (run w s tr as).2 := by
  induction as with
  | nil => intro s tr h _; exact h
  | cons a as ih =>
    intro s tr h hs
    refine ih (h.step a ?_) hs
    obtain ⟨t, ht⟩ := run_trace w as (Flow.step w s a).1 (tr ++ (Flow.step w s a).2)
    rw [Flow.run, ← ht] at hs
    exact hs.of_append.of_append

variable (w : Nat) (as : List Act)

/-- **C27.** With the two controllers the amount sent and not acknowledged is at most the window plus the last
message, and sending is allowed exactly when it is at most the window. -/
theorem C27_bounded (hs : SizesOk w (run w (init w) [] as).2) :
    outstanding (run w (init w) [] as).2 ≤ w + lastSent (run w (init w) [] as).2 ∧
    ∀ n, (step w (run w (init w) [] as).1 (.send n)).2 =
      if outstanding (run w (init w) [] as).2 ≤ w then [.sent n] else [.refused n] := by
  have h := (Inv.init w).run as hs
  have hw := h.window
  have hl := h.last
  have hb := h.bytes
  refine ⟨by unfold outstanding; omega, fun n => ?_⟩
  by_cases hlt : (run w (init w) [] as).1.window < 0
  · rw [if_neg (by unfold outstanding; omega)]; simp [step, decrease, hlt]
  · rw [if_pos (by unfold outstanding; omega)]; simp [step, decrease, hlt]

/-- **C27.** When everything sent has been read and all feedback has arrived, at most a quarter of the window is
unacknowledged, so the sender may send. -/
theorem C27_no_deadlock (hs : SizesOk w (run w (init w) [] as).2)
    (hd : (run w (init w) [] as).1.data = []) (hf : (run w (init w) [] as).1.feedback = []) :
    outstanding (run w (init w) [] as).2 ≤ w / 4 ∧
    ∀ n, (step w (run w (init w) [] as).1 (.send n)).2 = [.sent n] := by
  have h := (Inv.init w).run as hs
  have hb := h.bytes
  rw [hd, hf] at hb
  have hc := h.cons
  have ho : outstanding (run w (init w) [] as).2 ≤ w / 4 := by simp [outstanding] at hb ⊢; omega
  exact ⟨ho, fun n => by rw [(C27_bounded w as hs).2 n, if_pos (by omega)]⟩

/-- Non-vacuity: the window is exhausted, a refusal, feedback, and the sender may send again. -/
example : (run 65535 (init 65535) [] [.send 10000, .send 60000, .send 1, .read, .read, .deliver, .send 1]).2 =
    [.sent 10000, .sent 60000, .refused 1, .fedBack 70000, .sent 1] := by decide +kernel

/-- Without the bound on message sizes the 32-bit counter wraps, the feedback is lost and the sender is stuck. -/
theorem C27_huge_message_deadlocks :
    (run 65535 (init 65535) [] [.send 16383, .send 4294950913, .read, .read, .deliver]).1 =
      ⟨65535 - 4294967296, [], 0, []⟩ := by decide +kernel

/-- The window used is never between 1 and 65534. -/
theorem C27_window_size (x : Nat) : windowSize x = 0 ∨ 65535 ≤ windowSize x := by
  unfold windowSize; split
  · exact Or.inl ‹_›
  · right; split <;> omega

/-! ### `Write` -/

structure WInv (w : Nat) (s : WSt) (tr : List Ev) : Prop where
  toBytes : Bytes w s.toSt tr
  window : w + fedBack tr ≤ s.window + (sent tr).sum
  blocked : s.blocked ≠ [] → s.window ≤ 0

theorem WInv.step {w : Nat} {s : WSt} {tr : List Ev} (h : WInv w s tr) (a : WAct)
    (hs : SizesOk w tr) : WInv w (wstep w s a).1 (tr ++ (wstep w s a).2) := by
  cases a with
  | write n =>
    simp only [wstep, decrease]
    have hw := h.window
    by_cases hlt : s.window < 0
    · simp only [hlt, if_true, Bool.false_eq_true, if_false]
      exact ⟨by simpa using h.toBytes, by simpa using hw, fun _ => by simp; omega⟩
    · simp only [hlt, if_false, if_true]
      refine ⟨h.toBytes.send n _, ?_, fun hb => ?_⟩
      · simp [List.sum_append]; omega
      · have := h.blocked hb; simp; omega
  | resume i =>
    simp only [wstep]
    split
    · simpa using h
    · next n e =>
      have hw := h.window
      refine ⟨h.toBytes.send n _, ?_, h.blocked⟩
      simp [List.sum_append]; omega
  | read =>
    have hwin : (Flow.read w s.toSt).window = s.window := by unfold Flow.read; split <;> rfl
    refine ⟨by simpa [wstep] using h.toBytes.read hs, by simpa [wstep, hwin] using h.window, fun hb => ?_⟩
    simpa [wstep, hwin] using h.blocked hb
  | deliver =>
    simp only [wstep]
    split
    · simpa using h
    · next f fs e =>
      have hw := h.window
      by_cases hp : s.window + f > 0
      · simp only [increase, hp, decide_true, if_true]
        exact ⟨h.toBytes.deliver e _, by simp; omega, by simp⟩
      · simp only [increase, hp, decide_false, Bool.false_eq_true, if_false]
        exact ⟨h.toBytes.deliver e _, by simp; omega, fun _ => by simp at hp ⊢; omega⟩

theorem WInv.init (w : Nat) : WInv w (winit w) [] :=
  ⟨⟨rfl, Nat.zero_le _, by simp [winit, Flow.init]⟩, by simp [winit, Flow.init], by simp [winit]⟩

theorem wrun_trace (w : Nat) (as : List WAct) : ∀ s tr, tr <+: (wrun w s tr as).2 := by
  induction as with
  | nil => intro s tr; exact List.prefix_refl _
  | cons a as ih => intro s tr; exact (List.prefix_append _ _).trans (ih _ _)

theorem WInv.run {w : Nat} (as : List WAct) : ∀ {s tr}, WInv w s tr → SizesOk w (wrun w s tr as).2 →
    WInv w (wrun w s tr as).1 (wrun w s tr as).2 := by
  induction as with
  | nil => intro s tr h _; exact h
  | cons a as ih =>
    intro s tr h hs
    refine ih (h.step a ?_) hs
    obtain ⟨t, ht⟩ := wrun_trace w as (Flow.wstep w s a).1 (tr ++ (Flow.wstep w s a).2)
    rw [Flow.wrun, ← ht] at hs
    exact hs.of_append.of_append

/-- **C27.** `Write` does not deadlock: when everything sent has been read and all feedback has arrived, no writer is
waiting for the window. -/
theorem C27_write_no_deadlock (h0 : 0 < w) (as : List WAct) (hs : SizesOk w (wrun w (winit w) [] as).2)
    (hd : (wrun w (winit w) [] as).1.data = []) (hf : (wrun w (winit w) [] as).1.feedback = []) :
    (wrun w (winit w) [] as).1.blocked = [] := by
  have h := (WInv.init w).run as hs
  have hb := h.toBytes.bytes
  have hc := h.toBytes.cons
  have hw := h.window
  rw [hd, hf] at hb
  simp only [List.sum_nil] at hb
  by_cases e : (wrun w (winit w) [] as).1.blocked = []
  · exact e
  · have := h.blocked e; omega

/-- Non-vacuity: a writer waits and is woken up. -/
example : (wrun 8 (winit 8) [] [.write 9, .write 3, .read, .deliver, .resume 0]).2 = [.sent 9, .fedBack 9, .sent 3] ∧
    (wrun 8 (winit 8) [] [.write 9, .write 3]).1.blocked = [3] := by decide +kernel

/-! #### What goes wrong -/

theorem wrun_append (s : WSt) (tr : List Ev) (a b : List WAct) :
    wrun w s tr (a ++ b) = wrun w (wrun w s tr a).1 (wrun w s tr a).2 b := by
  induction a generalizing s tr with
  | nil => rfl
  | cons x a ih => exact ih _ _

theorem run_writes (m k : Nat) : ∀ (d : List Nat) (tr : List Ev),
    wrun w ⟨⟨(k * (m + 1) : Nat) - 1, d, 0, []⟩, [], []⟩ tr (List.replicate k (.write (m + 1))) =
      (⟨⟨-1, d ++ List.replicate k (m + 1), 0, []⟩, [], []⟩, tr ++ List.replicate k (.sent (m + 1))) := by
  induction k with
  | zero => intro d tr; simp [wrun]
  | succ k ih =>
    intro d tr
    have h1 : ¬ ((((k + 1) * (m + 1) : Nat) : Int) - 1 < 0) := by
      have : 1 ≤ (k + 1) * (m + 1) := Nat.mul_pos (by omega) (by omega)
      omega
    have h2 : (((k + 1) * (m + 1) : Nat) : Int) - 1 - (m + 1 : Nat) = (k * (m + 1) : Nat) - 1 := by
      rw [Nat.succ_mul]; omega
    simp only [List.replicate_succ, wrun, wstep, decrease, h1, if_false, if_true, h2]
    rw [ih]; simp

theorem run_reads (m k : Nat) (hm : m + 1 < 2 ^ 32) (hw : w ≤ m) : ∀ (x : Int) (f b : List Nat) (tr : List Ev),
    wrun w ⟨⟨x, List.replicate k (m + 1), 0, f⟩, b, []⟩ tr (List.replicate k .read) =
      (⟨⟨x, [], 0, f ++ List.replicate k (m + 1)⟩, b, []⟩, tr) := by
  induction k with
  | zero => intro x f b tr; simp [wrun]
  | succ k ih =>
    intro x f b tr
    have h3 : (0 + (m + 1)) % 2 ^ 32 = m + 1 := by rw [Nat.zero_add]; exact Nat.mod_eq_of_lt hm
    have h5 : m + 1 > w / 4 := by omega
    have h6 : m + 1 ≠ 0 := by omega
    simp only [List.replicate_succ, wrun, wstep, Flow.read, updateConsume, h3, h5, if_true, h6, ne_eq,
      not_false_eq_true, List.append_nil]
    rw [ih]; simp

theorem run_delivers (m k : Nat) : ∀ (x : Int) (b : List Nat) (tr : List Ev), 0 ≤ x →
    wrun w ⟨⟨x, [], 0, List.replicate k (m + 1)⟩, [], b⟩ tr (List.replicate k .deliver) =
      (⟨⟨x + (k * (m + 1) : Nat), [], 0, []⟩, [], b⟩, tr ++ List.replicate k (.fedBack (m + 1))) := by
  induction k with
  | zero => intro x b tr _; simp [wrun]
  | succ k ih =>
    intro x b tr hx
    have h1 : x + (m + 1 : Nat) > 0 := by omega
    have h2 : x + (m + 1 : Nat) + (k * (m + 1) : Nat) = x + ((k + 1) * (m + 1) : Nat) := by
      rw [Nat.succ_mul]; omega
    simp only [List.replicate_succ, wrun, wstep, increase, h1, decide_true, if_true, List.append_nil]
    rw [ih _ _ _ (by omega), h2]; simp

/-- A round: exhaust the window, let a writer wait, acknowledge everything, let the writer continue, and acknowledge
its message as well. -/
def round (m k : Nat) : List WAct :=
  List.replicate k (.write (m + 1)) ++ (.write (m + 1) :: (List.replicate k .read ++
    (List.replicate k .deliver ++ [.resume 0, .read, .deliver])))

theorem round_grows (m k : Nat) (hm : m + 1 < 2 ^ 32) (hm0 : 0 < m) (hw : w ≤ m) (tr : List Ev) :
    ∃ tr', wrun w ⟨⟨((k + 1) * (m + 1) : Nat) - 1, [], 0, []⟩, [], []⟩ tr (round m (k + 1)) =
        (⟨⟨((k + 2) * (m + 1) : Nat) - 1, [], 0, []⟩, [], []⟩, tr ++ tr') ∧
      (∀ n ∈ sent tr', n = m + 1) ∧ (sent tr').sum = fedBack tr' := by
  have h0 : (-1 : Int) < 0 := by omega
  have h1 : (-1 : Int) + (m + 1 : Nat) > 0 := by omega
  have h3 : (0 + (m + 1)) % 2 ^ 32 = m + 1 := by rw [Nat.zero_add]; exact Nat.mod_eq_of_lt hm
  have h5 : m + 1 > w / 4 := by omega
  have h6 : m + 1 ≠ 0 := by omega
  have h8 : (-1 : Int) + (m + 1 : Nat) + (k * (m + 1) : Nat) + (m + 1 : Nat) = ((k + 2) * (m + 1) : Nat) - 1 := by
    rw [Nat.add_mul k 2]; omega
  have h7 : (((k + 2) * (m + 1) : Nat) : Int) - 1 > 0 := by omega
  have hsum : ∀ j, (List.replicate j (m + 1)).sum = j * (m + 1) := by simp
  have hs1 : ∀ j, sent (List.replicate j (.sent (m + 1))) = List.replicate j (m + 1) := by
    intro j; induction j with
    | zero => rfl
    | succ j ih => rw [List.replicate_succ, List.replicate_succ, ← ih]; rfl
  have hs2 : ∀ j, sent (List.replicate j (.fedBack (m + 1))) = [] := by
    intro j; induction j with
    | zero => rfl
    | succ j ih => rw [List.replicate_succ, ← ih]; rfl
  have hf1 : ∀ j, fedBack (List.replicate j (.sent (m + 1))) = 0 := by
    intro j; induction j with
    | zero => rfl
    | succ j ih => rw [List.replicate_succ, ← ih]; rfl
  have hf2 : ∀ j, fedBack (List.replicate j (.fedBack (m + 1))) = j * (m + 1) := by
    intro j; induction j with
    | zero => simp
    | succ j ih =>
      rw [List.replicate_succ, ← List.singleton_append, fedBack_append, ih, fedBack_fedBack, Nat.succ_mul]; omega
  refine ⟨List.replicate (k + 1) (.sent (m + 1)) ++ ([.fedBack (m + 1)] ++ (List.replicate k (.fedBack (m + 1)) ++
    ([.sent (m + 1)] ++ [.fedBack (m + 1)]))), ?_, ?_, ?_⟩
  · rw [round, wrun_append, run_writes]
    simp only [wrun, wstep, decrease, h0, if_true, Bool.false_eq_true, if_false, List.nil_append, List.append_nil]
    rw [wrun_append, run_reads w m (k + 1) hm hw, wrun_append, List.replicate_succ (a := WAct.deliver)]
    simp only [List.nil_append, List.replicate_succ (n := k) (a := m + 1), wrun, wstep, increase, h1, decide_true,
      if_true]
    rw [run_delivers w m k _ _ _ (by omega)]
    simp only [List.getElem?_cons_zero, List.nil_append, List.eraseIdx_cons_zero, Flow.read, updateConsume, h3, h5,
      if_true, ne_eq, h6, not_false_eq_true, h7, decide_true, List.append_nil, List.append_assoc, h8]
  · intro n hn
    simp only [sent_append, hs1, hs2, sent_sent, sent_fedBack, List.mem_append, List.mem_replicate, List.mem_cons,
      List.not_mem_nil, or_false, false_or] at hn
    omega
  · simp only [sent_append, fedBack_append, hs1, hs2, hf1, hf2, sent_sent, sent_fedBack, fedBack_sent,
      fedBack_fedBack, List.sum_append, hsum, List.sum_nil, List.sum_cons]
    rw [Nat.succ_mul]; omega

/-- **C41 fails.** `Write` sends the message of a writer that had to wait without charging it to the window, but the
receiver acknowledges it, so the window grows by one message each time: for every `k` there is an execution, with
messages one byte larger than the window, after which everything is acknowledged and `k + 1` further messages are sent
at once. -/
theorem C41_window_grows (k : Nat) (h0 : 0 < w) (hw : w + 1 < 2 ^ 32) :
    ∃ as, (∀ n ∈ sent (wrun w (winit w) [] as).2, n = w + 1) ∧
      outstanding (wrun w (winit w) [] as).2 = (k + 1) * (w + 1) := by
  have key : ∃ as tr, wrun w (winit w) [] as = (⟨⟨((k + 1) * (w + 1) : Nat) - 1, [], 0, []⟩, [], []⟩, tr) ∧
      (∀ n ∈ sent tr, n = w + 1) ∧ (sent tr).sum = fedBack tr := by
    induction k with
    | zero => exact ⟨[], [], by simp [wrun, winit, init], by simp, by simp⟩
    | succ k ih =>
      obtain ⟨as, tr, e, hn, hb⟩ := ih
      obtain ⟨tr', e', hn', hb'⟩ := round_grows w w k hw h0 (Nat.le_refl _) tr
      refine ⟨as ++ round w (k + 1), tr ++ tr', by rw [wrun_append, e]; exact e', ?_, ?_⟩
      · intro n h; rw [sent_append, List.mem_append] at h
        exact h.elim (hn n) (hn' n)
      · rw [sent_append, fedBack_append, List.sum_append, hb, hb']
  obtain ⟨as, tr, e, hn, hb⟩ := key
  have hs1 : ∀ j, sent (List.replicate j (.sent (w + 1))) = List.replicate j (w + 1) := by
    intro j; induction j with
    | zero => rfl
    | succ j ih => rw [List.replicate_succ, List.replicate_succ, ← ih]; rfl
  have hf1 : ∀ j, fedBack (List.replicate j (.sent (w + 1))) = 0 := by
    intro j; induction j with
    | zero => rfl
    | succ j ih => rw [List.replicate_succ, ← ih]; rfl
  refine ⟨as ++ List.replicate (k + 1) (.write (w + 1)), ?_, ?_⟩
  · rw [wrun_append, e, run_writes]
    intro n h
    simp only [sent_append, hs1, List.mem_append, List.mem_replicate] at h
    exact h.elim (hn n) (·.2)
  · rw [wrun_append, e, run_writes]
    simp only [outstanding, sent_append, fedBack_append, hs1, hf1, List.sum_append, hb]
    simp

/-- **C41 holds in part.** As long as no writer has had to wait, the bound of C27 holds for `Write`. -/
structure NInv (w : Nat) (s : WSt) (tr : List Ev) : Prop where
  window : s.window = w + fedBack tr - (sent tr).sum
  last : 0 ≤ s.window + lastSent tr
  blocked : s.blocked = []
  woken : s.woken = []

theorem NInv.step {w : Nat} {s : WSt} {tr : List Ev} (h : NInv w s tr) (a : WAct)
    (hb : (wstep w s a).1.blocked = []) : NInv w (wstep w s a).1 (tr ++ (wstep w s a).2) := by
  obtain ⟨hw, hl, hbl, hwo⟩ := h
  cases a with
  | write n =>
    simp only [wstep, decrease] at hb ⊢
    by_cases hlt : s.window < 0
    · simp [hlt] at hb
    · simp only [hlt, if_false, if_true]
      exact ⟨by simp [List.sum_append]; omega, by simp [lastSent]; omega, hbl, hwo⟩
  | resume i => simp only [wstep, hwo]; simpa using ⟨hw, hl, hbl, hwo⟩
  | read =>
    have hwin : (Flow.read w s.toSt).window = s.window := by unfold Flow.read; split <;> rfl
    exact ⟨by simpa [wstep, hwin] using hw, by simpa [wstep, hwin] using hl, hbl, hwo⟩
  | deliver =>
    simp only [wstep]
    split
    · simpa using ⟨hw, hl, hbl, hwo⟩
    · next f fs e =>
      split
      · exact ⟨by simp [increase]; omega, by simp [increase, lastSent] at hl ⊢; omega, rfl, by simp [hbl, hwo]⟩
      · exact ⟨by simp [increase]; omega, by simp [increase, lastSent] at hl ⊢; omega, hbl, hwo⟩

theorem C41_bounded_partial (as : List WAct)
    (hb : ∀ k, (wrun w (winit w) [] (as.take k)).1.blocked = []) :
    outstanding (wrun w (winit w) [] as).2 ≤ w + lastSent (wrun w (winit w) [] as).2 := by
  have key : ∀ (as : List WAct) (s : WSt) (tr : List Ev), NInv w s tr →
      (∀ k, (wrun w s tr (as.take k)).1.blocked = []) → NInv w (wrun w s tr as).1 (wrun w s tr as).2 := by
    intro as
    induction as with
    | nil => intro s tr h _; exact h
    | cons a as ih =>
      intro s tr h hb
      refine ih _ _ (h.step a ?_) fun k => ?_
      · simpa [wrun] using hb 1
      · simpa [wrun] using hb (k + 1)
  have h := key as (winit w) [] ⟨by simp [winit, init], by simp [winit, init, lastSent], rfl, rfl⟩ hb
  have h1 := h.window
  have h2 := h.last
  unfold outstanding; omega

/-- Non-vacuity. -/
example : ∀ k, k ≤ 4 → (wrun 8 (winit 8) [] (([.write 5, .write 4, .read, .deliver] : List WAct).take k)).1.blocked
    = [] := by decide +kernel

end Verif.Stream.Flow
