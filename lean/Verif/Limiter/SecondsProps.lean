import Verif.Limiter.SecondsLemmas
/-!
# Property C11: the per-second limiter
-/

namespace Verif.Limiter.Seconds

/-- Executions from a fresh limiter in which no call is suspended for a whole turn of the ring: at every
moment each running call carries a second less than `w` seconds old. -/
inductive PromptExec (w : Nat) (limit : Int) (ms : Nat) : Conf → Prop
  | init : PromptExec w limit ms (init ms)
  | step {c c' : Conf} (a : Act) : PromptExec w limit ms c → Prompt w c → step w limit c a = some c' →
      PromptExec w limit ms c'

theorem PromptExec.inv {w : Nat} {limit : Int} {ms : Nat} {c : Conf} (h : PromptExec w limit ms c) :
    Inv w limit c := by
  induction h with
  | init => exact inv_init w limit ms
  | step a _ hp hs ih => exact inv_step ih hp hs

/-- **C11.**  In every interleaving of any number of threads (none delayed for a full turn of the ring):
a request carrying second `s` is admitted iff fewer than `limit` requests carrying `s` were decided
before it.  So exactly the first `limit` are admitted, whatever the ring contained before. -/
theorem C11_admits_first_limit (w : Nat) (limit : Int) (ms : Nat) (c : Conf)
    (h : PromptExec w limit ms c) (pre post : List Decision) (d : Decision)
    (hl : c.log = pre ++ d :: post) :
    d.admitted = true ↔ ((pre.filter (fun e => e.second == d.second)).length : Int) < limit :=
  h.inv.logOK pre d post hl

theorem admitted_bound {limit : Int} (h0 : 0 ≤ limit) {n : Nat} (l : List Decision) (h : LogOK limit l) :
    ((l.filter (fun d => d.second == n && d.admitted)).length : Int) = min (cnt l n : Int) limit := by
  induction hk : l.length generalizing l with
  | zero =>
    rw [List.length_eq_zero_iff] at hk; subst hk
    simp [cnt]; omega
  | succ k ih =>
    rcases List.eq_nil_or_concat l with h' | ⟨l', x, h'⟩
    · subst h'; simp at hk
    · rw [List.concat_eq_append] at h'
      subst h'
      have hl' : LogOK limit l' := by
        intro pre d post e
        exact h pre d (post ++ [x]) (by rw [e]; simp)
      have := ih l' hl' (by simpa using hk)
      have hx := h l' x [] rfl
      rw [cnt_append, List.filter_append, List.length_append]
      by_cases e : x.second = n
      · subst e
        by_cases a : x.admitted = true
        · have := hx.1 a
          simp [a] ; omega
        · have : ¬ ((cnt l' x.second : Int) < limit) := fun q => a (hx.2 q)
          simp [a]; omega
      · simp [e]; omega

/-- **C11, total per second.**  Of the requests carrying second `n`, exactly `min (number, limit)` are
admitted. -/
theorem C11_admitted_count (w : Nat) (limit : Int) (h0 : 0 ≤ limit) (ms : Nat) (c : Conf)
    (h : PromptExec w limit ms c) (n : Nat) :
    ((c.log.filter (fun d => d.second == n && d.admitted)).length : Int) =
      min ((c.log.filter (fun d => d.second == n)).length : Int) limit :=
  admitted_bound h0 c.log h.inv.logOK

/-- **C11, the reported counter.**  While no call is running, `GetCurrCounter` is the number of requests
decided in the current second (also when the bucket still holds a former second). -/
theorem C11_current_counter (w : Nat) (limit : Int) (ms : Nat) (c : Conf)
    (h : PromptExec w limit ms c) (hq : ∀ t, c.pc t = .idle) :
    getCurrCounter w c = (c.log.filter (fun d => d.second == c.clockMs / 1000)).length := by
  have I := h.inv
  unfold getCurrCounter
  by_cases e : (c.bucket (c.clockMs / 1000 % w)).ts = c.clockMs / 1000
  · simp only [e, ne_eq, not_true_eq_false, if_false]
    have := I.count (c.clockMs / 1000 % w) (by rw [e]) (fun t n h => by rw [hq t] at h; cases h)
    rw [e] at this
    exact this
  · simp only [e, ne_eq, not_false_eq_true, if_true]
    rcases Nat.eq_zero_or_pos (cnt c.log (c.clockMs / 1000)) with h | h
    · exact h.symm
    · have h1 := (I.logLe _ h).2
      have h2 := I.tsLe (c.clockMs / 1000 % w)
      exact absurd (Nat.le_antisymm h2 h1) e

/-! Non-vacuity: two threads, ring of two buckets, limit 1; in second 5 the first request is admitted
and the second rejected; in second 7 (same bucket) a request is admitted again. -/

def exRun : List Act :=
  [.thread 1, .thread 2, .thread 1, .thread 2, .thread 1, .thread 1, .thread 1, .thread 1, .thread 1,
   .thread 1, .thread 2, .thread 2, .thread 2, .thread 2, .tick 2000,
   .thread 1, .thread 1, .thread 1, .thread 1, .thread 1, .thread 1, .thread 1, .thread 1]

/-- The action is by one of the threads `ts`. -/
def Act.within (ts : List Nat) : Act → Bool
  | .thread t => ts.contains t
  | .tick _ => true

/-- Run a schedule of the threads `ts`, refusing it when a call lags behind. -/
def runPrompt (w : Nat) (limit : Int) (ts : List Nat) (c : Conf) : List Act → Option Conf
  | [] => some c
  | a :: as =>
    if ts.all (fun t => ((c.pc t).second.all (fun n => decide (c.clockMs / 1000 < n + w)))) &&
        a.within ts then
      (Seconds.step w limit c a).bind (fun c' => runPrompt w limit ts c' as)
    else none

theorem idle_step {w : Nat} {limit : Int} {c c' : Conf} {t t' : Nat} (h : threadStep w limit c t = some c')
    (hne : t' ≠ t) : c'.pc t' = c.pc t' := by
  unfold threadStep at h
  split at h
  all_goals first
    | (simp only [Option.some.injEq] at h; subst h; simp only [upd_ne _ _ hne])
    | (split at h
       · simp only [Option.some.injEq] at h; subst h; simp only [upd_ne _ _ hne]
       · cases h)

theorem PromptExec.of_runPrompt {w : Nat} {limit : Int} {ms : Nat} {ts : List Nat} (acts : List Act)
    {c c' : Conf} (h : PromptExec w limit ms c) (hi : ∀ t, t ∉ ts → c.pc t = .idle)
    (hr : runPrompt w limit ts c acts = some c') : PromptExec w limit ms c' := by
  induction acts generalizing c with
  | nil => simp [runPrompt] at hr; subst hr; exact h
  | cons a as ih =>
    rw [runPrompt] at hr
    split at hr
    · next hc =>
      simp only [Bool.and_eq_true, List.all_eq_true] at hc
      have hp : Prompt w c := by
        intro t n hn
        by_cases ht : t ∈ ts
        · have := hc.1 t ht
          rw [hn] at this
          simpa using this
        · rw [hi t ht] at hn; cases hn
      cases hs : Seconds.step w limit c a with
      | none => rw [hs] at hr; simp at hr
      | some d =>
        rw [hs] at hr
        simp only [Option.bind_some] at hr
        refine ih (PromptExec.step a h hp hs) ?_ hr
        intro t ht
        cases a with
        | tick k => simp only [Seconds.step, Option.some.injEq] at hs; subst hs; exact hi t ht
        | thread t' =>
          have : t ≠ t' := by
            intro e; subst e; simp [Act.within] at hc; exact ht hc.2
          rw [idle_step hs this]; exact hi t ht
    · cases hr

example : ∃ c, PromptExec 2 1 5000 c ∧ c.log = [⟨5, true⟩, ⟨5, false⟩, ⟨7, true⟩] := by
  have h : (runPrompt 2 1 [1, 2] (init 5000) exRun).map (·.log) =
      some [⟨5, true⟩, ⟨5, false⟩, ⟨7, true⟩] := by decide
  obtain ⟨c, hc, hl⟩ := Option.map_eq_some_iff.1 h
  exact ⟨c, PromptExec.of_runPrompt exRun PromptExec.init (fun _ _ => rfl) hc, hl⟩

/-- **C11 needs promptness.**  Ring of one bucket, limit 1: a first request of second 5 is admitted;
a second one enters in second 5 and is suspended before its increment; meanwhile the bucket moves on to
second 6; the suspended request, though the second of its second, is then admitted against the count of
second 6. -/
theorem C11_stale_call_exceeds_limit :
    ∃ acts c, run 1 1 (init 5000) acts = some c ∧
      (c.log.filter (fun d => d.second == 5 && d.admitted)).length = 2 := by
  have h : ((run 1 1 (init 5000) [.thread 1, .thread 1, .thread 1, .thread 1, .thread 1, .thread 1,
      .thread 1, .thread 1, .thread 1, .thread 1, .tick 1000, .thread 2, .thread 2, .thread 2, .thread 2,
      .thread 2, .thread 2, .thread 2, .thread 1]).map
      (fun c => (c.log.filter (fun d => d.second == 5 && d.admitted)).length)) = some 2 := by decide
  obtain ⟨c, hc, hl⟩ := Option.map_eq_some_iff.1 h
  exact ⟨_, c, hc, hl⟩

end Verif.Limiter.Seconds
