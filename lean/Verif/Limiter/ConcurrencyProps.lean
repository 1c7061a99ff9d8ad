import Verif.Limiter.ConcurrencyModel
/-!
# Property C14: the concurrency limiter
-/

namespace Verif.Limiter.Concurrency

/-- Reachable states in which at no time 2³² contexts exist (the counter has 32 bits). -/
inductive Reach (maxC : UInt32) : Conf → Prop
  | init : Reach maxC init
  | step {c c' : Conf} (a : Act) : Reach maxC c → step maxC c a = some c' → c'.live.length < 2 ^ 32 →
      Reach maxC c'

/-- Admitted requests whose contexts still exist. -/
def inFlight (c : Conf) : Nat := (c.live.filter (fun x => x.verdict == .admitted)).length

/-! ## Lemmas -/

def NodupIds (l : List Ctx) : Prop := l.Pairwise (fun a b => a.id ≠ b.id)

theorem map_nodup {l : List Ctx} (h : NodupIds l) (id : Nat) (v : Verdict) :
    NodupIds (l.map (fun x => if x.id == id then ⟨id, v⟩ else x)) := by
  unfold NodupIds at *
  rw [List.pairwise_map]
  refine h.imp ?_
  intro a b hab
  by_cases h1 : a.id = id <;> by_cases h2 : b.id = id <;> simp [h1, h2]
  · exact hab (h1.trans h2.symm)
  · exact fun e => h2 e.symm
  · exact hab

theorem filter_one {l : List Ctx} (h : NodupIds l) (id : Nat) (ha : l.any (·.id == id) = true) :
    (l.filter (fun x => !(x.id == id))).length + 1 = l.length := by
  induction l with
  | nil => simp at ha
  | cons x xs ih =>
    have hx := List.pairwise_cons.1 h
    by_cases e : x.id = id
    · have : xs.filter (fun x => !(x.id == id)) = xs := by
        rw [List.filter_eq_self]
        intro y hy
        have := hx.1 y hy
        simp only [Bool.not_eq_true', beq_eq_false_iff_ne]
        intro e'; exact this (e.trans e'.symm)
      simp [e, this]
    · have hb : (x.id == id) = false := by simpa using e
      simp only [List.any_cons, hb, Bool.false_or] at ha
      have := ih hx.2 ha
      simp only [List.filter_cons, hb, Bool.not_false, if_true, List.length_cons]
      omega

structure Inv (maxC : UInt32) (c : Conf) : Prop where
  nodup : NodupIds c.live
  size : c.live.length < 2 ^ 32
  counter : c.counter.toNat = c.live.length
  bound : inFlight c ≤ maxC.toNat

theorem inFlight_le_length (c : Conf) : inFlight c ≤ c.live.length := List.length_filter_le _ _

theorem Reach.inv {maxC : UInt32} {c : Conf} (h : Reach maxC c) : Inv maxC c := by
  induction h with
  | init => exact ⟨List.Pairwise.nil, by simp [Concurrency.init], rfl, by simp [inFlight, Concurrency.init]⟩
  | @step c c' a _ hs hlen ih =>
    cases a with
    | create id =>
      simp only [Concurrency.step] at hs
      split at hs
      · cases hs
      · next hf =>
        simp only [Option.some.injEq] at hs; subst hs
        refine ⟨?_, hlen, ?_, ?_⟩
        · refine List.pairwise_cons.2 ⟨fun y hy e => ?_, ih.nodup⟩
          exact hf (List.any_eq_true.2 ⟨y, hy, by simpa using e.symm⟩)
        · have h1 : c.live.length + 1 < 2 ^ 32 := by simpa using hlen
          show (c.counter + 1).toNat = c.live.length + 1
          rw [UInt32.toNat_add, ih.counter]
          exact Nat.mod_eq_of_lt h1
        · have := ih.bound; unfold inFlight at this ⊢; simpa using this
    | filter id ok =>
      simp only [Concurrency.step] at hs
      split at hs
      · next hf =>
        simp only [Option.some.injEq] at hs; subst hs
        refine ⟨map_nodup ih.nodup _ _, hlen, by simpa using ih.counter, ?_⟩
        by_cases hv : verdict maxC c.counter ok = .admitted
        · refine Nat.le_trans (inFlight_le_length _) ?_
          simp only [List.length_map]
          rw [← ih.counter]
          unfold verdict at hv
          split at hv
          · cases hv
          · split at hv
            · next h => exact UInt32.le_iff_toNat_le.1 h
            · cases hv
        · refine Nat.le_trans ?_ ih.bound
          unfold inFlight
          simp only
          have key : ∀ l : List Ctx,
              ((l.map (fun x => if x.id == id then ⟨id, verdict maxC c.counter ok⟩ else x)).filter
                (fun x => x.verdict == .admitted)).length ≤
              (l.filter (fun x => x.verdict == .admitted)).length := by
            intro l
            induction l with
            | nil => simp
            | cons x xs ihx =>
              have hb : (verdict maxC c.counter ok == Verdict.admitted) = false := by simpa using hv
              by_cases e : x.id = id
              · simp only [List.map_cons, e, beq_self_eq_true, if_true, List.filter_cons, hb,
                  Bool.false_eq_true, if_false]
                split
                · simp only [List.length_cons]; exact Nat.le_succ_of_le ihx
                · exact ihx
              · have he : (x.id == id) = false := by simpa using e
                simp only [List.map_cons, he, List.filter_cons, Bool.false_eq_true, if_false]
                split
                · simp only [List.length_cons]; exact Nat.succ_le_succ ihx
                · exact ihx
          exact key c.live
      · cases hs
    | destroy id =>
      simp only [Concurrency.step] at hs
      split at hs
      · next hf =>
        simp only [Option.some.injEq] at hs; subst hs
        have hl := filter_one ih.nodup id hf
        refine ⟨List.Pairwise.filter _ ih.nodup, hlen, ?_, ?_⟩
        · show (c.counter - 1).toNat = (c.live.filter (fun x => !(x.id == id))).length
          have h1 : (1 : UInt32) ≤ c.counter := by
            rw [UInt32.le_iff_toNat_le, ih.counter]
            have : (1 : UInt32).toNat = 1 := rfl
            omega
          rw [UInt32.toNat_sub_of_le _ _ h1, ih.counter]
          have : (1 : UInt32).toNat = 1 := rfl
          omega
        · refine Nat.le_trans ?_ ih.bound
          unfold inFlight
          simp only [List.filter_filter]
          rw [← List.countP_eq_length_filter, ← List.countP_eq_length_filter]
          apply List.countP_mono_left
          intro x _ hx
          simp only [Bool.and_eq_true] at hx
          exact hx.1
      · cases hs

/-! ## Properties -/

/-- **C14, bound.**  In every interleaving of creations, filter runs and completions at most
`max_concurrency` admitted requests are in flight. -/
theorem C14_in_flight_bounded (maxC : UInt32) (c : Conf) (h : Reach maxC c) : inFlight c ≤ maxC.toNat :=
  h.inv.bound

/-- **C14, decisions.**  A request whose status is OK is admitted iff the number of requests not yet finished
(itself included) does not exceed the limit; it is rejected otherwise.  Nothing else about the history
matters. -/
theorem C14_decision (maxC : UInt32) (c c' : Conf) (h : Reach maxC c) (id : Nat)
    (hs : step maxC c (.filter id true) = some c') :
    (c.live.length ≤ maxC.toNat ∧ ⟨id, .admitted⟩ ∈ c'.live ∨
     maxC.toNat < c.live.length ∧ ⟨id, .rejected⟩ ∈ c'.live) ∧
    c'.live.map (·.id) = c.live.map (·.id) ∧
    ∀ x ∈ c.live, x.id ≠ id → x ∈ c'.live := by
  have I := h.inv
  simp only [step] at hs
  split at hs
  · next hf =>
    simp only [Option.some.injEq] at hs; subst hs
    obtain ⟨x, hx, hx'⟩ := List.any_eq_true.1 hf
    simp only [Bool.and_eq_true, beq_iff_eq] at hx'
    have hm : ∀ v, (⟨id, v⟩ : Ctx) ∈ c.live.map (fun x => if x.id == id then ⟨id, v⟩ else x) := by
      intro v
      exact List.mem_map.2 ⟨x, hx, by simp [hx'.1]⟩
    refine ⟨?_, ?_, ?_⟩
    · unfold verdict
      simp only [Bool.not_true, Bool.false_eq_true, if_false]
      by_cases hc : c.counter ≤ maxC
      · left
        refine ⟨by rw [← I.counter]; exact UInt32.le_iff_toNat_le.1 hc, ?_⟩
        simp only [hc, if_true]; exact hm _
      · right
        refine ⟨by rw [← I.counter]; rw [UInt32.le_iff_toNat_le] at hc; omega, ?_⟩
        simp only [hc, if_false]; exact hm _
    · simp only [List.map_map]
      apply List.map_congr_left
      intro y _
      by_cases e : y.id = id <;> simp [Function.comp, e]
    · intro y hy hne
      exact List.mem_map.2 ⟨y, hy, by simp [hne]⟩
  · cases hs

/-- **C14, requests that already carry an error** are neither admitted nor rejected by the filter. -/
theorem C14_skip_on_error (maxC : UInt32) (c c' : Conf) (id : Nat)
    (hs : step maxC c (.filter id false) = some c') : ⟨id, .skipped⟩ ∈ c'.live := by
  simp only [step] at hs
  split at hs
  · next hf =>
    simp only [Option.some.injEq] at hs; subst hs
    obtain ⟨x, hx, hx'⟩ := List.any_eq_true.1 hf
    simp only [Bool.and_eq_true, beq_iff_eq] at hx'
    exact List.mem_map.2 ⟨x, hx, by simp [hx'.1, verdict]⟩
  · cases hs

/-! Non-vacuity: limit 1; request 1 admitted, 2 rejected while both exist, 3 admitted after both ended. -/

def exActs : List Act :=
  [.create 1, .filter 1 true, .create 2, .filter 2 true, .destroy 1, .destroy 2, .create 3, .filter 3 true]

def runActs (maxC : UInt32) : Conf → List Act → Option Conf
  | c, [] => some c
  | c, a :: as => (step maxC c a).bind (fun c' => if c'.live.length < 2 ^ 32 then runActs maxC c' as else none)

theorem Reach.run {maxC : UInt32} (as : List Act) {c c' : Conf} (h : Reach maxC c)
    (hr : runActs maxC c as = some c') : Reach maxC c' := by
  induction as generalizing c with
  | nil => simp [runActs] at hr; subst hr; exact h
  | cons a as ih =>
    rw [runActs] at hr
    obtain ⟨d, hd, hr⟩ := Option.bind_eq_some_iff.1 hr
    split at hr
    · next hl => exact ih (Reach.step a h hd hl) hr
    · cases hr

example : ∃ c, Reach 1 c ∧ c.live = [⟨2, .rejected⟩, ⟨1, .admitted⟩] := by
  have h : (runActs 1 init (exActs.take 4)).map (·.live) = some [⟨2, .rejected⟩, ⟨1, .admitted⟩] := by
    decide
  obtain ⟨c, hc, hl⟩ := Option.map_eq_some_iff.1 h
  exact ⟨c, Reach.init.run _ hc, hl⟩

example : ∃ c, Reach 1 c ∧ c.live = [⟨3, .admitted⟩] := by
  have h : (runActs 1 init exActs).map (·.live) = some [⟨3, .admitted⟩] := by decide
  obtain ⟨c, hc, hl⟩ := Option.map_eq_some_iff.1 h
  exact ⟨c, Reach.init.run _ hc, hl⟩

end Verif.Limiter.Concurrency
