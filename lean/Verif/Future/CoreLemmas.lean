import Verif.Future.CoreSpec
/-!
# Invariants of futures
-/

namespace Verif.Future.Core

variable {V E : Type}

def Cont.target : Cont → Option Nat
  | .user _ p => p
  | .chain p => some p

def Fut.slot (f : Fut V E) : Option Cont :=
  match f.cons with
  | .store c => some c
  | .chainR p | .chainV p | .chainF p | .chainE p => some (.chain p)
  | _ => f.callback

def Fut.carry (f : Fut V E) : Option Nat :=
  match f.run with
  | .over => none
  | _ => f.slot.bind Cont.target

/-- The result is there. -/
def Fut.Avail (f : Fut V E) : Prop :=
  (∃ v, f.res = some (.val v) ∧ f.ready = true ∧ f.failed = false ∧ f.value = some v) ∨
  (∃ e, f.res = some (.exc e) ∧ f.failed = true ∧ f.ready = false ∧ f.exc = some e)

def Sched.isV : Sched → Bool
  | .flagV | .takeV => true
  | _ => false

def Sched.isE : Sched → Bool
  | .failed | .flagE | .takeE => true
  | _ => false

def Sched.isTake : Sched → Bool
  | .takeV | .takeE => true
  | _ => false

/-- A thread is in `TrySchedule` at `x`. -/
structure SchedOk (f : Fut V E) (x : Sched) : Prop where
  cb : f.hasCallback = true
  hr : f.hasResult = true
  av : f.Avail
  run : f.run = .none
  v : x.isV = true → f.ready = true
  e : x.isE = true → f.failed = true
  t : f.flag = x.isTake

structure Loc (f : Fut V E) : Prop where
  unborn : f.prod = .unborn → f = Fut.empty V E
  res : f.res = none ↔ f.prod = .unborn ∨ f.prod = .user ∨ f.prod = .held
  early : f.res = none ∨ (∃ r, f.prod = .write r) ∨ (∃ r, f.prod = .mark r) → f.ready = false ∧ f.failed = false
  write : ∀ r, f.prod = .write r → f.res = some r
  mark : ∀ r, f.prod = .mark r → f.res = some r ∧ (∀ v, r = .val v → f.value = some v) ∧ (∀ e, r = .exc e → f.exc = some e)
  hr : f.hasResult = true ↔ f.prod = .done ∨ ∃ x, f.prod = .sched x
  late : f.prod = .lock ∨ f.hasResult = true → f.Avail ∨
    (f.ready = false ∧ f.failed = false ∧ (f.run ≠ .none ∨ (f.cons = .done ∧ f.callback = none)))
  ps : ∀ x, f.prod = .sched x → f.cons = .done ∧ SchedOk f x
  cs : ∀ x, f.cons = .sched x → f.prod = .done ∧ SchedOk f x
  run : f.run ≠ .none → f.prod = .done ∧ f.cons = .done ∧ f.hasCallback = true ∧ f.flag = true
  hc : f.hasCallback = true → (∃ c, f.callback = some c) ∧ (f.cons = .done ∨ ∃ x, f.cons = .sched x)
  lock : f.cons = .lock → (∃ c, f.callback = some c)
  cb : (∃ c, f.callback = some c) → f.cons = .lock ∨ f.hasCallback = true
  sched : f.hasCallback = true → f.prod = .done → f.cons = .done → f.run ≠ .none
  flag : f.flag = true → f.run ≠ .none ∨ (∃ x, f.prod = .sched x) ∨ (∃ x, f.cons = .sched x)
  queued : ∀ c r, f.run = .queued c r → f.callback = some c ∧ f.res = some r
  user : ∀ p, f.run = .user p → ∃ kind r, f.callback = some (.user kind p) ∧ f.res = some r ∧ calls kind r = true
  cv : ∀ p, f.cons = .chainV p → f.ready = true
  ce : ∀ p, f.cons = .chainE p → f.failed = true
  done : f.cons = .done → f.callback = none → f.ready = false ∧ f.failed = false ∧ (f.prod = .lock ∨ f.prod = .done)

theorem Loc.empty : Loc (Fut.empty V E) := by
  constructor <;> simp [Fut.empty]

/-- The parts the rest of the program sees are unchanged. -/
structure Silent (f f' : Fut V E) : Prop where
  res : f'.res = f.res
  slot : f'.slot = f.slot
  held : f'.prod = .held ↔ f.prod = .held
  unborn : f'.prod = .unborn ↔ f.prod = .unborn
  over : f'.run = .over ↔ f.run = .over
  user : ∀ p, f'.run = .user p ↔ f.run = .user p
  free : f'.cons = .free → f.cons = .free

theorem Silent.carry {f f' : Fut V E} (h : Silent f f') : f'.carry = f.carry := by
  have h1 := h.over
  have h2 := h.slot
  unfold Fut.carry
  cases h3 : f.run <;> cases h4 : f'.run <;> simp_all

theorem schedStep_ok {f f' : Fut V E} {x : Sched} {o : Option Sched} (h : SchedOk f x) (hl : Loc f)
    (hs : schedStep f x = some (f', o)) :
    f'.res = f.res ∧ f'.callback = f.callback ∧ f'.prod = f.prod ∧ f'.cons = f.cons ∧ f'.hasCallback = f.hasCallback ∧
    f'.hasResult = f.hasResult ∧
    ((∃ y, o = some y ∧ SchedOk f' y) ∨
     (o = none ∧ f'.flag = true ∧ f'.ready = false ∧ f'.failed = false ∧
      ∃ c r, f'.run = .queued c r ∧ f.callback = some c ∧ f.res = some r)) := by
  obtain ⟨h1, h2, h3, h4, h5, h6, h7⟩ := h
  cases x
  case ready =>
    simp [schedStep] at hs
    obtain ⟨rfl, rfl⟩ := hs
    refine ⟨rfl, rfl, rfl, rfl, rfl, rfl, .inl ⟨_, rfl, ?_⟩⟩
    constructor <;> first | assumption | skip
    · split <;> simp_all [Sched.isV]
    · rcases h3 with ⟨v, e1, e2, e3, e4⟩ | ⟨v, e1, e2, e3, e4⟩ <;> simp_all [Sched.isE]
    · split <;> simp_all [Sched.isTake]
  case failed =>
    simp [schedStep] at hs
    obtain ⟨rfl, rfl⟩ := hs
    have := h6 rfl
    refine ⟨rfl, rfl, rfl, rfl, rfl, rfl, .inl ⟨.flagE, by simp [this], ?_⟩⟩
    constructor <;> simp_all [Sched.isV, Sched.isTake]
  case flagV =>
    simp [schedStep] at hs
    obtain ⟨rfl, rfl⟩ := hs
    have h5 := h5 rfl
    refine ⟨rfl, rfl, rfl, rfl, rfl, rfl, .inl ⟨.takeV, by simp [h7, Sched.isTake], ?_⟩⟩
    constructor <;> simp_all [Sched.isE, Sched.isTake, Fut.Avail]
  case flagE =>
    simp [schedStep] at hs
    obtain ⟨rfl, rfl⟩ := hs
    have h6 := h6 rfl
    refine ⟨rfl, rfl, rfl, rfl, rfl, rfl, .inl ⟨.takeE, by simp [h7, Sched.isTake], ?_⟩⟩
    constructor <;> simp_all [Sched.isV, Sched.isTake, Fut.Avail]
  case takeV =>
    have h5 := h5 rfl
    obtain ⟨⟨c, hc⟩, -⟩ := hl.hc h1
    rcases h3 with ⟨v, e1, e2, e3, e4⟩ | ⟨v, e1, e2, e3, e4⟩
    · simp [schedStep, h4, hc, e4] at hs
      obtain ⟨rfl, rfl⟩ := hs
      simp_all [Sched.isTake]
    · simp_all
  case takeE =>
    have h6 := h6 rfl
    obtain ⟨⟨c, hc⟩, -⟩ := hl.hc h1
    rcases h3 with ⟨v, e1, e2, e3, e4⟩ | ⟨v, e1, e2, e3, e4⟩
    · simp_all
    · simp [schedStep, h4, hc, e4] at hs
      obtain ⟨rfl, rfl⟩ := hs
      simp_all [Sched.isTake]

theorem schedStep_ne_none {f : Fut V E} {x : Sched} (h : SchedOk f x) (hl : Loc f) : schedStep f x ≠ none := by
  obtain ⟨h1, h2, h3, h4, h5, h6, h7⟩ := h
  obtain ⟨⟨c, hc⟩, -⟩ := hl.hc h1
  cases x <;> simp [schedStep]
  · have h5 := h5 rfl
    rcases h3 with ⟨v, e1, e2, e3, e4⟩ | ⟨v, e1, e2, e3, e4⟩
    · simp [h4, hc, e4]
    · simp_all
  · have h6 := h6 rfl
    rcases h3 with ⟨v, e1, e2, e3, e4⟩ | ⟨v, e1, e2, e3, e4⟩
    · simp_all
    · simp [h4, hc, e4]

theorem SchedOk.start {f : Fut V E} (h1 : f.hasCallback = true) (h2 : f.hasResult = true) (h3 : f.Avail)
    (h4 : f.run = .none) (h5 : f.flag = false) : SchedOk f .ready :=
  ⟨h1, h2, h3, h4, by simp [Sched.isV], by simp [Sched.isE], by simp [h5, Sched.isTake]⟩

/-- The consumer has not attached anything. -/
theorem Loc.idle {f : Fut V E} (hl : Loc f) (h1 : f.cons ≠ .done) (h2 : f.cons ≠ .lock) (h3 : ∀ x, f.cons ≠ .sched x) :
    f.hasCallback = false ∧ f.callback = none ∧ f.run = .none ∧ f.flag = false ∧ ∀ x, f.prod ≠ .sched x := by
  have hnc : f.hasCallback = false := by
    cases h : f.hasCallback
    · rfl
    · rcases (hl.hc h).2 with h | ⟨x, h⟩ <;> simp_all
  have hcb : f.callback = none := by
    cases h : f.callback with
    | none => rfl
    | some c => rcases hl.cb ⟨c, h⟩ with h | h <;> simp_all
  have hrun : f.run = .none := by
    by_cases h : f.run = .none
    · exact h
    · have := (hl.run h).2.1
      simp_all
  have hps : ∀ x, f.prod ≠ .sched x := by
    intro x h
    have := (hl.ps x h).1
    simp_all
  refine ⟨hnc, hcb, hrun, ?_, hps⟩
  by_cases h : f.flag = true
  · rcases hl.flag h with a | ⟨x, a⟩ | ⟨x, a⟩
    · exact absurd hrun a
    · exact absurd a (hps x)
    · exact absurd a (h3 x)
  · simpa using h

/-- Where a thread is after a step of `TrySchedule`. -/
def Prod.after : Option Sched → Prod V E
  | none => .done
  | some y => .sched y

def Cons.after : Option Sched → Cons
  | none => .done
  | some y => .sched y

theorem prod_sched_end {f f' : Fut V E} {x : Sched} {o : Option Sched} (hl : Loc f) (hp : f.prod = .sched x)
    (hs : schedStep f x = some (f', o)) :
    Loc { f' with prod := .after o } ∧
    Silent f { f' with prod := .after o } := by
  obtain ⟨hc, hok⟩ := hl.ps x hp
  obtain ⟨a1, a2, a3, a4, a5, a6, a7⟩ := schedStep_ok hok hl hs
  have hcb := hl.hc hok.cb
  obtain ⟨⟨c, hcb⟩, -⟩ := hcb
  rcases a7 with ⟨y, rfl, b⟩ | ⟨rfl, b1, b2, b3, c', r, b4, b5, b6⟩
  · obtain ⟨k1, k2, k3, k4, k5, k6, k7⟩ := b
    refine ⟨?_, ?_⟩
    · constructor <;> simp_all [Fut.Avail, hok.hr, hok.cb, Prod.after, Cons.after]
      · grind
      · grind
      · constructor <;> simp_all [Fut.Avail]
    · constructor <;> simp_all [Fut.slot, hok.run, Prod.after, Cons.after]
  · have hh := hok.hr
    have hh' := hok.cb
    have hh'' := hok.run
    refine ⟨?_, ?_⟩
    · constructor <;> simp_all [Fut.Avail, Prod.after, Cons.after]
      all_goals grind
    · constructor <;> simp_all [Fut.slot, Prod.after, Cons.after]

theorem cons_sched_end {f f' : Fut V E} {x : Sched} {o : Option Sched} (hl : Loc f) (hp : f.cons = .sched x)
    (hs : schedStep f x = some (f', o)) :
    Loc { f' with cons := .after o } ∧
    Silent f { f' with cons := .after o } := by
  obtain ⟨hc, hok⟩ := hl.cs x hp
  obtain ⟨a1, a2, a3, a4, a5, a6, a7⟩ := schedStep_ok hok hl hs
  have hcb := hl.hc hok.cb
  obtain ⟨⟨c, hcb⟩, -⟩ := hcb
  rcases a7 with ⟨y, rfl, b⟩ | ⟨rfl, b1, b2, b3, c', r, b4, b5, b6⟩
  · obtain ⟨k1, k2, k3, k4, k5, k6, k7⟩ := b
    refine ⟨?_, ?_⟩
    · constructor <;> simp_all [Fut.Avail, hok.hr, hok.cb, Prod.after, Cons.after]
      · grind
      · grind
      · constructor <;> simp_all [Fut.Avail]
    · constructor <;> simp_all [Fut.slot, hok.run, Prod.after, Cons.after]
  · have hh := hok.hr
    have hh' := hok.cb
    have hh'' := hok.run
    refine ⟨?_, ?_⟩
    · constructor <;> simp_all [Fut.Avail, Prod.after, Cons.after]
      all_goals grind
    · constructor <;> simp_all [Fut.slot, Prod.after, Cons.after]

theorem prod_write_local {f : Fut V E} {r : Res V E} {f' : Fut V E} (hl : Loc f) (hp : f.prod = .write r)
    (h : (∃ v, r = .val v ∧ f' = { f with value := some v, prod := .mark (.val v) }) ∨
      (∃ e, r = .exc e ∧ f' = { f with exc := some e, prod := .mark (.exc e) })) : Loc f' ∧ Silent f f' := by
  have hw := hl.write r hp
  obtain ⟨h1, h2, h3, h4, h5, h6, h7, h8, h9, h10, h11, h12, h13, h14, h15, h16, h17, h18, h19, h20⟩ := hl
  rcases h with ⟨v, rfl, rfl⟩ | ⟨e, rfl, rfl⟩ <;> refine ⟨?_, ?_⟩
  · constructor <;> simp_all [Fut.Avail] <;> grind
  · constructor <;> simp_all [Fut.slot]
  · constructor <;> simp_all [Fut.Avail] <;> grind
  · constructor <;> simp_all [Fut.slot]

theorem prod_mark_local {f : Fut V E} {r : Res V E} {f' : Fut V E} (hl : Loc f) (hp : f.prod = .mark r)
    (h : (∃ v, r = .val v ∧ f' = { f with ready := true, prod := .lock }) ∨
      (∃ e, r = .exc e ∧ f' = { f with failed := true, prod := .lock })) : Loc f' ∧ Silent f f' := by
  have hw := hl.mark r hp
  obtain ⟨h1, h2, h3, h4, h5, h6, h7, h8, h9, h10, h11, h12, h13, h14, h15, h16, h17, h18, h19, h20⟩ := hl
  rcases h with ⟨v, rfl, rfl⟩ | ⟨e, rfl, rfl⟩ <;> refine ⟨?_, ?_⟩
  · constructor <;> simp_all [Fut.Avail] <;> grind
  · constructor <;> simp_all [Fut.slot]
  · constructor <;> simp_all [Fut.Avail] <;> grind
  · constructor <;> simp_all [Fut.slot]

theorem prod_lock_local {f : Fut V E} (hl : Loc f) (hp : f.prod = .lock) :
    Loc { f with hasResult := true, prod := if f.hasCallback then .sched .ready else .done } ∧
    Silent f { f with hasResult := true, prod := if f.hasCallback then .sched .ready else .done } := by
  have hrun : f.run = .none := by
    by_cases h : f.run = .none
    · exact h
    · have := (hl.run h).1
      simp_all
  have hns : ∀ x, f.cons ≠ .sched x := by
    intro x hx
    have := (hl.cs x hx).1
    simp_all
  have hfl : f.flag = false := by
    by_cases h : f.flag = true
    · rcases hl.flag h with a | ⟨x, a⟩ | ⟨x, a⟩
      · exact absurd hrun a
      · simp_all
      · exact absurd a (hns x)
    · simpa using h
  have hres : f.res ≠ none := by
    intro h
    have := hl.res.1 h
    simp_all
  cases hc : f.hasCallback
  · refine ⟨?_, ?_⟩
    · have hlate := hl.late (.inl hp)
      have hcb := hl.cb
      have hd := hl.done
      have hlk := hl.lock
      have hcv := hl.cv
      have hce := hl.ce
      clear hl
      constructor <;> simp_all [Fut.Avail]
    · constructor <;> simp_all [Fut.slot]
  · obtain ⟨⟨c, hcb⟩, hcons⟩ := hl.hc hc
    have hdone : f.cons = .done := by
      rcases hcons with h | ⟨x, h⟩
      · exact h
      · exact absurd h (hns x)
    have hav : f.Avail := by
      rcases hl.late (.inl hp) with h | ⟨-, -, h⟩
      · exact h
      · simp_all
    refine ⟨?_, ?_⟩
    · clear hl
      constructor <;> simp_all
      all_goals first
        | exact hav
        | exact .inl hav
        | exact SchedOk.start rfl rfl hav rfl rfl
    · constructor <;> simp_all [Fut.slot]

theorem prod_local {s : St V E} {i : Nat} (hl : Loc (s.fut i)) :
    prodStep s i = (s, []) ∨ ∃ f', prodStep s i = (s.put i f', []) ∧ Loc f' ∧ Silent (s.fut i) f' := by
  unfold prodStep
  generalize s.fut i = f at *
  simp only []
  cases hp : f.prod with
  | unborn | user | held | done => simp
  | write r =>
    right
    cases r with
    | val v => exact ⟨_, rfl, prod_write_local hl hp (.inl ⟨v, rfl, rfl⟩)⟩
    | exc e => exact ⟨_, rfl, prod_write_local hl hp (.inr ⟨e, rfl, rfl⟩)⟩
  | mark r =>
    right
    cases r with
    | val v => exact ⟨_, rfl, prod_mark_local hl hp (.inl ⟨v, rfl, rfl⟩)⟩
    | exc e => exact ⟨_, rfl, prod_mark_local hl hp (.inr ⟨e, rfl, rfl⟩)⟩
  | lock => exact .inr ⟨_, rfl, prod_lock_local hl hp⟩
  | sched x =>
    right
    have hx := hl.ps x hp
    rcases hs : schedStep f x with _ | ⟨f', o⟩
    · exact absurd hs (schedStep_ne_none hx.2 hl)
    · have e := prod_sched_end hl hp hs
      cases o with
      | none => exact ⟨_, by simp only [hs]; rfl, e⟩
      | some y => exact ⟨_, by simp only [hs]; rfl, e⟩

/-! The consumer -/

theorem cons_store_local {f : Fut V E} {c : Cont} (hl : Loc f) (hp : f.cons = .store c) :
    Loc { f with callback := some c, cons := .lock } ∧ Silent f { f with callback := some c, cons := .lock } := by
  have hb : f.prod ≠ .unborn := by
    intro h
    have := hl.unborn h
    rw [this] at hp
    simp [Fut.empty] at hp
  obtain ⟨h1, h2, h3, h4, h5, h6, h7, h8, h9, h10, h11, h12, h13, h14, h15, h16, h17, h18, h19, h20⟩ := hl
  refine ⟨?_, ?_⟩
  · constructor <;> simp_all [Fut.Avail] <;> grind
  · constructor <;> simp_all [Fut.slot]

theorem cons_lock_local {f : Fut V E} (hl : Loc f) (hp : f.cons = .lock) :
    Loc { f with hasCallback := true, cons := if f.hasResult then .sched .ready else .done } ∧
    Silent f { f with hasCallback := true, cons := if f.hasResult then .sched .ready else .done } := by
  have hrun : f.run = .none := by
    by_cases h : f.run = .none
    · exact h
    · have := (hl.run h).2.1
      simp_all
  have hns : ∀ x, f.prod ≠ .sched x := by
    intro x hx
    have := (hl.ps x hx).1
    simp_all
  have hfl : f.flag = false := by
    by_cases h : f.flag = true
    · rcases hl.flag h with a | ⟨x, a⟩ | ⟨x, a⟩
      · exact absurd hrun a
      · exact absurd a (hns x)
      · simp_all
    · simpa using h
  have hb : f.prod ≠ .unborn := by
    intro h
    have := hl.unborn h
    rw [this] at hp
    simp [Fut.empty] at hp
  obtain ⟨c, hcb⟩ := hl.lock hp
  cases hc : f.hasResult
  · obtain ⟨h1, h2, h3, h4, h5, h6, h7, h8, h9, h10, h11, h12, h13, h14, h15, h16, h17, h18, h19, h20⟩ := hl
    refine ⟨?_, ?_⟩
    · constructor <;> simp_all [Fut.Avail]
    · constructor <;> simp_all [Fut.slot]
  · have hpd : f.prod = .done := by
      rcases hl.hr.1 hc with h | ⟨x, h⟩
      · exact h
      · exact absurd h (hns x)
    have hav : f.Avail := by
      rcases hl.late (.inr hc) with h | ⟨-, -, h⟩
      · exact h
      · simp_all
    have hres : f.res ≠ none := by
      intro h
      have := hl.res.1 h
      simp_all
    refine ⟨?_, ?_⟩
    · clear hl
      constructor <;> simp_all
      all_goals first
        | exact hav
        | exact .inl hav
        | exact SchedOk.start rfl rfl hav rfl rfl
    · constructor <;> simp_all [Fut.slot]

theorem cons_chain_local {f : Fut V E} {p : Nat} {c : Cons} (hl : Loc f)
    (hp : (f.cons = .chainR p ∧ c = if f.ready then .chainV p else .chainF p) ∨
      (f.cons = .chainF p ∧ c = if f.failed then .chainE p else .store (.chain p))) :
    Loc { f with cons := c } ∧ Silent f { f with cons := c } := by
  have hb : f.prod ≠ .unborn := by
    intro h
    have := hl.unborn h
    rw [this] at hp
    simp [Fut.empty] at hp
  have hc : (∃ p, c = .chainV p ∧ f.ready = true) ∨ (∃ p, c = .chainF p) ∨ (∃ p, c = .chainE p ∧ f.failed = true) ∨
      (∃ p, c = .store (.chain p)) := by
    rcases hp with ⟨-, h⟩ | ⟨-, h⟩
    · cases hr : f.ready <;> simp_all
    · cases hr : f.failed <;> simp_all
  have hs : Silent f { f with cons := c } := by
    rcases hp with ⟨h, rfl⟩ | ⟨h, rfl⟩
    · cases hr : f.ready <;> constructor <;> simp_all [Fut.slot]
    · cases hr : f.failed <;> constructor <;> simp_all [Fut.slot]
  have hcons : f.cons ≠ .done ∧ f.cons ≠ .lock ∧ (∀ x, f.cons ≠ .sched x) := by
    rcases hp with ⟨h, -⟩ | ⟨h, -⟩ <;> simp [h]
  obtain ⟨i1, i2, i3, i4, i5⟩ := hl.idle hcons.1 hcons.2.1 hcons.2.2
  refine ⟨?_, hs⟩
  have hlate : f.prod = .lock ∨ f.hasResult = true → f.Avail := by
    intro h
    rcases hl.late h with h | ⟨-, -, h⟩
    · exact h
    · simp_all
  clear hs hp hcons
  obtain ⟨h1, h2, h3, h4, h5, h6, h7, h8, h9, h10, h11, h12, h13, h14, h15, h16, h17, h18, h19, h20⟩ := hl
  clear h1 h7 h8 h9 h10 h11 h12 h13 h14 h15 h16 h17 h18 h19 h20
  rcases hc with ⟨p, rfl, hr⟩ | ⟨p, rfl⟩ | ⟨p, rfl, hr⟩ | ⟨p, rfl⟩
  all_goals
    refine ⟨fun h => absurd h hb, h2, h3, h4, h5, h6, fun h => .inl (hlate h), fun x h => absurd h (i5 x), ?_, ?_, ?_, ?_,
      ?_, ?_, ?_, ?_, ?_, ?_, ?_, ?_⟩ <;> clear hlate h2 h3 h4 h5 h6 <;> simp_all

/-- Taking the result out of a future without a callback. -/
theorem cons_take_local {f : Fut V E} (hl : Loc f) (hp : f.cons = .free ∨ (∃ p, f.cons = .chainV p) ∨ ∃ p, f.cons = .chainE p)
    {f' : Fut V E} (hf : (f.ready = true ∧ f' = { f with ready := false, value := none, cons := .done }) ∨
      (f.ready = false ∧ f.failed = true ∧ f' = { f with failed := false, cons := .done })) : Loc f' ∧ f'.callback = none := by
  have hcons : f.cons ≠ .done ∧ f.cons ≠ .lock ∧ (∀ x, f.cons ≠ .sched x) := by
    rcases hp with h | ⟨p, h⟩ | ⟨p, h⟩ <;> simp [h]
  have hnc : f.hasCallback = false := by
    cases h : f.hasCallback
    · rfl
    · rcases (hl.hc h).2 with h | ⟨x, h⟩ <;> simp_all
  have hcb : f.callback = none := by
    cases h : f.callback with
    | none => rfl
    | some c => rcases hl.cb ⟨c, h⟩ with h | h <;> simp_all
  have hprod : f.prod = .lock ∨ f.prod = .done := by
    cases h : f.prod with
    | lock => simp
    | done => simp
    | sched x => have := (hl.ps x h).1; simp_all
    | unborn | user | held =>
      have := hl.early (.inl (hl.res.2 (by simp [h])))
      rcases hf with ⟨h, -⟩ | ⟨-, h, -⟩ <;> simp_all
    | write r =>
      have := hl.early (.inr (.inl ⟨r, h⟩))
      rcases hf with ⟨h, -⟩ | ⟨-, h, -⟩ <;> simp_all
    | mark r =>
      have := hl.early (.inr (.inr ⟨r, h⟩))
      rcases hf with ⟨h, -⟩ | ⟨-, h, -⟩ <;> simp_all
  have hrun : f.run = .none := by
    by_cases h : f.run = .none
    · exact h
    · have := (hl.run h).2.1
      simp_all
  have hfl : f.flag = false := by
    by_cases h : f.flag = true
    · rcases hl.flag h with a | ⟨x, a⟩ | ⟨x, a⟩
      · exact absurd hrun a
      · rcases hprod with h | h <;> simp_all
      · exact absurd a (hcons.2.2 x)
    · simpa using h
  have hav : f.Avail := by
    have : f.prod = .lock ∨ f.hasResult = true := by
      rcases hprod with h | h
      · exact .inl h
      · exact .inr (hl.hr.2 (.inl h))
    rcases hl.late this with h | ⟨-, -, h⟩
    · exact h
    · simp_all
  have hres : f.res ≠ none := by
    intro h
    have := hl.res.1 h
    rcases hprod with h | h <;> simp_all
  have hhr := hl.hr
  clear hl
  refine ⟨?_, by rcases hf with ⟨-, rfl⟩ | ⟨-, -, rfl⟩ <;> exact hcb⟩
  rcases hf with ⟨hr, rfl⟩ | ⟨hr, hr', rfl⟩ <;> rcases hprod with hprod | hprod <;>
    rcases hav with ⟨v, e1, e2, e3, e4⟩ | ⟨v, e1, e2, e3, e4⟩ <;> first | (exfalso; simp_all; done) | skip
  all_goals constructor <;> simp_all [Fut.Avail]

end Verif.Future.Core
