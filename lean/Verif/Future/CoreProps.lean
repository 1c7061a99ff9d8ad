import Verif.Future.CoreStep
/-!
# Properties of `Future` and `Promise`

`run bp (init V E) [] as` is an arbitrary execution: any number of futures, promises and threads, any interleaving.
-/

namespace Verif.Future.Core

variable {V E : Type} (bp : E) (as : List (Act V E))

/-- The state and the trace after an execution. -/
def after : St V E × List (Ev V E) := run bp (init V E) [] as

theorem after_inv : Inv bp (after bp as).1 (after bp as).2 := inv_run inv_init as

/-- No execution breaks the library: a result is never taken twice, a promise is never set twice by the library, a
continuation is never submitted twice. -/
theorem C44_no_crash : (after bp as).1.crashed = false ∧ .crash ∉ (after bp as).2 :=
  ⟨(after_inv bp as).ok, (after_inv bp as).ok'⟩

/-- A callback is called at most once. -/
theorem C44_called_once (i : Nat) : (after bp as).2.countP (Ev.isCalled i) ≤ 1 := (after_inv bp as).cnt i

/-- It is called only if it was attached, takes such a result, and with the result the future is due to have. -/
theorem C44_called_right (i : Nat) (r : Res V E) (h : .called i r ∈ (after bp as).2) :
    (∃ kind p, .then_ i kind p ∈ (after bp as).2 ∧ calls kind r = true) ∧ Resolves bp (after bp as).2 i r := by
  have hi := after_inv bp as
  obtain ⟨⟨kind, p, h1, h2⟩, h3, -⟩ := (hi.called i r).1 h
  exact ⟨⟨kind, p, (hi.slotU _ _ _).1 h1, h2⟩, hi.sound _ _ h3⟩

/-- What user code reads is the result the future is due to have. -/
theorem C44_got_right (i : Nat) (r : Res V E) (h : .got i r ∈ (after bp as).2) : Resolves bp (after bp as).2 i r := by
  have hi := after_inv bp as
  exact hi.sound _ _ (hi.got _ _ h)

variable {bp as}

theorem Inv.stalled {s : St V E} {tr : List (Ev V E)} (hi : Inv bp s tr) (hq : Quiet s) {i : Nat} {r : Res V E} {c : Cont}
    (hr : (s.fut i).res = some r) (hs : (s.fut i).slot = some c) : (s.fut i).run = .over := by
  obtain ⟨q1, q2, q3⟩ := hq i
  have hl := hi.loc i
  rcases q3 with h | h
  · exfalso
    have hcons : (s.fut i).cons = .done := by
      rcases q2 with h' | h'
      · have hcb : (s.fut i).callback = some c := by simpa [Fut.slot, h'] using hs
        rcases hl.cb ⟨c, hcb⟩ with h2 | h2
        · simp [h'] at h2
        · rcases (hl.hc h2).2 with h3 | ⟨x, h3⟩ <;> simp [h'] at h3
      · exact h'
    have hcb : (s.fut i).callback = some c := by simpa [Fut.slot, hcons] using hs
    have hprod : (s.fut i).prod = .done := by
      have := hl.res
      rcases q1 with h1 | h1 | h1 | h1 <;> simp_all
    have hhc : (s.fut i).hasCallback = true := by
      rcases hl.cb ⟨c, hcb⟩ with h2 | h2
      · simp [hcons] at h2
      · exact h2
    exact hl.sched hhc hprod hcons h
  · exact h

theorem Inv.complete {s : St V E} {tr : List (Ev V E)} (hi : Inv bp s tr) (hq : Quiet s) {i : Nat} {r : Res V E} :
    Resolves bp tr i r ↔ (s.fut i).res = some r := by
  refine ⟨?_, hi.sound i r⟩
  intro h
  induction h with
  | make h => exact hi.make _ _ h
  | set h => exact hi.set _ _ h
  | broken h => exact hi.broken _ h
  | skip h1 _ ih =>
    rcases hi.skip _ _ _ h1 ih with h2 | h2
    · have := hi.stalled hq ih ((hi.slotU _ _ _).2 h1)
      simp [Fut.carry, this] at h2
    · exact h2
  | @chain i kind p k r h1 h2 _ ih =>
    rcases hi.ret _ _ _ _ h2 h1 with h3 | ⟨r', h3, h4⟩
    · have hs : ∃ c, (s.fut k).slot = some c := by
        cases hs : (s.fut k).slot with
        | none => simp only [Fut.carry, hs] at h3; split at h3 <;> simp at h3
        | some c => exact ⟨c, rfl⟩
      obtain ⟨c, hs⟩ := hs
      have := hi.stalled hq ih hs
      simp [Fut.carry, this] at h3
    · rw [ih] at h3
      cases h3
      exact h4

/-- When nothing is under way a future is due to have at most one result. -/
theorem C44_unique (hq : Quiet (after bp as).1) {i : Nat} {r r' : Res V E} (h : Resolves bp (after bp as).2 i r)
    (h' : Resolves bp (after bp as).2 i r') : r = r' := by
  have hi := after_inv bp as
  rw [hi.complete hq] at h h'
  simpa [h] using h'

/-- No lost wake-up: when nothing is under way, an attached callback has been called exactly if its future has got a result
of the kind it takes. -/
theorem C44_called_complete (hq : Quiet (after bp as).1) {i : Nat} {kind : Kind} {p : Option Nat} {r : Res V E}
    (h : .then_ i kind p ∈ (after bp as).2) :
    .called i r ∈ (after bp as).2 ↔ Resolves bp (after bp as).2 i r ∧ calls kind r = true := by
  have hi := after_inv bp as
  have hs := (hi.slotU _ _ _).2 h
  rw [hi.called, hi.complete hq]
  constructor
  · rintro ⟨⟨kind', p', h1, h2⟩, h3, -⟩
    rw [hs] at h1
    cases h1
    exact ⟨h3, h2⟩
  · rintro ⟨h1, h2⟩
    exact ⟨⟨kind, p, hs, h2⟩, h1, .inl (hi.stalled hq h1 hs)⟩

/-- … and any other future can be read, with that result. -/
theorem C44_read_complete (hq : Quiet (after bp as).1) {i : Nat} (hc : ((after bp as).1.fut i).cons = .free) {r : Res V E} :
    reads (after bp as).1 i = some r ↔ Resolves bp (after bp as).2 i r := by
  have hi := after_inv bp as
  rw [hi.complete hq]
  have hl := hi.loc i
  obtain ⟨q1, -, -⟩ := hq i
  generalize hf : (after bp as).1.fut i = f at *
  have hav : f.Avail → (reads (after bp as).1 i = some r ↔ f.res = some r) := by
    rintro (⟨v, a1, a2, a3, a4⟩ | ⟨e, a1, a2, a3, a4⟩) <;> simp [reads, *]
  by_cases hrf : f.ready = true ∨ f.failed = true
  · exact hav (hl.avail hrf)
  · cases hr : f.res with
    | none => simp_all [reads]
    | some r' =>
      have hd : f.prod = .done := by
        have := hl.res
        rcases q1 with h | h | h | h <;> simp_all
      rcases hl.late (.inr (hl.hr.2 (.inl hd))) with h | ⟨-, -, h⟩
      · rw [hav h, hr]
      · exfalso
        rcases h with h | h
        · have := (hl.run h).2.1
          simp [hc] at this
        · simp [hc] at h

/-! ## Progress -/

/-- The steps of the library: threads inside its functions and the executor. -/
def Act.internal : Act V E → Bool
  | .prod _ | .cons _ | .run _ => true
  | _ => false

/-- Every step does something. -/
def Busy (bp : E) : St V E → List (Act V E) → Prop
  | _, [] => True
  | s, a :: as => a.internal = true ∧ step bp s a ≠ (s, []) ∧ Busy bp (step bp s a).1 as

def Sched.weight : Sched → Nat
  | .ready => 6
  | .failed => 5
  | .flagV | .flagE => 4
  | .takeV | .takeE => 3

def Prod.weight : Prod V E → Nat
  | .held => 10
  | .write _ => 9
  | .mark _ => 8
  | .lock => 7
  | .sched x => x.weight
  | .unborn | .user | .done => 0

def Cons.weight : Cons → Nat
  | .chainR _ => 13
  | .chainF _ => 12
  | .chainV _ | .chainE _ => 10
  | .store _ => 9
  | .lock => 7
  | .sched x => x.weight
  | .free | .done => 0

def Run.weight : Run V E → Nat
  | .none => 2
  | .queued _ _ => 1
  | .user _ | .over => 0

def Fut.weight (f : Fut V E) : Nat := f.prod.weight + f.cons.weight + f.run.weight

def total (g : Nat → Nat) : Nat → Nat
  | 0 => 0
  | n + 1 => total g n + g n

def St.weight (s : St V E) : Nat := total (fun i => (s.fut i).weight) s.next

theorem total_congr {g g' : Nat → Nat} {n : Nat} (h : ∀ i, i < n → g i = g' i) : total g n = total g' n := by
  induction n with
  | zero => rfl
  | succ n ih => simp only [total]; rw [ih (fun i hi => h i (by omega)), h n (by omega)]

theorem total_upd {g : Nat → Nat} {n i x : Nat} (h : i < n) :
    total (fun j => if j = i then x else g j) n + g i = total g n + x := by
  induction n with
  | zero => omega
  | succ n ih =>
    simp only [total]
    by_cases hi : i = n
    · subst hi
      rw [total_congr (g' := g) (fun j hj => by simp; omega)]
      simp; omega
    · have := ih (by omega)
      have : n ≠ i := fun h => hi h.symm
      simp [this]; omega

theorem weight_put {s : St V E} {i : Nat} {f : Fut V E} (h : i < s.next) :
    (s.put i f).weight + (s.fut i).weight = s.weight + f.weight := by
  unfold St.weight
  rw [← total_upd (g := fun j => (s.fut j).weight) (x := f.weight) h]
  simp only [put_fut, put_next]
  congr 2
  funext j
  split <;> rfl

theorem schedStep_weight {f f' : Fut V E} {x : Sched} {o : Option Sched} (h : schedStep f x = some (f', o)) :
    f'.prod = f.prod ∧ f'.cons = f.cons ∧ f'.run.weight ≤ f.run.weight ∧
      ∀ y, o = some y → y.weight < x.weight := by
  cases x <;> simp only [schedStep] at h
  case takeV => split at h <;> simp at h; obtain ⟨rfl, rfl⟩ := h; simp_all [Run.weight]
  case takeE => split at h <;> simp at h; obtain ⟨rfl, rfl⟩ := h; simp_all [Run.weight]
  all_goals
    simp only [Option.some.injEq, Prod.mk.injEq] at h
    obtain ⟨rfl, rfl⟩ := h
    refine ⟨rfl, rfl, Nat.le_refl _, ?_⟩
    cases f.ready <;> cases f.failed <;> cases f.flag <;> simp [Sched.weight]

theorem sched_pos (x : Sched) : 0 < x.weight := by cases x <;> simp [Sched.weight]

theorem Inv.lt {s : St V E} {tr : List (Ev V E)} (hi : Inv bp s tr) {i : Nat} (h : (s.fut i).prod ≠ .unborn) : i < s.next := by
  have := hi.born i
  rw [Iff.comm, ← Nat.not_lt] at this
  grind

theorem put_decreases {s : St V E} {i : Nat} {f : Fut V E} (h : i < s.next) (hw : f.weight < (s.fut i).weight) :
    (s.put i f).weight < s.weight := by
  have := weight_put (f := f) h
  omega

theorem resolve_decreases {s s' : St V E} {i p : Nat} {f : Fut V E} {r : Res V E} (h : i < s.next)
    (hw : f.weight ≤ (s.fut i).weight) (hp : p < s.next) (he : (s.put i f).resolve p r = (s', [])) : s'.weight < s.weight := by
  unfold St.resolve at he
  split at he
  · rename_i hh
    simp only [Prod.mk.injEq, and_true] at he
    subst he
    have h1 := weight_put (f := f) h
    have h3 : ({ (s.put i f).fut p with prod := .write r, res := some r } : Fut V E).weight < ((s.put i f).fut p).weight := by
      simp only [Fut.weight, hh, Prod.weight]; omega
    have h2 := put_decreases (s := s.put i f) (by simpa using hp) h3
    simp only [] at h2
    omega
  · simp [St.crash] at he

theorem prod_decreases {s : St V E} {tr : List (Ev V E)} (hi : Inv bp s tr) (i : Nat) :
    ((s.fut i).prod ∈ [.unborn, .user, .held, .done] ∧ prodStep s i = (s, [])) ∨ (prodStep s i).1.weight < s.weight := by
  have hc : (prodStep s i).2 ≠ [.crash] := by
    have := (hi.prodStep i).ok'
    intro h; simp [h] at this
  unfold prodStep at hc ⊢
  simp only [] at hc ⊢
  have hb : (s.fut i).prod = .unborn ∨ i < s.next := by
    by_cases h : (s.fut i).prod = .unborn
    · exact .inl h
    · exact .inr (hi.lt h)
  cases hp : (s.fut i).prod with
  | write r => cases r <;> exact .inr (put_decreases (by simpa [hp] using hb) (by simp [Fut.weight, hp, Prod.weight]))
  | mark r => cases r <;> exact .inr (put_decreases (by simpa [hp] using hb) (by simp [Fut.weight, hp, Prod.weight]))
  | lock =>
    refine .inr (put_decreases (by simpa [hp] using hb) ?_)
    simp only [Fut.weight, hp]
    split <;> simp [Prod.weight, Sched.weight]
  | sched x =>
    simp only [hp] at hc ⊢
    split
    · simp_all [St.crash]
    · rename_i f' hs
      obtain ⟨w1, w2, w3, w4⟩ := schedStep_weight hs
      refine .inr (put_decreases (by simpa [hp] using hb) ?_)
      have := sched_pos x
      simp only [Fut.weight, hp, w2, Prod.weight]; omega
    · rename_i f' y hs
      obtain ⟨w1, w2, w3, w4⟩ := schedStep_weight hs
      refine .inr (put_decreases (by simpa [hp] using hb) ?_)
      have := w4 y rfl
      simp only [Fut.weight, hp, w2, Prod.weight]; omega
  | _ => exact .inl ⟨by simp, rfl⟩

theorem cons_decreases {s : St V E} {tr : List (Ev V E)} (hi : Inv bp s tr) (i : Nat) :
    ((s.fut i).cons ∈ [.free, .done] ∧ consStep s i = (s, [])) ∨ (consStep s i).1.weight < s.weight := by
  have hc : .crash ∉ (consStep s i).2 := by
    have := (hi.consStep i).ok'
    intro h; simp [h] at this
  by_cases hu : (s.fut i).prod = .unborn
  · left
    have := (hi.loc i).unborn hu
    simp [consStep, this, Fut.empty]
  have hb := hi.lt hu
  have hres : ∀ {f : Fut V E} {p r}, .crash ∉ ((s.put i f).resolve p r).2 → f.weight ≤ (s.fut i).weight →
      p < s.next → ((s.put i f).resolve p r).1.weight < s.weight := by
    intro f p r h1 h2 h3
    refine resolve_decreases (r := r) (s' := ((s.put i f).resolve p r).1) hb h2 h3 ?_
    · unfold St.resolve at h1 ⊢
      split
      · rfl
      · simp_all [St.crash]
  have hp : ∀ {p}, (s.fut i).slot = some (.chain p) → p < s.next := by
    intro p h
    obtain ⟨j, k, h1, -⟩ := hi.slotC _ _ h
    exact hi.old _ _ _ h1
  unfold consStep at hc ⊢
  simp only [] at hc ⊢
  cases hcs : (s.fut i).cons with
  | store c => exact .inr (put_decreases hb (by simp [Fut.weight, hcs, Cons.weight]))
  | lock =>
    refine .inr (put_decreases hb ?_)
    simp only [Fut.weight, hcs]
    split <;> simp [Cons.weight, Sched.weight]
  | sched x =>
    simp only [hcs] at hc ⊢
    split
    · simp_all [St.crash]
    · rename_i f' hs
      obtain ⟨w1, w2, w3, w4⟩ := schedStep_weight hs
      refine .inr (put_decreases hb ?_)
      have := sched_pos x
      simp only [Fut.weight, hcs, w1, Cons.weight]; omega
    · rename_i f' y hs
      obtain ⟨w1, w2, w3, w4⟩ := schedStep_weight hs
      refine .inr (put_decreases hb ?_)
      have := w4 y rfl
      simp only [Fut.weight, hcs, w1, Cons.weight]; omega
  | chainR p =>
    refine .inr (put_decreases hb ?_)
    simp only [Fut.weight, hcs]
    split <;> simp [Cons.weight]
  | chainF p =>
    refine .inr (put_decreases hb ?_)
    simp only [Fut.weight, hcs]
    split <;> simp [Cons.weight]
  | chainV p =>
    simp only [hcs] at hc ⊢
    split
    · rename_i v hv
      simp only [hv] at hc
      refine .inr (hres hc (by simp only [Fut.weight, hcs, Cons.weight]; omega) (hp (by simp [Fut.slot, hcs])))
    · simp_all [St.crash]
  | chainE p =>
    simp only [hcs] at hc ⊢
    split
    · rename_i v hv
      split at hc
      rotate_left
      · simp_all
      rename_i w hw
      rw [hv] at hw
      cases hw
      refine .inr (hres hc (by simp only [Fut.weight, hcs, Cons.weight]; omega) (hp (by simp [Fut.slot, hcs])))
    · simp_all [St.crash]
  | _ => exact .inl ⟨by simp, rfl⟩

theorem run_decreases {s : St V E} {tr : List (Ev V E)} (hi : Inv bp s tr) (i : Nat) :
    ((∀ c r, (s.fut i).run ≠ .queued c r) ∧ runStep s i = (s, [])) ∨ (runStep s i).1.weight < s.weight := by
  have hl := hi.loc i
  unfold runStep
  simp only []
  split
  · rename_i hr
    have hb := hi.lt (i := i) (by simp [(hl.run (by simp [hr])).1])
    exact .inr (put_decreases hb (by simp [Fut.weight, hr, Run.weight]))
  · rename_i p e hr
    have hb := hi.lt (i := i) (by simp [(hl.run (by simp [hr])).1])
    obtain ⟨s', c1, c2⟩ := hi.runDone hr (.inr ⟨rfl, e, rfl⟩)
    obtain ⟨e1, -⟩ := hl.queued _ _ hr
    have hp := hi.old _ _ _ ((hi.slotU i .withValue (some p)).1 (by simp [Fut.slot, (hl.run (by simp [hr])).2.1, e1]))
    rw [c1]
    exact .inr (resolve_decreases hb (by simp [Fut.weight, Run.weight]) hp c1)
  · rename_i kind p r h1 h2 hr
    have hb := hi.lt (i := i) (by simp [(hl.run (by simp [hr])).1])
    exact .inr (put_decreases hb (by simp [Fut.weight, hr, Run.weight]))
  · rename_i p r hr
    have hb := hi.lt (i := i) (by simp [(hl.run (by simp [hr])).1])
    obtain ⟨s', c1, c2⟩ := hi.runDone hr (.inl rfl)
    obtain ⟨e1, -⟩ := hl.queued _ _ hr
    obtain ⟨j, k, h1, -⟩ := hi.slotC i p (by simp [Fut.slot, (hl.run (by simp [hr])).2.1, e1])
    have hp := hi.old _ _ _ h1
    rw [c1]
    exact .inr (resolve_decreases hb (by simp [Fut.weight, Run.weight]) hp c1)
  all_goals
    rename_i hr
    exact .inl ⟨by simp [hr], rfl⟩

theorem internal_decreases {s : St V E} {tr : List (Ev V E)} (hi : Inv bp s tr) {a : Act V E} (ha : a.internal = true) :
    step bp s a = (s, []) ∨ (step bp s a).1.weight < s.weight := by
  unfold step
  rw [hi.ok]
  cases a <;> simp [Act.internal] at ha
  · exact (prod_decreases hi _).imp_left And.right
  · exact (cons_decreases hi _).imp_left And.right
  · exact (run_decreases hi _).imp_left And.right

theorem busy_bounded {s : St V E} {tr : List (Ev V E)} (hi : Inv bp s tr) {bs : List (Act V E)} (h : Busy bp s bs) :
    bs.length ≤ s.weight := by
  induction bs generalizing s tr with
  | nil => simp
  | cons a bs ih =>
    obtain ⟨h1, h2, h3⟩ := h
    have := ih (hi.step a) h3
    rcases internal_decreases hi h1 with h4 | h4
    · exact absurd h4 h2
    · simp only [List.length_cons]; omega

/-- The library never works for ever: from any state only so many steps can be made before user code acts. -/
theorem C44_terminates : ∃ n, ∀ bs : List (Act V E), Busy bp (after bp as).1 bs → bs.length ≤ n :=
  ⟨_, fun _ => busy_bounded (after_inv bp as)⟩

/-- When no step of the library is possible any more and no callback is running, nothing is under way. -/
theorem C44_settles (h : ∀ a : Act V E, a.internal = true → step bp (after bp as).1 a = ((after bp as).1, []))
    (hu : ∀ i p, ((after bp as).1.fut i).run ≠ .user p) : Quiet (after bp as).1 := by
  have hi := after_inv bp as
  generalize (after bp as).1 = s at *
  have hcr : step bp s = act bp s := by funext a; simp [step, hi.ok]
  rw [hcr] at h
  have hno : ¬ s.weight < s.weight := Nat.lt_irrefl _
  intro i
  refine ⟨?_, ?_, ?_⟩
  · have h1 : prodStep s i = (s, []) := h (.prod i) rfl
    have h2 := prod_decreases hi i
    rw [h1] at h2
    simpa using h2
  · have h1 : consStep s i = (s, []) := h (.cons i) rfl
    have h2 := cons_decreases hi i
    rw [h1] at h2
    simpa using h2
  · have h1 : runStep s i = (s, []) := h (.run i) rfl
    have h2 := run_decreases hi i
    rw [h1] at h2
    have h3 := hu i
    cases hr : (s.fut i).run <;> simp_all

/-! ## The theorems are not vacuous -/

/-- A promise is set while a callback is attached; the callback returns a future that is set later; the future returned by
`Then` gets its value. -/
def story : List (Act Nat String) :=
  [.promise, .then_ 0 .withValue false, .set 0 (.val 7), .prod 0, .cons 0, .prod 0, .cons 0, .prod 0, .prod 0, .prod 0, .prod 0,
    .run 0, .promise, .ret 0 2, .cons 2, .cons 2, .cons 2, .cons 2, .set 2 (.val 8), .prod 2, .prod 2, .prod 2, .prod 2, .prod 2,
    .prod 2, .run 2, .prod 1, .prod 1, .prod 1, .get 1]

example : (after "broken" story).2 =
    [.then_ 0 .withValue (some 1), .set 0 (.val 7), .called 0 (.val 7), .returned 0 2, .set 2 (.val 8), .got 1 (.val 8)] := by
  decide +kernel

/-- An abandoned promise: the callback is skipped and the next future gets the exception. -/
example : (after "broken" ([.promise, .then_ 0 .withValue false, .cons 0, .cons 0, .drop 0, .prod 0, .prod 0, .prod 0, .prod 0,
    .prod 0, .prod 0, .prod 0, .run 0, .prod 1, .prod 1, .prod 1, .get 1] : List (Act Nat String))).2 =
    [.then_ 0 .withValue (some 1), .broken 0, .got 1 (.exc "broken")] := by
  decide +kernel

example : Resolves "broken" (after "broken" story).2 1 (.val 8) := by
  refine .chain (i := 0) (kind := .withValue) (k := 2) ?_ ?_ (.set ?_) <;> decide +kernel

end Verif.Future.Core
