import Verif.Tvar.Cell

/-! # Properties of variables with a buffer in every thread -/

namespace Verif.Tvar.Cell

@[simp] theorem lsum_nil (f : Nat → Int) : lsum f [] = 0 := rfl

@[simp] theorem lsum_cons (f : Nat → Int) (i : Nat) (l : List Nat) : lsum f (i :: l) = f i + lsum f l := by simp [lsum]

theorem lsum_append (f : Nat → Int) (a b : List Nat) : lsum f (a ++ b) = lsum f a + lsum f b := by
  induction a with
  | nil => simp
  | cons i l ih => simp [ih]; omega

theorem lsum_upd_not {f : Nat → Int} {i : Nat} {x : Int} {l : List Nat} (h : i ∉ l) : lsum (Verif.upd f i x) l = lsum f l := by
  induction l with
  | nil => rfl
  | cons j l ih =>
    simp only [List.mem_cons, not_or] at h
    simp [ih h.2, upd_apply, h.1, Ne.symm h.1]

theorem lsum_upd {f : Nat → Int} {i : Nat} {x : Int} {l : List Nat} (h : i ∈ l) (hn : l.Nodup) : lsum (Verif.upd f i x) l = lsum f l - f i + x := by
  induction l with
  | nil => simp at h
  | cons j l ih =>
    rw [List.nodup_cons] at hn
    by_cases e : i = j
    · subst e
      simp [lsum_upd_not hn.1, upd_apply]; omega
    · have hm : i ∈ l := by simpa [e] using h
      simp [ih hm hn.2, upd_apply, Ne.symm e]; omega

theorem lsum_erase {f : Nat → Int} {i : Nat} {l : List Nat} (h : i ∈ l) : lsum f (l.erase i) = lsum f l - f i := by
  induction l with
  | nil => simp at h
  | cons j l ih =>
    by_cases e : j = i
    · subst e; simp; omega
    · have hm : i ∈ l := by simpa [Ne.symm e] using h
      simp [List.erase_cons, e, ih hm]; omega

/-- What a `Reset` has collected and not yet returned. -/
def H.pend : H → Int
  | .start true acc => acc
  | .trav true acc _ _ => acc
  | _ => 0

/-- Where threads are. -/
structure A (s : S) : Prop where
  nr : s.reg.Nodup
  nl : s.lv.Nodup
  mr : ∀ i, i ∈ s.reg ↔ s.wk i = .idle ∨ ∃ r v, s.wk i = .mid r v
  ml : ∀ i, i ∈ s.lv ↔ s.wk i = .going
  td : ∀ r acc t q, s.hold = .trav r acc t q → t.Nodup ∧ ∀ i, i ∈ t → i ∈ s.reg

theorem A.step {p : P} {s s' : S} (h : A s) (hs : Step p s s') : A s' := by
  obtain ⟨nr, nl, mr, ml, td⟩ := h
  cases hs <;> constructor <;> simp only [S.w, S.put, S.give, upd_apply] at * <;> first | assumption | grind [H.walks, List.nodup_append, List.Nodup.erase, List.Nodup.mem_erase_iff]

theorem Reach.a {p : P} {s : S} (h : Reach p s) : A s := by
  induction h with
  | init => constructor <;> simp [S.init]
  | step _ hs ih => exact ih.step hs

/-- The modes in which nothing is lost. -/
def P.good (p : P) : Prop := p.atomic = true ∨ p.resets = false ∧ p.commits = false

/-- What is stored is what was loaded plus the argument. -/
structure B (p : P) (s : S) : Prop where
  mid : ∀ i r v, s.wk i = .mid r v → r = s.buf i ∧ p.atomic = false ∧ p.ok v
  rs : ∀ acc, s.hold = .start true acc → p.resets = true
  rt : ∀ acc t q, s.hold = .trav true acc t q → p.resets = true

theorem B.step {p : P} {s s' : S} (hp : p.good) (ha : A s) (h : B p s) (hs : Step p s s') : B p s' := by
  obtain ⟨mid, rs, rt⟩ := h
  have td := ha.td
  have mr := ha.mr
  unfold P.good at hp
  cases hs <;> constructor <;> simp only [S.w, S.put, S.give, upd_apply] at * <;> first | assumption | grind

theorem Reach.b {p : P} {s : S} (hp : p.good) (h : Reach p s) : B p s := by
  induction h with
  | init => constructor <;> simp [S.init]
  | step h hs ih => exact ih.step hp h.a hs

/-- The sum of what is anywhere. -/
def S.all (s : S) : Int := s.exited + lsum s.buf s.reg + lsum s.buf s.lv + s.hold.pend + s.outs

theorem all_step {p : P} {s s' : S} (hp : p.good) (a : A s) (b : B p s) (h : s.all = s.added + s.given) (hs : Step p s s') : s'.all = s'.added + s'.given := by
  have mr := a.mr
  have ml := a.ml
  have td := a.td
  simp only [S.all] at *
  cases hs with
  | create i e hh =>
    have h1 : i ∉ s.reg := by grind
    have h2 : i ∉ s.lv := by grind
    simp only [S.w, S.put, S.give, lsum_append, lsum_upd_not h1, lsum_upd_not h2, lsum_cons, lsum_nil, upd_apply, if_true]
    omega
  | upd i v hq e hv =>
    have h1 : i ∈ s.reg := by grind
    have h2 : i ∉ s.lv := by grind
    simp only [S.put, lsum_upd h1 a.nr, lsum_upd_not h2]
    omega
  | load i v hq e hv => exact h
  | store i r v e =>
    have h1 : i ∈ s.reg := by grind
    have h2 : i ∉ s.lv := by grind
    have h3 := (b.mid i r v e).1
    simp only [S.w, S.put, lsum_upd h1 a.nr, lsum_upd_not h2]
    omega
  | commit i hq e hh =>
    have h1 : i ∈ s.reg := by grind
    have h2 : i ∉ s.lv := by grind
    simp only [S.put, S.give, lsum_upd h1 a.nr, lsum_upd_not h2]
    omega
  | leave i e hh =>
    have h1 : i ∈ s.reg := by grind
    simp only [S.w, lsum_erase h1, lsum_append, lsum_cons, lsum_nil]
    omega
  | merge i e hh =>
    have h1 : i ∈ s.lv := by grind
    simp only [S.w, lsum_erase h1]
    omega
  | get hh => simp only [hh, H.pend] at *; omega
  | reset hq hh => simp only [hh, H.pend, S.give] at *; omega
  | walk r acc hh => cases r <;> simp only [hh, H.pend] at * <;> omega
  | look acc i t q hh => simp only [hh, H.pend] at *; omega
  | take acc i t q hh =>
    have h1 : i ∈ s.reg := (td _ _ _ _ hh).2 i (by simp)
    have h2 : i ∉ s.lv := by grind
    simp only [hh, H.pend, S.put, S.give, lsum_upd h1 a.nr, lsum_upd_not h2] at *
    omega
  | ret r acc q hh => cases r <;> simp [hh, H.pend] at * <;> omega

/-- Nothing is lost or counted twice: the results of `Reset`, what is in the buffers and what was merged are the updates and the initial values that were put in. -/
theorem C145_total {p : P} {s : S} (hp : p.good) (h : Reach p s) : s.exited + lsum s.buf s.reg + lsum s.buf s.lv + s.hold.pend + s.outs = s.added + s.given := by
  induction h with
  | init => simp [S.init, H.pend]
  | step h hs ih => exact all_step hp h.a (h.b hp) ih hs

/-- Without what belongs to threads that are going or was taken by `Reset`. -/
def S.rest (s : S) : Int := s.given - lsum s.buf s.lv - s.outs

/-- Reading. -/
structure R (p : P) (s : S) : Prop where
  st : ∀ acc, s.hold = .start false acc → acc = s.exited
  same : ∀ acc t q, s.hold = .trav false acc t q → q.n = s.n → acc + lsum s.buf t = s.added + s.rest ∧ q.added = s.added
  lo : (∀ v, p.ok v → 0 ≤ v) → ∀ acc t q, s.hold = .trav false acc t q → q.added + s.rest ≤ acc + lsum s.buf t ∧ acc + lsum s.buf t ≤ s.added + s.rest ∧ q.added ≤ s.added
  le : ∀ acc t q, s.hold = .trav false acc t q → q.n ≤ s.n

theorem R.step {p : P} {s s' : S} (a : A s) (b : B p s) (t : s.all = s.added + s.given) (h : R p s) (hs : Step p s s') : R p s' := by
  obtain ⟨st, same, lo, le⟩ := h
  have td := a.td
  have mr := a.mr
  have ml := a.ml
  have add : ∀ (i : Nat) (x : Int) (acc : Int) (l : List Nat) (q : Snap), s.hold = .trav false acc l q → lsum (Verif.upd s.buf i x) l = lsum s.buf l ∨ lsum (Verif.upd s.buf i x) l = lsum s.buf l - s.buf i + x := fun i x acc l q hh => by
    by_cases hm : i ∈ l
    · exact .inr (lsum_upd hm (td _ _ _ _ hh).1)
    · exact .inl (lsum_upd_not hm)
  cases hs with
  | create i e hh => constructor <;> simp only [S.w, S.put, S.give] at * <;> grind [H.walks]
  | upd i v hq e hv =>
    have h2 : i ∉ s.lv := by grind
    constructor <;> simp only [S.put, S.rest, lsum_upd_not h2] at *
    · exact st
    · intro acc l q hh hn; have := le acc l q hh; omega
    · intro h0 acc l q hh
      have h1 := lo h0 acc l q hh
      have h2 := h0 v hv
      rcases add i (s.buf i + v) acc l q hh with h3 | h3 <;> omega
    · intro acc l q hh; have := le acc l q hh; omega
  | load i v hq e hv => exact ⟨st, same, lo, le⟩
  | store i r v e =>
    obtain ⟨h4, -, hv⟩ := b.mid i r v e
    have h2 : i ∉ s.lv := by grind
    constructor <;> simp only [S.put, S.w, S.rest, lsum_upd_not h2] at *
    · exact st
    · intro acc l q hh hn; have := le acc l q hh; omega
    · intro h0 acc l q hh
      have h1 := lo h0 acc l q hh
      have h2 := h0 v hv
      rcases add i (r + v) acc l q hh with h3 | h3 <;> omega
    · intro acc l q hh; have := le acc l q hh; omega
  | commit i hq e hh => constructor <;> simp only [S.put, S.give] at * <;> grind
  | leave i e hh => constructor <;> simp only [S.w] at * <;> grind [H.walks]
  | merge i e hh => constructor <;> simp only [S.w] at * <;> grind
  | get hh => constructor <;> grind
  | reset hq hh => constructor <;> simp only [S.give] at * <;> grind
  | walk r acc hh =>
    cases r with
    | true => constructor <;> grind
    | false =>
      have h1 := st acc hh
      simp only [S.all, hh, H.pend] at t
      constructor <;> simp only [S.snap, S.rest] <;> intros <;> grind
  | look acc i l q hh =>
    have h1 := same _ _ _ hh
    have h2 := fun h0 => lo h0 _ _ _ hh
    have h3 := le _ _ _ hh
    simp only [lsum_cons, S.rest] at h1 h2
    constructor
    · grind
    · intro acc' t' q' e hn; cases e; have := h1 hn; simp only [S.rest] at *; omega
    · intro h0 acc' t' q' e; cases e; have := h2 h0; simp only [S.rest] at *; omega
    · intro acc' t' q' e; cases e; exact h3
  | take acc i l q hh => constructor <;> simp only [S.put, S.give] at * <;> grind
  | ret r acc q hh => constructor <;> grind

theorem Reach.r {p : P} {s : S} (hp : p.good) (h : Reach p s) : R p s := by
  induction h with
  | init => constructor <;> simp [S.init]
  | step h hs ih => exact ih.step h.a (h.b hp) (C145_total hp h) hs

theorem ids_step {p : P} {s s' : S} (h : s.given = p.c * s.ids) (hs : Step p s s') : s'.given = p.c * s'.ids := by
  have e : p.c * ((s.ids + 1 : Nat) : Int) = p.c * s.ids + p.c := by push_cast; rw [Int.mul_add, Int.mul_one]
  cases hs <;> simp only [S.w, S.put, S.give, e] <;> omega

theorem Reach.ids {p : P} {s : S} (h : Reach p s) : s.given = p.c * s.ids := by
  induction h with
  | init => simp [S.init]
  | step _ hs ih => exact ids_step ih hs

theorem made_step {p : P} {s s' : S} (hr : p.resets = false) (hc : p.commits = false) (b : B p s) (h : s.ids = 1 + s.made ∧ s.outs = 0) (hs : Step p s s') : s'.ids = 1 + s'.made ∧ s'.outs = 0 := by
  have rt := b.rt
  cases hs <;> simp only [S.w, S.put, S.give] at * <;> grind

theorem Reach.made {p : P} {s : S} (hp : p.good) (hr : p.resets = false) (hc : p.commits = false) (h : Reach p s) : s.ids = 1 + s.made ∧ s.outs = 0 := by
  induction h with
  | init => simp [S.init]
  | step h hs ih => exact made_step hr hc (h.b hp) ih hs

/-- `GetValue`: what it returns is the sum of all updates and initial values, without those that `Reset` has taken, and but for what belongs to threads that are just going; if there are updates while it goes through the buffers, and they are not negative, it is between the sums before and after. -/
theorem C145_read {p : P} {s : S} (hp : p.good) (h : Reach p s) (acc : Int) (q : Snap) (hh : s.hold = .trav false acc [] q) :
    (q.n = s.n → acc = s.added + p.c * s.ids - lsum s.buf s.lv - s.outs) ∧
      ((∀ v, p.ok v → 0 ≤ v) → q.added + p.c * s.ids - lsum s.buf s.lv - s.outs ≤ acc ∧ acc ≤ s.added + p.c * s.ids - lsum s.buf s.lv - s.outs) := by
  have r := h.r hp
  rw [← h.ids]
  refine ⟨fun e => ?_, fun h0 => ?_⟩
  · have := r.same _ _ _ hh e
    simp only [lsum_nil, S.rest] at this
    omega
  · have := r.lo h0 _ _ _ hh
    simp only [lsum_nil, S.rest] at this
    omega

theorem outs_step {p : P} {s s' : S} (hr : p.resets = false) (b : B p s) (h : s.outs = 0) (hs : Step p s s') : s'.outs = 0 := by
  have rt := b.rt
  cases hs <;> simp only [S.w, S.put, S.give] at * <;> grind

/-- A variable with the initial value 0 that is not reset: when no thread is going, and nothing is changed meanwhile, `GetValue` returns the sum of all updates of all threads, of those that have exited as well. -/
theorem C145_value {p : P} {s : S} (hp : p.good) (hr : p.resets = false) (hz : p.c = 0) (h : Reach p s) (acc : Int) (q : Snap) (hh : s.hold = .trav false acc [] q) (hn : q.n = s.n) (hg : s.lv = []) : acc = s.added := by
  have h1 := (C145_read hp h acc q hh).1 hn
  have h2 : s.outs = 0 := by
    clear hh h1 hn hg
    induction h with
    | init => rfl
    | step h hs ih => exact outs_step hr (h.b hp) ih hs
  rw [hg, hz, h2] at h1
  simpa using h1

/-- With `Reset`: the result of one, those of all before it, and what is left together are all updates. -/
theorem C145_reset {p : P} {s : S} (hp : p.good) (hz : p.c = 0) (h : Reach p s) (acc : Int) (q : Snap) (hh : s.hold = .trav true acc [] q) :
    s.outs + acc + (s.exited + lsum s.buf s.reg + lsum s.buf s.lv) = s.added := by
  have h1 := C145_total hp h
  rw [h.ids, hz, hh] at h1
  simp only [H.pend, Int.zero_mul] at h1
  omega

/-- Threads that exit are not in the way for ever: what they have added is merged once their exit is over. -/
theorem C145_gone {p : P} {s : S} (h : Reach p s) : (∀ i, s.wk i ≠ .going) → s.lv = [] := by
  intro hg
  cases e : s.lv with
  | nil => rfl
  | cons i l => exact absurd ((h.a.ml i).mp (by rw [e]; simp)) (hg i)

/-! ## What is wrong -/

/-- The initial value is counted once for every thread that has written: `GetValue` when nothing is going on. -/
theorem C146_init_partial {p : P} {s : S} (hp : p.good) (hr : p.resets = false) (hc : p.commits = false) (h : Reach p s) (acc : Int) (q : Snap) (hh : s.hold = .trav false acc [] q) (hn : q.n = s.n) (hg : s.lv = []) :
    acc = s.added + p.c * (1 + s.made) := by
  have h1 := (C145_read hp h acc q hh).1 hn
  obtain ⟨h2, h3⟩ := h.made hp hr hc
  rw [hg, h2, h3] at h1
  simpa using h1

/-- One more step. -/
theorem Reach.next {p : P} {s s' : S} (h : Reach p s) (hs : Step p s s') : Reach p s' := .step h hs

/-- A variable to which one thread has added `v`. -/
theorem one (p : P) (v : Int) (hp : p.atomic = false) (hv : p.ok v) :
    ∃ s, Reach p s ∧ s.hold = .free ∧ s.reg = [0] ∧ s.lv = [] ∧ s.exited = p.c ∧ s.buf 0 = p.c + v ∧ s.wk 0 = .idle ∧ s.added = v ∧ s.made = 1 ∧ s.outs = 0 ∧ s.n = 1 := by
  have h1 := (Reach.init (p := p)).next (.create 0 rfl rfl)
  have h2 := h1.next (.load 0 v hp rfl hv)
  have h3 := h2.next (.store 0 p.c v rfl)
  exact ⟨_, h3, rfl, rfl, rfl, rfl, rfl, rfl, by simp [S.init, S.w, S.put, S.give], rfl, rfl, rfl⟩

/-- Hence a counter with an initial value of which one thread has written once does not have the value that it should have. -/
theorem C146_wrong_partial (p : P) (v : Int) (hp : p.atomic = false) (hv : p.ok v) :
    ∃ s acc q, Reach p s ∧ s.hold = .trav false acc [] q ∧ q.n = s.n ∧ s.lv = [] ∧ s.added = v ∧ acc = p.c + (p.c + v) := by
  obtain ⟨s, h, a1, a2, a3, a4, a5, a6, a7, a8, a9, a10⟩ := one p v hp hv
  have h1 := h.next (.get a1)
  have h2 := h1.next (.walk false s.exited rfl)
  have h3 := h2.next (.look s.exited 0 [] _ (by rw [a2]))
  exact ⟨_, _, _, h3, rfl, rfl, a3, a7, by rw [a4]; simp only []; rw [a5]⟩

/-- Any number of steps. -/
inductive Run (p : P) (s : S) : S → Prop
  | refl : Run p s s
  | step {a b : S} (h : Run p s a) (hs : Step p a b) : Run p s b

theorem Reach.run {p : P} {s s' : S} (h : Reach p s) (hr : Run p s s') : Reach p s' := by
  induction hr with
  | refl => exact h
  | step _ hs ih => exact ih.next hs

/-- A counter goes back while a thread exits: `GetValue` returns `v`, and the next one 0. -/
theorem C146_back_partial (p : P) (v : Int) (hz : p.c = 0) (hp : p.atomic = false) (hv : p.ok v) :
    ∃ s s' q q', Reach p s ∧ s.hold = .trav false v [] q ∧ Run p s s' ∧ s'.hold = .trav false 0 [] q' ∧ s'.added = v ∧ q'.n = s'.n := by
  obtain ⟨s, h, a1, a2, a3, a4, a5, a6, a7, a8, a9, a10⟩ := one p v hp hv
  have h1 := h.next (.get a1)
  have h2 := h1.next (.walk false s.exited rfl)
  have h3 := h2.next (.look s.exited 0 [] _ (by rw [a2]))
  have r := (((Run.refl (p := p) (s := { s with hold := .trav false (s.exited + s.buf 0) [] s.snap })).step (.ret false _ s.snap rfl)).step (.leave 0 a6 rfl)).step (.get rfl)
  have r := r.step (.walk false _ rfl)
  refine ⟨_, _, s.snap, ⟨s.added, s.n⟩, h3, ?_, r, ?_, a7, rfl⟩
  · simp only []; rw [a4, a5, hz]; simp; rfl
  · simp only [S.w]; rw [a4, a2, hz]; rfl

/-- What a `Reset` has returned is counted again if a thread was updating a Counter or a Gauge: the results add up to more than all updates. -/
theorem C146_reset_partial (p : P) (v w : Int) (hz : p.c = 0) (hp : p.atomic = false) (hr : p.resets = true) (hv : p.ok v) (hw : p.ok w) :
    ∃ s q, Reach p s ∧ s.outs = v ∧ s.hold = .trav false (v + w) [] q ∧ s.added = v + w ∧ q.n = s.n := by
  obtain ⟨s, h, a1, a2, a3, a4, a5, a6, a7, a8, a9, a10⟩ := one p v hp hv
  have h1 := h.next (.load 0 w hp a6 hw)
  have h2 := h1.next (.reset hr a1)
  have h3 := h2.next (.walk true s.exited rfl)
  have h4 := h3.next (.take s.exited 0 [] _ (by simp only [S.w, S.give]; rw [a2]))
  have h5 := h4.next (.ret true _ _ rfl)
  have h6 := h5.next (.store 0 (s.buf 0) w rfl)
  have h7 := h6.next (.get rfl)
  have h8 := h7.next (.walk false _ rfl)
  have h9 := h8.next (.look _ 0 [] _ (by simp only [S.w, S.give, S.put]; rw [a2]))
  refine ⟨_, ⟨s.added + w, s.n + 1⟩, h9, ?_, ?_, ?_, rfl⟩
  · simp only [S.w, S.give, S.put, if_true]; rw [a9, a4, a5, hz]; omega
  · simp only [S.w, S.give, S.put, upd_apply, if_true]; rw [a5, hz]; simp [S.snap]
  · simp only [S.w, S.give, S.put]; rw [a7]

/-- Three threads with the values 5, 6 and 7, one of which has exited: 18. -/
example : ∃ s q, Reach ⟨true, false, false, fun v => 0 ≤ v, 0⟩ s ∧ s.hold = .trav false 18 [] q ∧ s.lv = [] ∧ q.n = s.n ∧ s.reg = [0, 1] := by
  have h := (Reach.init (p := ⟨true, false, false, fun v => 0 ≤ v, 0⟩)).next (.create 0 rfl rfl)
  have h := h.next (.create 1 rfl rfl)
  have h := h.next (.create 2 rfl rfl)
  have h := h.next (.upd 0 5 rfl rfl (by decide))
  have h := h.next (.upd 1 6 rfl rfl (by decide))
  have h := h.next (.upd 2 7 rfl rfl (by decide))
  have h := h.next (.leave 2 rfl rfl)
  have h := h.next (.merge 2 rfl rfl)
  have h := h.next (.get rfl)
  have h := h.next (.walk false _ rfl)
  have h := h.next (.look _ 0 [1] _ rfl)
  have h := h.next (.look _ 1 [] _ rfl)
  exact ⟨_, _, h, rfl, rfl, rfl, rfl⟩

end Verif.Tvar.Cell
