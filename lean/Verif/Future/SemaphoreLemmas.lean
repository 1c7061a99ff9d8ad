import Verif.Future.SemaphoreSpec
/-!
# Invariant of the asynchronous semaphore
-/

namespace Verif.Future.Sem

/-- Waiters whose units are set aside but whose futures are not ready yet. -/
def readyOf : List Frame → List Entry
  | [] => []
  | .sig r :: fs => r ++ readyOf fs
  | .brk :: fs => readyOf fs

def units (l : List Entry) : Nat := (l.map Entry.num).sum

/-- The waiters that are neither served, nor set aside, nor failed. -/
def rest (s : St) : List Entry := if s.frontSet then s.waiting.tail else s.waiting

@[simp] theorem served_nil : served [] = [] := rfl
@[simp] theorem failed_nil : failed [] = [] := rfl
@[simp] theorem arrivals_nil : arrivals [] = [] := rfl
@[simp] theorem handedOut_nil : handedOut [] = 0 := rfl
@[simp] theorem deposited_nil : deposited [] = 0 := rfl
@[simp] theorem served_cons (e : Ev) (tr : List Ev) : served (e :: tr) = e.resolved?.toList ++ served tr := by
  cases h : e.resolved? <;> simp [served, h]
@[simp] theorem failed_cons (e : Ev) (tr : List Ev) : failed (e :: tr) = e.rejected?.toList ++ failed tr := by
  cases h : e.rejected? <;> simp [failed, h]
@[simp] theorem arrivals_cons (e : Ev) (tr : List Ev) : arrivals (e :: tr) = e.queued?.toList ++ arrivals tr := by
  cases h : e.queued? <;> simp [arrivals, h]
@[simp] theorem handedOut_cons (e : Ev) (tr : List Ev) : handedOut (e :: tr) = e.out + handedOut tr := by
  simp [handedOut]
@[simp] theorem deposited_cons (e : Ev) (tr : List Ev) : deposited (e :: tr) = e.deposit + deposited tr := by
  simp [deposited]
attribute [simp] Ev.resolved? Ev.rejected? Ev.queued? Ev.deposit Ev.out

@[simp] theorem served_append (a b : List Ev) : served (a ++ b) = served a ++ served b := List.filterMap_append
@[simp] theorem failed_append (a b : List Ev) : failed (a ++ b) = failed a ++ failed b := List.filterMap_append
@[simp] theorem arrivals_append (a b : List Ev) : arrivals (a ++ b) = arrivals a ++ arrivals b :=
  List.filterMap_append
@[simp] theorem handedOut_append (a b : List Ev) : handedOut (a ++ b) = handedOut a + handedOut b := by
  simp [handedOut, List.sum_append]
@[simp] theorem deposited_append (a b : List Ev) : deposited (a ++ b) = deposited a + deposited b := by
  simp [deposited, List.sum_append]
@[simp] theorem units_append (a b : List Entry) : units (a ++ b) = units a + units b := by
  simp [units, List.sum_append]
@[simp] theorem units_cons (a : Entry) (b : List Entry) : units (a :: b) = a.num + units b := by
  simp [units]
@[simp] theorem units_nil : units [] = 0 := rfl

theorem scan_eq (c : Nat) (w : List Entry) :
    (scan c w).2.1 ++ (scan c w).2.2 = w ∧ (scan c w).1 + units (scan c w).2.1 = c ∧
    ∀ e ∈ (scan c w).2.2.head?, (scan c w).1 < e.num := by
  induction w generalizing c with
  | nil => simp [scan]
  | cons e w ih =>
    unfold scan
    split
    · obtain ⟨h1, h2, h3⟩ := ih (c - e.num)
      refine ⟨by simp [h1], by simp only [units_cons]; omega, h3⟩
    · refine ⟨rfl, by simp, ?_⟩
      intro x hx; simp at hx; subst hx; omega

structure Inv (u : Nat) (s : St) (tr : List Ev) : Prop where
  doing : s.doing = (readyOf s.stack).length
  order : served tr ++ readyOf s.stack ++ failed tr ++ rest s = arrivals tr
  clean : s.broken = false → failed tr = [] ∧ s.frontSet = false ∧ .brk ∉ s.stack
  front : s.frontSet = true → s.waiting ≠ []
  broken : s.broken = true → s.count = 0 ∧ (s.waiting ≠ [] → s.frontSet = true ∧ .brk ∈ s.stack)
  said : s.broken = true ↔ .broke ∈ tr
  units_le : u + deposited tr < 2 ^ 64 →
    s.count + units (readyOf s.stack) + handedOut tr ≤ u + deposited tr ∧
    (s.broken = false → s.count + units (readyOf s.stack) + handedOut tr = u + deposited tr)
  ids : (arrivals tr).map Entry.id = List.range s.next

theorem Inv.init (u : Nat) : Inv u (init u) [] where
  doing := rfl
  order := rfl
  clean := fun _ => by simp [Sem.init]
  front := by simp [Sem.init]
  broken := by simp [Sem.init]
  said := by simp [Sem.init]
  units_le := fun _ => by simp [Sem.init, readyOf]
  ids := rfl

namespace Inv

variable {u : Nat} {s : St} {tr : List Ev}

theorem wait (h : Inv u s tr) (n : Nat) : Inv u (Sem.wait s n).1 (tr ++ (Sem.wait s n).2) := by
  unfold Sem.wait
  split
  · next hp =>
    simp only [mayProceed, Bool.and_eq_true, decide_eq_true_eq, List.isEmpty_iff] at hp
    refine ⟨h.doing, ?_, ?_, h.front, ?_, by simpa using h.said, ?_, ?_⟩
    · simpa [rest] using h.order
    · simpa using h.clean
    · intro hb; have := h.broken hb; exact ⟨by simp; omega, this.2⟩
    · intro hu
      simp at hu ⊢
      have := h.units_le hu
      exact ⟨by omega, fun hb => by have := this.2 hb; omega⟩
    · simpa using h.ids
  · split
    · exact ⟨h.doing, by simpa using h.order,
        by simpa using h.clean, h.front, h.broken, by simpa using h.said,
        by simpa using h.units_le,
        by simpa using h.ids⟩
    · next hb =>
      simp only [Bool.not_eq_true] at hb
      have hc := h.clean hb
      refine ⟨h.doing, ?_, ?_, by simp, by simp [hb], by simpa using h.said, ?_, ?_⟩
      · have := h.order
        simp only [rest, hc.2.1, hc.1, Bool.false_eq_true, if_false] at this ⊢
        simp at this hc ⊢
        simp only [← List.append_assoc, ← this, hc.1, List.append_nil]
      · simpa using h.clean
      · simpa using h.units_le
      · have := h.ids
        simp at this ⊢
        rw [List.range_succ, this]

theorem tryWait (h : Inv u s tr) (n : Nat) : Inv u (Sem.tryWait s n).1 (tr ++ (Sem.tryWait s n).2) := by
  unfold Sem.tryWait
  split
  · next hp =>
    simp only [mayProceed, Bool.and_eq_true, decide_eq_true_eq, List.isEmpty_iff] at hp
    refine ⟨h.doing, ?_, ?_, h.front, ?_, by simpa using h.said, ?_, ?_⟩
    · simpa [rest] using h.order
    · simpa using h.clean
    · intro hb; have := h.broken hb; exact ⟨by simp; omega, this.2⟩
    · intro hu
      simp at hu ⊢
      have := h.units_le hu
      exact ⟨by omega, fun hb => by have := this.2 hb; omega⟩
    · simpa using h.ids
  · exact ⟨h.doing, by simpa using h.order,
        by simpa using h.clean, h.front, h.broken, by simpa using h.said,
        by simpa using h.units_le,
        by simpa using h.ids⟩

/-- Serving the ready list `r`, which is on top of the stack. -/
theorem serve {r : List Entry} (h : Inv u { s with stack := .sig r :: s.stack } tr) :
    Inv u (Sem.serve s r).1 (tr ++ (Sem.serve s r).2) := by
  cases r with
  | nil =>
    refine ⟨h.doing, by have := h.order; simp [Sem.serve, readyOf, rest] at this ⊢; exact this, ?_, h.front, ?_,
      by simpa [Sem.serve] using h.said, by simpa [Sem.serve, readyOf] using h.units_le, by simpa [Sem.serve] using h.ids⟩
    · simpa [Sem.serve] using h.clean
    · simpa [Sem.serve] using h.broken
  | cons e r =>
    refine ⟨?_, ?_, ?_, h.front, by simpa [Sem.serve] using h.broken, by simpa [Sem.serve] using h.said, ?_, ?_⟩
    · have := h.doing
      simp [Sem.serve, readyOf] at this ⊢; omega
    · have := h.order
      simp [Sem.serve, readyOf, rest] at this ⊢
      exact this
    · simpa [Sem.serve] using h.clean
    · have := h.units_le
      simp [Sem.serve, readyOf] at this ⊢
      intro hu
      have := this hu
      exact ⟨by omega, fun hb => by have := this.2 hb; omega⟩
    · simpa [Sem.serve] using h.ids

theorem signal (h : Inv u s tr) (n : Nat) : Inv u (Sem.signal s n).1 (tr ++ (Sem.signal s n).2) := by
  unfold Sem.signal
  split
  · exact ⟨h.doing, by simpa using h.order,
        by simpa using h.clean, h.front, h.broken, by simpa using h.said,
        by simpa using h.units_le,
        by simpa using h.ids⟩
  · next hb =>
    simp only [Bool.not_eq_true] at hb
    have hc := h.clean hb
    -- the state after the deposit
    have h1 : Inv u { s with count := (s.count + n) % 2 ^ 64 } (tr ++ [.signalled n true]) := by
      refine ⟨h.doing, by simpa [rest] using h.order,
        by simpa using h.clean, h.front, by simp [hb], by simpa using h.said, ?_,
        by simpa using h.ids⟩
      have := h.units_le
      simp [hb] at this ⊢
      intro hu
      have := this (by omega)
      have e : (s.count + n) % 2 ^ 64 = s.count + n := Nat.mod_eq_of_lt (by omega)
      omega
    simp only
    split
    · exact h1
    · next hd =>
      generalize (s.count + n) % 2 ^ 64 = c at *
      obtain ⟨e1, e2, -⟩ := scan_eq c s.waiting
      have hr : readyOf s.stack = [] := List.length_eq_zero_iff.1 (by have := h.doing; simp at hd; omega)
      have h2 := serve (u := u) (tr := tr ++ [.signalled n true]) (r := (scan c s.waiting).2.1)
        (s := { s with count := (scan c s.waiting).1, waiting := (scan c s.waiting).2.2,
                       doing := (scan c s.waiting).2.1.length }) (by
          refine ⟨by simp [readyOf, hr], ?_, ?_, ?_, by simp [hb], h1.said, ?_, h1.ids⟩
          · have := h1.order
            have hf : failed tr = [] := hc.1
            simp [readyOf, hr, rest, hc.2.1] at this hf ⊢
            simp [hf] at this ⊢
            rw [e1]; exact this
          · intro _; exact ⟨(h1.clean hb).1, hc.2.1, by simp [hc.2.2]⟩
          · simp [hc.2.1]
          · have := h1.units_le
            intro hu
            have := this hu
            simp only [readyOf, hr, List.append_nil, units_nil] at this ⊢
            have h3 := this.2 hb
            exact ⟨by omega, fun _ => by omega⟩)
      simpa using h2

/-- Failing the waiters `w` from the first one on. -/
theorem failAll (w : List Entry) (hb : s.broken = true) (hc : s.count = 0)
    (hd : s.doing = (readyOf s.stack).length)
    (hn : s.frontSet = true → w ≠ [])
    (ho : served tr ++ readyOf s.stack ++ failed tr ++ (if s.frontSet then w.tail else w) = arrivals tr)
    (hs : .broke ∈ tr) (hu : u + deposited tr < 2 ^ 64 → units (readyOf s.stack) + handedOut tr ≤ u + deposited tr)
    (hi : (arrivals tr).map Entry.id = List.range s.next) :
    Inv u (Sem.fail s w).1 (tr ++ (Sem.fail s w).2) := by
  have aux : ∀ (e : Entry) (w : List Entry), served tr ++ readyOf s.stack ++ failed tr ++ e :: w = arrivals tr →
      Inv u { s with waiting := e :: w, frontSet := true, stack := .brk :: s.stack } (tr ++ [.rejected e]) := by
    intro e w ho
    refine ⟨hd, ?_, by simp [hb], by simp, fun _ => ⟨hc, by simp⟩, by simp [hb, hs], ?_, ?_⟩
    · simp [readyOf, rest] at ho ⊢
      exact ho
    · intro h
      have := hu (by simpa using h)
      simp [readyOf, hb, hc] at this ⊢
      omega
    · simpa using hi
  have fin : s.frontSet = false ∨ True → served tr ++ readyOf s.stack ++ failed tr = arrivals tr →
      ∀ b : Bool, b = false → Inv u { s with waiting := [], frontSet := b } (tr ++ []) := by
    intro _ ho b hb'
    subst hb'
    refine ⟨hd, by simpa [rest] using ho, by simp [hb], by simp, fun _ => ⟨hc, by simp⟩, by simp [hb, hs], ?_,
      by simpa using hi⟩
    intro h
    have := hu (by simpa using h)
    simp [hb, hc] at this ⊢; omega
  cases w with
  | nil =>
    have hf : s.frontSet = false := by
      cases h : s.frontSet with
      | false => rfl
      | true => exact absurd rfl (hn h)
    have := fin (Or.inr trivial) (by simpa [hf] using ho) false rfl
    have e : { s with waiting := [], frontSet := false } = { s with waiting := [] } := by rw [← hf]
    rw [e] at this
    exact this
  | cons e w =>
    unfold Sem.fail
    cases hf : s.frontSet with
    | false =>
      simp only [Bool.false_eq_true, if_false]
      exact aux e w (by simpa [hf] using ho)
    | true =>
      simp only [if_true]
      cases w with
      | nil => exact fin (Or.inr trivial) (by simpa [hf] using ho) false rfl
      | cons e' w' => exact aux e' w' (by simpa [hf] using ho)

theorem broke (h : Inv u s tr) : Inv u (Sem.broke s).1 (tr ++ (Sem.broke s).2) := by
  unfold Sem.broke
  have := failAll (u := u) (tr := tr ++ [.broke]) (s := { s with broken := true, count := 0 })
    s.waiting rfl rfl h.doing h.front
    (by simpa [rest] using h.order)
    (by simp)
    (by
      intro hu
      have := h.units_le (by simpa using hu)
      simp at this ⊢; omega)
    (by simpa using h.ids)
  simpa using this

theorem ret (h : Inv u s tr) : Inv u (Sem.ret s).1 (tr ++ (Sem.ret s).2) := by
  unfold Sem.ret
  split
  · simpa using h
  · next r fs e =>
    refine serve ?_
    have : { s with stack := .sig r :: fs } = s := by rw [← e]
    exact this ▸ h
  · next fs e =>
    split
    · refine ⟨h.doing, by simpa [rest] using h.order,
        by simpa using h.clean, h.front, h.broken, by simpa using h.said,
        by simpa using h.units_le,
        by simpa using h.ids⟩
    · next x w hw =>
      have hb : s.broken = true := by
        cases hb : s.broken with
        | true => rfl
        | false => exact absurd (by simp [e]) (h.clean hb).2.2
      have hbr := h.broken hb
      have hf := (hbr.2 (by simp [hw])).1
      have hd := h.doing
      have ho := h.order
      have hu := h.units_le
      simp only [e, readyOf] at hd ho hu
      refine failAll w hb hbr.1 hd (by simp) ?_ (h.said.1 hb) ?_ h.ids
      · simpa [rest, hf, hw] using ho
      · intro h'
        have := (hu h').1
        show units (readyOf fs) + _ ≤ _
        omega

theorem step (h : Inv u s tr) (a : Act) : Inv u (Sem.step s a).1 (tr ++ (Sem.step s a).2) := by
  unfold Sem.step
  split
  · simpa using h
  · cases a with
    | wait n => exact h.wait n
    | tryWait n => exact h.tryWait n
    | signal n => exact h.signal n
    | broke => exact h.broke
    | ret => exact h.ret

end Inv

theorem Inv.run {u : Nat} (as : List Act) : ∀ {s tr}, Inv u s tr → Inv u (run s tr as).1 (run s tr as).2 := by
  induction as with
  | nil => intro s tr h; exact h
  | cons a as ih => intro s tr h; exact ih (h.step a)

end Verif.Future.Sem
