import Verif.Reactor.Timers
import Verif.Fiber.HeapLemmas

/-!
# The timers of the default reactor: specification, invariant, properties
-/

namespace Verif.Reactor.Timers

open Verif.Fiber

/-! ## Specification -/

/-- What is known of a timer: when it is due next, if ever; its interval; whether it is paused. -/
structure Tm where
  due : Option Nat
  iv : Nat
  paused : Bool

def Ev.on (e : Ev) (i : Nat) (t : Tm) : Tm :=
  match e with
  | .add j due iv => if j = i then ⟨some due, iv, false⟩ else t
  | .fire j _ _ => if j = i then { t with due := if t.iv = 0 then none else t.due.map (· + t.iv) } else t
  | .skip j _ _ => if j = i then { t with due := if t.iv = 0 then none else t.due.map (· + t.iv) } else t
  | .cancel j => if j = i then { t with due := none } else t
  | .pause j => if j = i then { t with paused := true } else t
  | .resume j => if j = i then { t with paused := false } else t

def view (log : List Ev) (i : Nat) : Tm := log.foldl (fun t e => e.on i t) ⟨none, 0, false⟩

theorem view_append (l : List Ev) (e : Ev) (i : Nat) : view (l ++ [e]) i = e.on i (view l i) := by
  simp [view, List.foldl_append]

/-- What may be the next event. -/
def Fits (log : List Ev) : Ev → Prop
  | .fire i due now => (view log i).due = some due ∧ (view log i).paused = false ∧ due ≤ now ∧ ∀ j d, (view log j).due = some d → due ≤ d
  | .skip i due now => (view log i).due = some due ∧ (view log i).paused = true ∧ due ≤ now ∧ ∀ j d, (view log j).due = some d → due ≤ d
  | .add i _ _ => ∀ e ∈ log, (∀ d iv, e ≠ .add i d iv)
  | _ => True

/-! ## Invariant -/

structure Inv (q : Q) : Prop where
  ord : q.heap.Ord q.exp 0
  inj : q.heap.Inj
  lt : ∀ i, q.heap.Has i → i < q.next
  due : ∀ i, i < q.next → ∀ d, (view q.log i).due = some d ↔ q.heap.Has i ∧ q.cancelled i = false ∧ d = q.exp i
  iv : ∀ i, i < q.next → (view q.log i).iv = q.iv i
  pause : ∀ i, i < q.next → (view q.log i).paused = q.paused i
  new : ∀ i, q.next ≤ i → (view q.log i).due = none ∧ ∀ e ∈ q.log, ∀ d iv, e ≠ .add i d iv
  fits : ∀ l1 e l2, q.log = l1 ++ e :: l2 → Fits l1 e

/-- While the executor of the timer at the top runs. -/
structure Mid (q : Q) (c : Nat) : Prop where
  ord : q.heap.Ord q.exp 0
  inj : q.heap.Inj
  pos : 0 < q.heap.n
  top : q.heap.top = c
  lt : ∀ i, q.heap.Has i → i < q.next
  due : ∀ i, i < q.next → i ≠ c → ∀ d, (view q.log i).due = some d ↔ q.heap.Has i ∧ q.cancelled i = false ∧ d = q.exp i
  cur : ∀ d, (view q.log c).due = some d ↔ q.cancelled c = false ∧ q.iv c ≠ 0 ∧ d = q.exp c + q.iv c
  iv : ∀ i, i < q.next → (view q.log i).iv = q.iv i
  pause : ∀ i, i < q.next → (view q.log i).paused = q.paused i
  new : ∀ i, q.next ≤ i → (view q.log i).due = none ∧ ∀ e ∈ q.log, ∀ d iv, e ≠ .add i d iv
  fits : ∀ l1 e l2, q.log = l1 ++ e :: l2 → Fits l1 e

theorem siftUp_root {key a : Nat → Nat} {hole v : Nat} (h0 : 0 < hole) (hv : key (a 0) ≤ key v) : siftUp key a hole v 0 = a 0 := by
  induction hole using Nat.strongRecOn generalizing a with
  | ind hole ih =>
    unfold siftUp
    rw [dif_neg (by omega)]
    split
    · rename_i hlt
      by_cases hp : (hole - 1) / 2 = 0
      · rw [hp] at hlt
        omega
      · rw [ih ((hole - 1) / 2) (by omega) (by omega)]
        · simp [upd]; omega
        · simp only [upd]
          rw [if_neg (by omega)]
          exact hv
    · simp [upd]; omega

theorem push_top {key : Nat → Nat} {h : Heap} {v : Nat} (h0 : 0 < h.n) (hv : key h.top ≤ key v) : (h.push key v).top = h.top :=
  siftUp_root h0 hv

theorem fits_append {log : List Ev} {e : Ev} (h : ∀ l1 e l2, log = l1 ++ e :: l2 → Fits l1 e) (he : Fits log e) :
    ∀ l1 e' l2, log ++ [e] = l1 ++ e' :: l2 → Fits l1 e' := by
  intro l1 e' l2 hl
  rcases List.eq_nil_or_concat l2 with rfl | ⟨l2', x, rfl⟩
  · have := List.append_inj' hl rfl
    obtain ⟨rfl, h2⟩ := this
    cases h2
    exact he
  · rw [List.concat_eq_append, ← List.cons_append, ← List.append_assoc] at hl
    have := List.append_inj' hl rfl
    exact h l1 e' l2' this.1

theorem new_append {log : List Ev} {e : Ev} {i : Nat} (h : ∀ e ∈ log, ∀ d iv, e ≠ .add i d iv) (he : ∀ d iv, e ≠ .add i d iv) :
    ∀ e' ∈ log ++ [e], ∀ d iv, e' ≠ .add i d iv := by
  intro e' he'
  rcases List.mem_append.1 he' with h1 | h1
  · exact h e' h1
  · rw [List.mem_singleton] at h1
    subst h1; exact he

theorem upd_eq {α : Type} (f : Nat → α) (i : Nat) (v : α) (j : Nat) : upd f i v j = if j = i then v else f j := rfl

theorem Inv.op {q : Q} (h : Inv q) (o : Op) : Inv (q.op o) := by
  cases o with
  | add due iv =>
    have hx : ¬ q.heap.Has q.next := fun hh => by have := h.lt _ hh; omega
    have hk : ∀ x, q.heap.Has x → upd q.exp q.next due x = q.exp x := by
      intro x hxx
      have := h.lt x hxx
      rw [upd_eq, if_neg (by omega)]
    refine ⟨?_, Heap.push_inj h.inj hx, ?_, ?_, ?_, ?_, ?_, ?_⟩
    · exact Heap.push_ord (h.ord.congr hk) (.inl rfl)
    · intro i hi
      show i < q.next + 1
      rcases (Heap.push_has i).1 hi with h1 | h1
      · have := h.lt i h1; omega
      · omega
    · intro i hi d
      show (view (q.log ++ [_]) i).due = some d ↔ (q.heap.push (upd q.exp q.next due) q.next).Has i ∧ upd q.cancelled q.next false i = false ∧ d = upd q.exp q.next due i
      rw [view_append, Heap.push_has, upd_eq, upd_eq]
      simp only [Ev.on]
      by_cases hin : q.next = i
      · subst hin
        simp
        exact eq_comm
      · have : i < q.next := by have : i < q.next + 1 := hi; omega
        rw [if_neg hin, if_neg (fun e => hin e.symm), if_neg (fun e => hin e.symm), h.due i this d]
        constructor
        · rintro ⟨a, b, c⟩; exact ⟨.inl a, b, c⟩
        · rintro ⟨a | a, b, c⟩
          · exact ⟨a, b, c⟩
          · exact absurd a.symm hin
    · intro i hi
      show (view (q.log ++ [_]) i).iv = upd q.iv q.next iv i
      rw [view_append, upd_eq]
      simp only [Ev.on]
      by_cases hin : q.next = i
      · subst hin; simp
      · have : i < q.next := by have : i < q.next + 1 := hi; omega
        rw [if_neg hin, if_neg (fun e => hin e.symm), h.iv i this]
    · intro i hi
      show (view (q.log ++ [_]) i).paused = upd q.paused q.next false i
      rw [view_append, upd_eq]
      simp only [Ev.on]
      by_cases hin : q.next = i
      · subst hin; simp
      · have : i < q.next := by have : i < q.next + 1 := hi; omega
        rw [if_neg hin, if_neg (fun e => hin e.symm), h.pause i this]
    · intro i hi
      have hi : q.next + 1 ≤ i := hi
      refine ⟨?_, new_append (h.new i (by omega)).2 ?_⟩
      · show (view (q.log ++ [_]) i).due = none
        rw [view_append]
        simp only [Ev.on]
        rw [if_neg (by omega)]
        exact (h.new i (by omega)).1
      · intro d iv' he
        cases he; omega
    · exact fits_append h.fits (h.new q.next (Nat.le_refl _)).2
  | cancel j =>
    refine ⟨h.ord, h.inj, h.lt, ?_, ?_, ?_, ?_, fits_append h.fits trivial⟩
    · intro i hi d
      show (view (q.log ++ [_]) i).due = some d ↔ q.heap.Has i ∧ upd q.cancelled j true i = false ∧ d = q.exp i
      rw [view_append, upd_eq]
      simp only [Ev.on]
      by_cases hj : j = i
      · subst hj; simp
      · rw [if_neg hj, if_neg (fun e => hj e.symm)]; exact h.due i hi d
    · intro i hi
      show (view (q.log ++ [_]) i).iv = q.iv i
      rw [view_append, ← h.iv i hi]
      simp only [Ev.on]; split <;> rfl
    · intro i hi
      show (view (q.log ++ [_]) i).paused = q.paused i
      rw [view_append, ← h.pause i hi]
      simp only [Ev.on]; split <;> rfl
    · intro i hi
      refine ⟨?_, new_append (h.new i hi).2 (by intro _ _ e; cases e)⟩
      show (view (q.log ++ [_]) i).due = none
      rw [view_append]
      simp only [Ev.on]; split
      · rfl
      · exact (h.new i hi).1
  | pause j =>
    refine ⟨h.ord, h.inj, h.lt, ?_, ?_, ?_, ?_, fits_append h.fits trivial⟩
    · intro i hi d
      show (view (q.log ++ [_]) i).due = some d ↔ _
      rw [view_append]
      refine Iff.trans ?_ (h.due i hi d)
      simp only [Ev.on]; split <;> rfl
    · intro i hi
      show (view (q.log ++ [_]) i).iv = q.iv i
      rw [view_append, ← h.iv i hi]
      simp only [Ev.on]; split <;> rfl
    · intro i hi
      show (view (q.log ++ [_]) i).paused = upd q.paused j true i
      rw [view_append, upd_eq, ← h.pause i hi]
      simp only [Ev.on]
      by_cases hj : j = i
      · subst hj; simp
      · rw [if_neg hj, if_neg (fun e => hj e.symm)]
    · intro i hi
      refine ⟨?_, new_append (h.new i hi).2 (by intro _ _ e; cases e)⟩
      show (view (q.log ++ [_]) i).due = none
      rw [view_append, ← (h.new i hi).1]
      simp only [Ev.on]; split <;> rfl
  | resume j =>
    refine ⟨h.ord, h.inj, h.lt, ?_, ?_, ?_, ?_, fits_append h.fits trivial⟩
    · intro i hi d
      show (view (q.log ++ [_]) i).due = some d ↔ _
      rw [view_append]
      refine Iff.trans ?_ (h.due i hi d)
      simp only [Ev.on]; split <;> rfl
    · intro i hi
      show (view (q.log ++ [_]) i).iv = q.iv i
      rw [view_append, ← h.iv i hi]
      simp only [Ev.on]; split <;> rfl
    · intro i hi
      show (view (q.log ++ [_]) i).paused = upd q.paused j false i
      rw [view_append, upd_eq, ← h.pause i hi]
      simp only [Ev.on]
      by_cases hj : j = i
      · subst hj; simp
      · rw [if_neg hj, if_neg (fun e => hj e.symm)]
    · intro i hi
      refine ⟨?_, new_append (h.new i hi).2 (by intro _ _ e; cases e)⟩
      show (view (q.log ++ [_]) i).due = none
      rw [view_append, ← (h.new i hi).1]
      simp only [Ev.on]; split <;> rfl

/-- An operation of an executor: the timer that runs stays at the top. -/
theorem Mid.op {q : Q} {c : Nat} (h : Mid q c) (o : Op) (ho : ∀ due iv, o = .add due iv → q.exp c ≤ due) : Mid (q.op o) c := by
  have hc : q.heap.Has c := ⟨0, h.pos, h.top⟩
  have hcl : c < q.next := h.lt c hc
  cases o with
  | add due iv =>
    have hx : ¬ q.heap.Has q.next := fun hh => by have := h.lt _ hh; omega
    have hk : ∀ x, q.heap.Has x → upd q.exp q.next due x = q.exp x := by
      intro x hxx
      have := h.lt x hxx
      rw [upd_eq, if_neg (by omega)]
    have hd := ho due iv rfl
    refine ⟨?_, Heap.push_inj h.inj hx, Nat.succ_pos _, ?_, ?_, ?_, ?_, ?_, ?_, ?_, ?_⟩
    · exact Heap.push_ord (h.ord.congr hk) (.inl rfl)
    · refine (push_top h.pos ?_).trans h.top
      rw [h.top, hk c hc, upd_eq, if_pos rfl]
      exact hd
    · intro i hi
      show i < q.next + 1
      rcases (Heap.push_has i).1 hi with h1 | h1
      · have := h.lt i h1; omega
      · omega
    · intro i hi hne d
      show (view (q.log ++ [_]) i).due = some d ↔ (q.heap.push (upd q.exp q.next due) q.next).Has i ∧ upd q.cancelled q.next false i = false ∧ d = upd q.exp q.next due i
      rw [view_append, Heap.push_has, upd_eq, upd_eq]
      simp only [Ev.on]
      by_cases hin : q.next = i
      · subst hin
        simp
        exact eq_comm
      · have : i < q.next := by have : i < q.next + 1 := hi; omega
        rw [if_neg hin, if_neg (fun e => hin e.symm), if_neg (fun e => hin e.symm), h.due i this hne d]
        constructor
        · rintro ⟨a, b, c⟩; exact ⟨.inl a, b, c⟩
        · rintro ⟨a | a, b, c⟩
          · exact ⟨a, b, c⟩
          · exact absurd a.symm hin
    · intro d
      show (view (q.log ++ [_]) c).due = some d ↔ upd q.cancelled q.next false c = false ∧ upd q.iv q.next iv c ≠ 0 ∧ d = upd q.exp q.next due c + upd q.iv q.next iv c
      rw [view_append, upd_eq, upd_eq, upd_eq]
      simp only [Ev.on]
      rw [if_neg (by omega), if_neg (by omega), if_neg (by omega), if_neg (by omega)]
      exact h.cur d
    · intro i hi
      show (view (q.log ++ [_]) i).iv = upd q.iv q.next iv i
      rw [view_append, upd_eq]
      simp only [Ev.on]
      by_cases hin : q.next = i
      · subst hin; simp
      · have : i < q.next := by have : i < q.next + 1 := hi; omega
        rw [if_neg hin, if_neg (fun e => hin e.symm), h.iv i this]
    · intro i hi
      show (view (q.log ++ [_]) i).paused = upd q.paused q.next false i
      rw [view_append, upd_eq]
      simp only [Ev.on]
      by_cases hin : q.next = i
      · subst hin; simp
      · have : i < q.next := by have : i < q.next + 1 := hi; omega
        rw [if_neg hin, if_neg (fun e => hin e.symm), h.pause i this]
    · intro i hi
      have hi : q.next + 1 ≤ i := hi
      refine ⟨?_, new_append (h.new i (by omega)).2 ?_⟩
      · show (view (q.log ++ [_]) i).due = none
        rw [view_append]
        simp only [Ev.on]
        rw [if_neg (by omega)]
        exact (h.new i (by omega)).1
      · intro d iv' he
        cases he; omega
    · exact fits_append h.fits (h.new q.next (Nat.le_refl _)).2
  | cancel j =>
    refine ⟨h.ord, h.inj, h.pos, h.top, h.lt, ?_, ?_, ?_, ?_, ?_, fits_append h.fits trivial⟩
    · intro i hi hne d
      show (view (q.log ++ [_]) i).due = some d ↔ q.heap.Has i ∧ upd q.cancelled j true i = false ∧ d = q.exp i
      rw [view_append, upd_eq]
      simp only [Ev.on]
      by_cases hj : j = i
      · subst hj; simp
      · rw [if_neg hj, if_neg (fun e => hj e.symm)]; exact h.due i hi hne d
    · intro d
      show (view (q.log ++ [_]) c).due = some d ↔ upd q.cancelled j true c = false ∧ q.iv c ≠ 0 ∧ d = q.exp c + q.iv c
      rw [view_append, upd_eq]
      simp only [Ev.on]
      by_cases hj : j = c
      · subst hj; simp
      · rw [if_neg hj, if_neg (fun e => hj e.symm)]; exact h.cur d
    · intro i hi
      show (view (q.log ++ [_]) i).iv = q.iv i
      rw [view_append, ← h.iv i hi]
      simp only [Ev.on]; split <;> rfl
    · intro i hi
      show (view (q.log ++ [_]) i).paused = q.paused i
      rw [view_append, ← h.pause i hi]
      simp only [Ev.on]; split <;> rfl
    · intro i hi
      refine ⟨?_, new_append (h.new i hi).2 (by intro _ _ e; cases e)⟩
      show (view (q.log ++ [_]) i).due = none
      rw [view_append]
      simp only [Ev.on]; split
      · rfl
      · exact (h.new i hi).1
  | pause j =>
    refine ⟨h.ord, h.inj, h.pos, h.top, h.lt, ?_, ?_, ?_, ?_, ?_, fits_append h.fits trivial⟩
    · intro i hi hne d
      show (view (q.log ++ [_]) i).due = some d ↔ _
      rw [view_append]
      refine Iff.trans ?_ (h.due i hi hne d)
      simp only [Ev.on]; split <;> rfl
    · intro d
      show (view (q.log ++ [_]) c).due = some d ↔ _
      rw [view_append]
      refine Iff.trans ?_ (h.cur d)
      simp only [Ev.on]; split <;> rfl
    · intro i hi
      show (view (q.log ++ [_]) i).iv = q.iv i
      rw [view_append, ← h.iv i hi]
      simp only [Ev.on]; split <;> rfl
    · intro i hi
      show (view (q.log ++ [_]) i).paused = upd q.paused j true i
      rw [view_append, upd_eq, ← h.pause i hi]
      simp only [Ev.on]
      by_cases hj : j = i
      · subst hj; simp
      · rw [if_neg hj, if_neg (fun e => hj e.symm)]
    · intro i hi
      refine ⟨?_, new_append (h.new i hi).2 (by intro _ _ e; cases e)⟩
      show (view (q.log ++ [_]) i).due = none
      rw [view_append, ← (h.new i hi).1]
      simp only [Ev.on]; split <;> rfl
  | resume j =>
    refine ⟨h.ord, h.inj, h.pos, h.top, h.lt, ?_, ?_, ?_, ?_, ?_, fits_append h.fits trivial⟩
    · intro i hi hne d
      show (view (q.log ++ [_]) i).due = some d ↔ _
      rw [view_append]
      refine Iff.trans ?_ (h.due i hi hne d)
      simp only [Ev.on]; split <;> rfl
    · intro d
      show (view (q.log ++ [_]) c).due = some d ↔ _
      rw [view_append]
      refine Iff.trans ?_ (h.cur d)
      simp only [Ev.on]; split <;> rfl
    · intro i hi
      show (view (q.log ++ [_]) i).iv = q.iv i
      rw [view_append, ← h.iv i hi]
      simp only [Ev.on]; split <;> rfl
    · intro i hi
      show (view (q.log ++ [_]) i).paused = upd q.paused j false i
      rw [view_append, upd_eq, ← h.pause i hi]
      simp only [Ev.on]
      by_cases hj : j = i
      · subst hj; simp
      · rw [if_neg hj, if_neg (fun e => hj e.symm)]
    · intro i hi
      refine ⟨?_, new_append (h.new i hi).2 (by intro _ _ e; cases e)⟩
      show (view (q.log ++ [_]) i).due = none
      rw [view_append, ← (h.new i hi).1]
      simp only [Ev.on]; split <;> rfl

theorem op_exp {q : Q} {o : Op} {c : Nat} (hc : c < q.next) : (q.op o).exp c = q.exp c ∧ c < (q.op o).next := by
  cases o with
  | add due iv =>
    refine ⟨?_, Nat.lt_succ_of_lt hc⟩
    show upd q.exp q.next due c = q.exp c
    rw [upd_eq, if_neg (by omega)]
  | _ => exact ⟨rfl, hc⟩

theorem Mid.ops {q : Q} {c : Nat} (l : List Op) (h : Mid q c) (ho : ∀ due iv, .add due iv ∈ l → q.exp c ≤ due) : Mid (q.ops l) c := by
  induction l generalizing q with
  | nil => exact h
  | cons o l ih =>
    have hc : c < q.next := h.lt c ⟨0, h.pos, h.top⟩
    refine ih (h.op o fun due iv e => ho due iv (by rw [e]; exact List.mem_cons_self ..)) ?_
    intro due iv hm
    rw [(op_exp hc).1]
    exact ho due iv (List.mem_cons_of_mem _ hm)

theorem Inv.begin {q : Q} (h : Inv q) (hn : q.heap.n ≠ 0) (hc : q.cancelled q.heap.top = false) {now : Nat} (e : Ev)
    (he : e = .fire q.heap.top (q.exp q.heap.top) now ∧ q.paused q.heap.top = false ∨ e = .skip q.heap.top (q.exp q.heap.top) now ∧ q.paused q.heap.top = true)
    (hd : q.exp q.heap.top ≤ now) : Mid { q with log := q.log ++ [e] } q.heap.top := by
  have hh : q.heap.Has q.heap.top := ⟨0, by omega, rfl⟩
  have hl := h.lt _ hh
  have hdue : (view q.log q.heap.top).due = some (q.exp q.heap.top) := (h.due _ hl _).2 ⟨hh, hc, rfl⟩
  have hmin : ∀ j d, (view q.log j).due = some d → q.exp q.heap.top ≤ d := by
    intro j d hj
    by_cases hjn : j < q.next
    · obtain ⟨a, b, rfl⟩ := (h.due j hjn d).1 hj
      exact h.ord.top_le a
    · rw [(h.new j (by omega)).1] at hj; cases hj
  have hon : ∀ i, i ≠ q.heap.top → e.on i (view q.log i) = view q.log i := by
    intro i hi
    rcases he with ⟨rfl, -⟩ | ⟨rfl, -⟩ <;> simp only [Ev.on] <;> rw [if_neg (fun e => hi e.symm)]
  have hon2 : e.on q.heap.top (view q.log q.heap.top) = { view q.log q.heap.top with due := if (view q.log q.heap.top).iv = 0 then none else (view q.log q.heap.top).due.map (· + (view q.log q.heap.top).iv) } := by
    rcases he with ⟨rfl, -⟩ | ⟨rfl, -⟩ <;> simp [Ev.on]
  refine ⟨h.ord, h.inj, Nat.pos_of_ne_zero hn, rfl, h.lt, ?_, ?_, ?_, ?_, ?_, fits_append h.fits ?_⟩
  · intro i hi hne d
    show (view (q.log ++ [e]) i).due = some d ↔ _
    rw [view_append, hon i hne]
    exact h.due i hi d
  · intro d
    show (view (q.log ++ [e]) q.heap.top).due = some d ↔ _
    rw [view_append, hon2, hdue, h.iv _ hl]
    simp only [Option.map_some]
    by_cases hz : q.iv q.heap.top = 0
    · simp [hz]
    · simp [hz, hc]
      exact eq_comm
  · intro i hi
    show (view (q.log ++ [e]) i).iv = q.iv i
    rw [view_append, ← h.iv i hi]
    by_cases hi' : i = q.heap.top
    · subst hi'; rw [hon2]
    · rw [hon i hi']
  · intro i hi
    show (view (q.log ++ [e]) i).paused = q.paused i
    rw [view_append, ← h.pause i hi]
    by_cases hi' : i = q.heap.top
    · subst hi'; rw [hon2]
    · rw [hon i hi']
  · intro i hi
    have hi : q.next ≤ i := hi
    have hi' : i ≠ q.heap.top := by omega
    refine ⟨?_, new_append (h.new i hi).2 (by rcases he with ⟨rfl, -⟩ | ⟨rfl, -⟩ <;> intro _ _ e <;> cases e)⟩
    show (view (q.log ++ [e]) i).due = none
    rw [view_append, hon i hi']
    exact (h.new i hi).1
  · rcases he with ⟨rfl, hp⟩ | ⟨rfl, hp⟩
    · exact ⟨hdue, by rw [h.pause _ hl, hp], hd, hmin⟩
    · exact ⟨hdue, by rw [h.pause _ hl, hp], hd, hmin⟩

theorem ord_one {key : Nat → Nat} {h : Heap} (ho : h.Ord key 0) : h.Ord key 1 := fun i h0 hn _ => ho i h0 hn (Nat.zero_le _)

theorem Mid.again {q : Q} {c : Nat} (h : Mid q c) : Inv (q.again c) := by
  obtain ⟨hord, hinj, hpos, rfl, hlt, hdue, hcur, hiv, hp, hnew, hfits⟩ := h
  have hh : q.heap.Has q.heap.top := ⟨0, hpos, rfl⟩
  unfold Q.again
  split
  · rename_i hz
    obtain ⟨a1, a2⟩ := Heap.again_has hinj hpos (upd q.exp q.heap.top (q.exp q.heap.top + q.iv q.heap.top))
    have hr : q.heap.Ord (upd q.exp q.heap.top (q.exp q.heap.top + q.iv q.heap.top)) 1 := by
      refine hord.root hinj ?_
      intro x _ hne
      rw [upd_eq, if_neg hne]
    refine ⟨Heap.pop_ord (Heap.push_ord hr (.inr ⟨rfl, hpos, Nat.le_refl _⟩)), a2, ?_, ?_, hiv, hp, hnew, hfits⟩
    · intro i hi; exact hlt i ((a1 i).1 hi)
    · intro i hi d
      dsimp only
      rw [a1 i, upd_eq]
      by_cases hi' : i = q.heap.top
      · subst hi'
        rw [if_pos rfl, hcur d]
        constructor
        · rintro ⟨x, y, z⟩; exact ⟨hh, x, z⟩
        · rintro ⟨x, y, z⟩; exact ⟨y, hz, z⟩
      · rw [if_neg hi']; exact hdue i hi hi' d
  · rename_i hz
    have hz : q.iv q.heap.top = 0 := by simpa using hz
    refine ⟨Heap.pop_ord (ord_one hord), Heap.pop_inj hinj, ?_, ?_, hiv, hp, hnew, hfits⟩
    · intro i hi; exact hlt i ((Heap.pop_has hinj hpos i).1 hi).1
    · intro i hi d
      dsimp only
      rw [Heap.pop_has hinj hpos]
      by_cases hi' : i = q.heap.top
      · subst hi'
        rw [hcur d]
        simp [hz]
      · rw [hdue i hi hi' d]
        simp [hi']

theorem Inv.drop {q : Q} (h : Inv q) (hn : q.heap.n ≠ 0) (hc : q.cancelled q.heap.top = true) : Inv { q with heap := q.heap.pop q.exp } := by
  have hpos : 0 < q.heap.n := Nat.pos_of_ne_zero hn
  refine ⟨Heap.pop_ord (ord_one h.ord), Heap.pop_inj h.inj, ?_, ?_, h.iv, h.pause, h.new, h.fits⟩
  · intro i hi; exact h.lt i ((Heap.pop_has h.inj hpos i).1 hi).1
  · intro i hi d
    dsimp only
    rw [Heap.pop_has h.inj hpos, h.due i hi d]
    constructor
    · rintro ⟨a, b, c⟩
      refine ⟨⟨a, ?_⟩, b, c⟩
      rintro rfl
      rw [hc] at b; cases b
    · rintro ⟨⟨a, -⟩, b, c⟩; exact ⟨a, b, c⟩

theorem Inv.call {q : Q} (h : Inv q) {E : Exec} {now : Nat} (hE : Tame now E) (hn : q.heap.n ≠ 0) (hc : q.cancelled q.heap.top = false) (hd : q.exp q.heap.top ≤ now) :
    Mid (q.call E now) q.heap.top := by
  unfold Q.call
  dsimp only
  split
  · rename_i hp
    exact h.begin hn hc _ (.inr ⟨rfl, hp⟩) hd
  · rename_i hp
    have m := h.begin hn hc (now := now) _ (.inl ⟨rfl, by simpa using hp⟩) hd
    refine m.ops _ ?_
    intro due iv hm
    exact hE _ _ due iv hm hd

theorem Inv.run {E : Exec} {now : Nat} (hE : Tame now E) (fuel : Nat) {q q' : Q} (h : Inv q) (hr : q.run E now fuel = some q') :
    Inv q' ∧ ∀ i d, (view q'.log i).due = some d → now < d := by
  induction fuel generalizing q with
  | zero => cases hr
  | succ fuel ih =>
    unfold Q.run at hr
    split at hr
    · rename_i hn
      obtain rfl : q = q' := by simpa using hr
      refine ⟨h, ?_⟩
      intro i d hv
      by_cases hi : i < q.next
      · obtain ⟨⟨j, hj, -⟩, -⟩ := (h.due i hi d).1 hv
        omega
      · rw [(h.new i (by omega)).1] at hv; cases hv
    · rename_i hn
      dsimp only at hr
      split at hr
      · rename_i hc
        exact ih (h.drop hn hc) hr
      · rename_i hc
        split at hr
        · rename_i hlt
          obtain rfl : q = q' := by simpa using hr
          refine ⟨h, ?_⟩
          intro i d hv
          by_cases hi : i < q.next
          · obtain ⟨a, -, rfl⟩ := (h.due i hi d).1 hv
            exact Nat.lt_of_lt_of_le hlt (h.ord.top_le a)
          · rw [(h.new i (by omega)).1] at hv; cases hv
        · rename_i hlt
          exact ih (h.call hE hn (by simpa using hc) (by omega)).again hr

theorem Inv.init : Inv .fresh where
  ord := Heap.empty_ord _ _
  inj := by intro i j hi; exact absurd hi (by simp [Q.fresh, Heap.empty])
  lt := by rintro i ⟨j, hj, -⟩; exact absurd hj (by simp [Q.fresh, Heap.empty])
  due := by intro i hi; exact absurd hi (by simp [Q.fresh])
  iv := by intro i hi; exact absurd hi (by simp [Q.fresh])
  pause := by intro i hi; exact absurd hi (by simp [Q.fresh])
  new := by intro i _; exact ⟨rfl, by intro e he; cases he⟩
  fits := by intro l1 e l2 hl; simp [Q.fresh] at hl

theorem Reach.inv {q : Q} (h : Reach true q) : Inv q := by
  induction h with
  | init => exact .init
  | op _ o ih => exact ih.op o
  | run _ E now he fuel hr ih => exact (ih.run (he rfl) fuel hr).1

/-! ## Properties -/

/-- **C96a.** An executor is called only for a timer that is due, neither cancelled nor paused, and in the order of the due times: no other timer was due before. A timer is due at the time
given to `AddTimer`, and with an interval again and again at the multiples of it; without an interval, once. -/
theorem C96_fires {q : Q} (h : Reach true q) {l1 l2 : List Ev} {i due now : Nat} (hl : q.log = l1 ++ .fire i due now :: l2) :
    (view l1 i).due = some due ∧ (view l1 i).paused = false ∧ due ≤ now ∧ ∀ j d, (view l1 j).due = some d → due ≤ d :=
  h.inv.fits l1 _ l2 hl

/-- **C96b.** A due time passes without a call only if the timer is paused. -/
theorem C96_skips {q : Q} (h : Reach true q) {l1 l2 : List Ev} {i due now : Nat} (hl : q.log = l1 ++ .skip i due now :: l2) :
    (view l1 i).due = some due ∧ (view l1 i).paused = true ∧ due ≤ now :=
  have := h.inv.fits l1 _ l2 hl
  ⟨this.1, this.2.1, this.2.2.1⟩

/-- **C96c.** After `RunExpiredTimers(now)` no timer is due at `now` or before. -/
theorem C96_none_missed {q q' : Q} (h : Reach true q) {E : Exec} {now fuel : Nat} (hE : Tame now E) (hr : q.run E now fuel = some q') :
    ∀ i d, (view q'.log i).due = some d → now < d :=
  (h.inv.run hE fuel hr).2

/-- **C96d.** The reactor sleeps at most 5 ms; if no timer is overdue, at most until the next one is due; if there are none, 5 ms. -/
theorem C96_sleep {q : Q} (h : Reach true q) (now : Nat) : q.sleep now ≤ 5 ∧ ((∀ i, ¬ q.heap.Has i) → now + 5 < 2 ^ 64 → q.sleep now = 5) ∧
    ∀ i d, (view q.log i).due = some d → d < 2 ^ 64 → (∀ j, q.heap.Has j → now ≤ q.exp j) → q.sleep now ≤ d - now := by
  have h5 : q.sleep now ≤ 5 := by
    unfold Q.sleep; dsimp only; split <;> omega
  refine ⟨h5, ?_, ?_⟩
  · intro hno hnow
    have h0 : q.heap.n = 0 := by
      rcases Nat.eq_zero_or_pos q.heap.n with h0 | h0
      · exact h0
      · exact absurd ⟨0, h0, rfl⟩ (hno _)
    unfold Q.sleep Q.nextExpiration
    rw [if_pos h0]
    dsimp only
    have e : (2 ^ 64 - 1 + 2 ^ 64 - now) % 2 ^ 64 = 2 ^ 64 - 1 - now := by omega
    rw [e, if_neg (by omega)]
  intro i d hv hd hno
  by_cases hi : i < q.next
  · obtain ⟨a, -, rfl⟩ := (h.inv.due i hi d).1 hv
    have hpos : 0 < q.heap.n := by obtain ⟨j, hj, -⟩ := a; omega
    have ht := h.inv.ord.top_le a
    have hn := hno _ ⟨0, hpos, rfl⟩
    unfold Q.sleep Q.nextExpiration
    rw [if_neg (show ¬ q.heap.n = 0 by omega)]
    dsimp only
    have hn : now ≤ q.exp q.heap.top := hn
    have e : (q.exp q.heap.top + 2 ^ 64 - now) % 2 ^ 64 = q.exp q.heap.top - now := by omega
    rw [e]
    split <;> omega
  · rw [(h.inv.new i (by omega)).1] at hv; cases hv

/-! ## It comes to an end -/

/-- What is left to do for the timers. -/
noncomputable def left (q : Q) (now : Nat) : Nat → Nat
  | 0 => 0
  | k + 1 => left q now k + (open Classical in if q.heap.Has k then now + 1 - q.exp k else 0)

theorem left_le {q q' : Q} {now k : Nat} (h : ∀ i, i < k → q'.heap.Has i → q.heap.Has i ∧ q.exp i ≤ q'.exp i) : left q' now k ≤ left q now k := by
  induction k with
  | zero => exact Nat.le_refl _
  | succ k ih =>
    unfold left
    have := ih (fun i hi => h i (by omega))
    by_cases hh : q'.heap.Has k
    · obtain ⟨a, b⟩ := h k (by omega) hh
      rw [if_pos hh, if_pos a]; omega
    · rw [if_neg hh]; omega

theorem left_lt {q q' : Q} {now k c : Nat} (h : ∀ i, i < k → q'.heap.Has i → q.heap.Has i ∧ q.exp i ≤ q'.exp i) (hc : c < k) (hq : q.heap.Has c) (hd : q.exp c ≤ now)
    (hc' : ¬ q'.heap.Has c ∨ q.exp c < q'.exp c) : left q' now k < left q now k := by
  induction k with
  | zero => omega
  | succ k ih =>
    unfold left
    by_cases hk : c = k
    · subst hk
      have h1 := left_le (q := q) (q' := q') (now := now) (k := c) (fun i hi => h i (by omega))
      rw [if_pos hq]
      by_cases hh : q'.heap.Has c
      · have : q.exp c < q'.exp c := by rcases hc' with h2 | h2; exact absurd hh h2; exact h2
        rw [if_pos hh]; omega
      · rw [if_neg hh]; omega
    · have h1 := ih (fun i hi => h i (by omega)) (by omega)
      by_cases hh : q'.heap.Has k
      · obtain ⟨a, b⟩ := h k (by omega) hh
        rw [if_pos hh, if_pos a]; omega
      · rw [if_neg hh]; omega

theorem left_new {q : Q} {now k m : Nat} (hkm : k ≤ m) (h : ∀ i, k ≤ i → i < m → q.heap.Has i → now < q.exp i) : left q now m = left q now k := by
  induction m with
  | zero => have : k = 0 := by omega
            rw [this]
  | succ m ih =>
    by_cases hk : k = m + 1
    · rw [hk]
    · have h1 := ih (by omega) (fun i hi hm => h i hi (by omega))
      rw [left, h1]
      by_cases hh : q.heap.Has m
      · have := h m (by omega) (by omega) hh
        rw [if_pos hh]; omega
      · rw [if_neg hh]; rfl

/-- What an executor that adds later timers does to the timers. -/
theorem ops_frame {now : Nat} (l : List Op) (q : Q) (hlt : ∀ i, q.heap.Has i → i < q.next) (ho : ∀ due iv, .add due iv ∈ l → now < due) :
    q.next ≤ (q.ops l).next ∧ (∀ i, i < q.next → ((q.ops l).heap.Has i ↔ q.heap.Has i) ∧ (q.ops l).exp i = q.exp i) ∧
      (∀ i, q.next ≤ i → (q.ops l).heap.Has i → now < (q.ops l).exp i) ∧ ∀ i, (q.ops l).heap.Has i → i < (q.ops l).next := by
  induction l generalizing q with
  | nil => exact ⟨Nat.le_refl _, fun i _ => ⟨Iff.rfl, rfl⟩, fun i hi hh => by have := hlt i hh; omega, hlt⟩
  | cons o l ih =>
    have hm : ∀ due iv, .add due iv ∈ l → now < due := fun due iv h => ho due iv (List.mem_cons_of_mem _ h)
    cases o with
    | add due iv =>
      have hd := ho due iv (List.mem_cons_self ..)
      have hl : ∀ i, (q.op (.add due iv)).heap.Has i → i < (q.op (.add due iv)).next := by
        intro i hi
        show i < q.next + 1
        rcases (Heap.push_has i).1 hi with h1 | h1
        · have := hlt i h1; omega
        · omega
      obtain ⟨g1, g2, g3, g4⟩ := ih (q.op (.add due iv)) hl hm
      have hn : (q.op (.add due iv)).next = q.next + 1 := rfl
      rw [hn] at g1 g2 g3
      refine ⟨Nat.le_trans (Nat.le_succ _) g1, ?_, ?_, g4⟩
      · intro i hi
        obtain ⟨a, b⟩ := g2 i (by omega)
        refine ⟨a.trans ?_, b.trans ?_⟩
        · refine (Heap.push_has i).trans ?_
          constructor
          · rintro (h1 | h1)
            · exact h1
            · omega
          · exact .inl
        · show upd q.exp q.next due i = q.exp i
          rw [upd_eq, if_neg (by omega)]
      · intro i hi hh
        by_cases hin : i = q.next
        · subst hin
          rw [show (Q.ops q (.add due iv :: l)).exp q.next = _ from (g2 q.next (by omega)).2]
          show now < upd q.exp q.next due q.next
          rw [upd_eq, if_pos rfl]
          exact hd
        · exact g3 i (by omega) hh
    | cancel j => exact ih (q.op (.cancel j)) hlt hm
    | pause j => exact ih (q.op (.pause j)) hlt hm
    | resume j => exact ih (q.op (.resume j)) hlt hm

theorem call_frame {q : Q} {E : Exec} {now : Nat} (hlt : ∀ i, q.heap.Has i → i < q.next) (hE : ∀ q i due iv, .add due iv ∈ E q i → now < due) :
    q.next ≤ (q.call E now).next ∧ (∀ i, i < q.next → ((q.call E now).heap.Has i ↔ q.heap.Has i) ∧ (q.call E now).exp i = q.exp i) ∧
      (∀ i, q.next ≤ i → (q.call E now).heap.Has i → now < (q.call E now).exp i) ∧ ∀ i, (q.call E now).heap.Has i → i < (q.call E now).next := by
  unfold Q.call
  dsimp only
  split
  · exact ⟨Nat.le_refl _, fun i _ => ⟨Iff.rfl, rfl⟩, fun i hi hh => by have := hlt i hh; omega, hlt⟩
  · exact ops_frame _ ({ q with log := q.log ++ [.fire q.heap.top (q.exp q.heap.top) now] } : Q) hlt (hE _ _)

theorem again_frame {q : Q} {c : Nat} (m : Mid q c) : (q.again c).next = q.next ∧ (∀ i, (q.again c).heap.Has i → q.heap.Has i ∧ q.exp i ≤ (q.again c).exp i) ∧
    (¬ (q.again c).heap.Has c ∨ q.exp c < (q.again c).exp c) := by
  obtain ⟨hord, hinj, hpos, rfl, hlt, hdue, hcur, hiv, hp, hnew, hfits⟩ := m
  unfold Q.again
  split
  · rename_i hz
    obtain ⟨a1, a2⟩ := Heap.again_has hinj hpos (upd q.exp q.heap.top (q.exp q.heap.top + q.iv q.heap.top))
    refine ⟨rfl, ?_, .inr ?_⟩
    · intro i hi
      refine ⟨(a1 i).1 hi, ?_⟩
      show q.exp i ≤ upd q.exp q.heap.top (q.exp q.heap.top + q.iv q.heap.top) i
      rw [upd_eq]
      split
      · rename_i e; rw [e]; omega
      · exact Nat.le_refl _
    · show q.exp q.heap.top < upd q.exp q.heap.top (q.exp q.heap.top + q.iv q.heap.top) q.heap.top
      rw [upd_eq, if_pos rfl]; omega
  · refine ⟨rfl, ?_, .inl ?_⟩
    · intro i hi
      exact ⟨((Heap.pop_has hinj hpos i).1 hi).1, Nat.le_refl _⟩
    · intro hi
      exact ((Heap.pop_has hinj hpos _).1 hi).2 rfl

theorem Inv.ends {E : Exec} {now : Nat} (hE : ∀ q i due iv, .add due iv ∈ E q i → now < due) (s : Nat) : ∀ (n : Nat) (q : Q), Inv q → left q now q.next = s → q.heap.n = n →
    ∃ fuel, q.run E now fuel ≠ none := by
  have hT : Tame now E := fun q i due iv h he => Nat.le_trans he (Nat.le_of_lt (hE q i due iv h))
  induction s using Nat.strongRecOn with
  | ind s ihs =>
    intro n
    induction n with
    | zero =>
      intro q h hs hn
      exact ⟨1, by unfold Q.run; rw [if_pos hn]; simp⟩
    | succ n ihn =>
      intro q h hs hn
      by_cases hc : q.cancelled q.heap.top = true
      · have hnz : q.heap.n ≠ 0 := by omega
        have h' := h.drop hnz hc
        have hle : left ({ q with heap := q.heap.pop q.exp } : Q) now q.next ≤ s := by
          rw [← hs]
          refine left_le ?_
          intro i _ hi
          exact ⟨((Heap.pop_has h.inj (by omega) i).1 hi).1, Nat.le_refl _⟩
        have hn' : (q.heap.pop q.exp).n = n := by
          unfold Heap.pop
          split <;> simp only <;> omega
        obtain ⟨fuel, hf⟩ : ∃ fuel, ({ q with heap := q.heap.pop q.exp } : Q).run E now fuel ≠ none := by
          by_cases he : left ({ q with heap := q.heap.pop q.exp } : Q) now q.next = s
          · exact ihn _ h' he hn'
          · exact ihs _ (Nat.lt_of_le_of_ne hle he) _ _ h' rfl rfl
        refine ⟨fuel + 1, ?_⟩
        unfold Q.run
        rw [if_neg hnz]
        dsimp only
        rw [if_pos hc]
        exact hf
      · by_cases hl : now < q.exp q.heap.top
        · refine ⟨1, ?_⟩
          unfold Q.run
          rw [if_neg (by omega)]
          dsimp only
          rw [if_neg hc, if_pos hl]; simp
        · have hnz : q.heap.n ≠ 0 := by omega
          have m := h.call (E := E) (now := now) hT hnz (by simpa using hc) (by omega)
          have h' := m.again
          obtain ⟨f1, f2, f3, f4⟩ := call_frame (q := q) (E := E) (now := now) h.lt hE
          obtain ⟨a1, a2, a3⟩ := again_frame m
          have hh : q.heap.Has q.heap.top := ⟨0, by omega, rfl⟩
          have hlt := h.lt _ hh
          have hlt2 : left ((q.call E now).again q.heap.top) now ((q.call E now).again q.heap.top).next < s := by
            rw [a1, ← hs, left_new f1]
            · refine left_lt (c := q.heap.top) ?_ hlt hh (by omega) ?_
              · intro i hi hx
                obtain ⟨b1, b2⟩ := a2 i hx
                obtain ⟨c1, c2⟩ := f2 i hi
                exact ⟨c1.1 b1, by rw [← c2]; exact b2⟩
              · rcases a3 with a3 | a3
                · exact .inl a3
                · right
                  rw [← (f2 _ hlt).2]; exact a3
            · intro i hi _ hx
              obtain ⟨b1, b2⟩ := a2 i hx
              exact Nat.lt_of_lt_of_le (f3 i hi b1) b2
          obtain ⟨fuel, hf⟩ := ihs _ hlt2 _ _ h' rfl rfl
          refine ⟨fuel + 1, ?_⟩
          unfold Q.run
          rw [if_neg hnz]
          dsimp only
          rw [if_neg hc, if_neg hl]
          exact hf

/-- **C96e.** `RunExpiredTimers` comes to an end if executors add only timers that are due later than `now`, whatever else they do. -/
theorem C96_ends {q : Q} (h : Reach true q) {E : Exec} {now : Nat} (hE : ∀ q i due iv, .add due iv ∈ E q i → now < due) : ∃ fuel, q.run E now fuel ≠ none :=
  h.inv.ends hE _ _ q rfl rfl

/-! ## Runs -/

/-- A timer that runs once, one with an interval that cancels itself the third time, and one that the first adds. -/
example : ∃ q, Reach true q ∧ q.log = [.add 0 5 0, .add 1 3 4, .fire 1 3 12, .fire 0 5 12, .add 2 20 0, .fire 1 7 12, .fire 1 11 12, .cancel 1, .fire 2 20 20] := by
  have h := (Reach.init (tame := true)).op (.add 5 0)
  have h := h.op (.add 3 4)
  have h := h.run (fun q i => if i = 0 then [.add 20 0] else if i = 1 ∧ q.log.length = 8 - 1 then [.cancel 1] else []) 12
    (by intro _ q i due iv hm he; dsimp only at hm; split at hm
        · simp at hm; omega
        · split at hm <;> simp at hm) 20 (Option.some_get (by decide +kernel)).symm
  have h := h.run (fun _ _ => []) 20 (by intro _ q i due iv hm; simp at hm) 20 (Option.some_get (by decide +kernel)).symm
  exact ⟨_, h, by decide +kernel⟩

/-- Pausing. -/
example : ∃ q, Reach true q ∧ q.log = [.add 0 5 5, .pause 0, .skip 0 5 7, .resume 0, .fire 0 10 12] := by
  have h := (Reach.init (tame := true)).op (.add 5 5)
  have h := h.op (.pause 0)
  have h := h.run (fun _ _ => []) 7 (by intro _ q i due iv hm; simp at hm) 20 (Option.some_get (by decide +kernel)).symm
  have h := h.op (.resume 0)
  have h := h.run (fun _ _ => []) 12 (by intro _ q i due iv hm; simp at hm) 20 (Option.some_get (by decide +kernel)).symm
  exact ⟨_, h, by decide +kernel⟩

/-- **C97a.** An executor that adds a timer for a time before its own: `RunExpiredTimers` removes the new timer, which never runs, and runs the old one again. -/
theorem C97_past_partial : ∃ q, Reach false q ∧ q.log = [.add 0 5 0, .fire 0 5 10, .add 1 3 0, .fire 0 5 10] ∧ (view q.log 1).due = some 3 ∧ q.heap.n = 0 := by
  have h := (Reach.init (tame := false)).op (.add 5 0)
  have h := h.run (fun q _ => if q.log.length = 2 then [.add 3 0] else []) 10 (by intro e; cases e) 20 (Option.some_get (by decide +kernel)).symm
  exact ⟨_, h, by decide +kernel, by decide +kernel, by decide +kernel⟩

/-- **C97b.** With a timer that is overdue the reactor sleeps as if there were none. -/
theorem C97_overdue_partial : ∃ q, Reach true q ∧ (view q.log 0).due = some 5 ∧ q.sleep 5 = 0 ∧ q.sleep 6 = 5 := by
  have h := (Reach.init (tame := true)).op (.add 5 0)
  exact ⟨_, h, by decide +kernel, by decide +kernel, by decide +kernel⟩

/-- **C97c.** A timer without interval that is due while it is paused never runs, also if it is resumed. -/
theorem C97_paused_partial : ∃ q, Reach true q ∧ q.log = [.add 0 5 0, .pause 0, .skip 0 5 6, .resume 0] ∧ q.heap.n = 0 := by
  have h := (Reach.init (tame := true)).op (.add 5 0)
  have h := h.op (.pause 0)
  have h := h.run (fun _ _ => []) 6 (by intro _ q i due iv hm; simp at hm) 20 (Option.some_get (by decide +kernel)).symm
  have h := h.op (.resume 0)
  exact ⟨_, h, by decide +kernel, by decide +kernel⟩

end Verif.Reactor.Timers
