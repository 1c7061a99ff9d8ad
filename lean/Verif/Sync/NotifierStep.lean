import Verif.Sync.NotifierProps

/-! Every step keeps the invariant of the notifier. -/

namespace Verif.Sync.Notifier

theorem i_change {n : Nat} {s : S} (h : Inv n s) : Inv n { s with V := s.V + 1 } := by
  fields h
  constructor <;> first | assumption | grind

theorem i_test {n : Nat} {s : S} (h : Inv n s) {i : Nat} {c : Bool} (hi : s.wk i = .pre) : Inv n { s.w i (.chk c) with saw := upd s.saw i s.V } := by
  fields h
  constructor <;> simp only [S.w, upd_apply] at * <;> first | assumption | grind [W.early, W.late]

theorem i_leave {n : Nat} {s : S} (h : Inv n s) {i : Nat} (hi : s.wk i = .park) (hy : s.st i = .yes) : Inv n (s.w i .idle) := by
  fields h
  constructor <;> simp only [S.w, upd_apply] at * <;> first | assumption | grind [W.early, W.late]

theorem i_rest {n : Nat} {s : S} (h : Inv n s) {i : Nat} (hi : s.wk i = .park) (hy : s.st i ≠ .yes) : Inv n { s.w i .sleep with st := upd s.st i .waiting } := by
  fields h
  constructor <;> simp only [S.w, upd_apply] at * <;> first | assumption | grind [W.early, W.late]

theorem i_wake {n : Nat} {s : S} (h : Inv n s) {i : Nat} (hi : s.wk i = .sleep) : Inv n (s.w i .park) := by
  fields h
  constructor <;> simp only [S.w, upd_apply] at * <;> first | assumption | grind [W.early, W.late]

theorem i_load {n : Nat} {s : S} (hn : n < 65535) (h : Inv n s) {i : Nat} {c : Bool} (hi : s.wk i = .chk c) :
    Inv n { s.w i (.sn c s.word s.E) with st := if c then upd s.st i .no else s.st } := by
  have hf := fresh hn h (i := i) (by rw [hi]; rfl)
  fields h
  cases c <;> constructor <;> simp only [S.w, upd_apply, if_true, Bool.false_eq_true, if_false] at * <;> first | assumption | grind [W.early, W.late]

theorem i_again {n : Nat} {s : S} (hn : n < 65535) (h : Inv n s) {i : Nat} {c : Bool} {x e : Nat} (hi : s.wk i = .sn c x e ∨ s.wk i = .cs c x e) :
    Inv n (s.w i (.sn c s.word s.E)) := by
  have hf := fresh hn h (i := i) (by rcases hi with hi | hi <;> rw [hi] <;> rfl)
  fields h
  constructor <;> simp only [S.w, upd_apply] at * <;> first | assumption | grind [W.early, W.late]

theorem i_notified {n : Nat} {s : S} (h : Inv n s) {i : Nat} {c : Bool} {x e : Nat} (hi : s.wk i = .sn c x e) (ht : s.tk i < e) : Inv n (s.w i .idle) := by
  have hm : i ∉ s.P := fun hm => by
    have h1 := (h.tick.bound hm).1
    have h2 := (h.snap i c x e (.inl hi)).1
    omega
  fields h
  constructor <;> simp only [S.w, upd_apply] at * <;> first | assumption | grind [W.early, W.late]

theorem i_turn {n : Nat} {s : S} (h : Inv n s) {i : Nat} {c : Bool} {x e : Nat} (hi : s.wk i = .sn c x e) (ht : e = s.tk i) :
    Inv n { s.w i (.cs c x e) with nx := if c then upd s.nx i (dec (stk x)) else s.nx, bad := s.bad || wts x == 0 } := by
  have hL : i ∉ s.L := fun hm => by have := h.ll i hm; rw [hi] at this; simp [W.late] at this
  have hU : ∀ j, i ∉ s.U j := fun j hm => by have := h.ul i j hm; rw [hi] at this; simp [W.late] at this
  have l1 : ∀ o, Linked (upd s.nx i o) s.L := fun o => h.lin.upd hL
  have l2 : ∀ j o, (∀ w, s.nt j ≠ .cut w) → Linked (upd s.nx i o) (s.U j) := fun j o hj => (h.ulin j hj).upd (hU j)
  have l3 : ∀ j w o, s.nt j = .sg w o → w ≠ i := fun j w o hj e => by
    have := (h.usg j w o hj).1
    exact hU j (e ▸ List.mem_of_mem_head? (by rw [this]; rfl))
  fields h
  cases c <;> constructor <;> simp only [S.w, if_true, Bool.false_eq_true, if_false] at * <;> first | assumption | ((try simp only [upd_apply] at *); grind [W.early, W.late])

end Verif.Sync.Notifier
