import Verif.Sync.NotifierProps

/-! The steps of `Notify` keep the invariant of the notifier. -/

namespace Verif.Sync.Notifier

theorem i_notify {n : Nat} {s : S} (h : Inv n s) {j : Nat} {a : Bool} (hj : s.nt j = .idle) : Inv n { s.t j (.start a) with ver := upd s.ver j s.V } := by
  fields h
  constructor <;> simp only [S.t] at * <;> first | assumption | ((try simp only [upd_apply] at *); grind)

theorem easy_iff {n : Nat} {s : S} (hn : n < 65535) (h : Inv n s) : easy s.word = true ↔ s.L = [] ∧ s.P = [] := by
  have hp := plen h
  have ht := top_lt hn h
  rw [easy, h.word, stk_wd ht, wts_wd (by omega) ht]
  simp only [Bool.and_eq_true, beq_iff_eq]
  refine and_congr ?_ List.length_eq_zero_iff
  cases e : s.L with
  | nil => simp [enc]
  | cons a r => have := late_lt h (i := a) (by rw [e]; simp); simp [enc]; omega

theorem i_look {n : Nat} {s : S} (hn : n < 65535) (h : Inv n s) {j : Nat} {a : Bool} (hj : s.nt j = .start a ∨ ∃ x e l y, s.nt j = .nc a x e l y) : Inv n (s.look j a) := by
  have he := easy_iff hn h
  have hu : s.U j = [] := h.u0 j (by rcases hj with hj | ⟨x, e, l, y, hj⟩ <;> simp [hj])
  have hc : ∀ w, s.nt j ≠ .cut w := by rcases hj with hj | ⟨x, e, l, y, hj⟩ <;> simp [hj]
  have hf : ∀ w b o, s.nt j ≠ .nf w b o := by rcases hj with hj | ⟨x, e, l, y, hj⟩ <;> simp [hj]
  have w1 : epo s.word = s.E % 2 ^ 32 := by rw [h.word, epo_wd (by have := plen h; omega) (top_lt hn h)]
  have w2 : stk s.word = enc s.L.head? := by rw [h.word, stk_wd (top_lt hn h)]
  clear hj
  rw [S.look]
  split
  next hy =>
    obtain ⟨hL, hP⟩ := he.1 hy
    have hv := h.vj j
    fields h
    cases a <;> constructor <;> simp only [S.t, S.flush, if_true, Bool.false_eq_true, if_false] at * <;> first | assumption | ((try simp only [upd_apply] at *); grind)
  next hy =>
    have hs : s.L <:+ s.L := List.suffix_refl _
    fields h
    constructor <;> simp only [S.t] at * <;> first | assumption | ((try simp only [upd_apply] at *); grind)

theorem i_plan {n : Nat} {s : S} (h : Inv n s) {j x e : Nat} {a : Bool} {l : List Nat} (hj : s.nt j = .ns a x e l) : Inv n (s.t j (.nc a x e l (target s a x))) := by
  obtain ⟨h1, h2, h3, h4, h5, h6⟩ := h.ns j a x e l (.inl hj)
  have w1 : (a = true ∨ wts x ≠ 0) → target s a x = if a then (epo x * 2 ^ 32 + 2 ^ 32 * wts x + 65535) % 2 ^ 64 else pass x := by
    intro ha
    rw [target]
    rcases ha with ha | ha
    · simp [ha]
    · cases a <;> simp [ha]
  have w2 : a = false → wts x = 0 → e = s.E → s.L = l → target s a x = wd e 0 (enc l.tail.head?) := by
    intro ha hw he hl
    rw [target]
    simp only [ha, hw, Bool.false_eq_true, if_false, ne_eq, not_true_eq_false]
    have hne : stk x ≠ 65535 := by
      intro hx
      simp [easy, hx, hw] at h6
    cases l with
    | nil => simp [h5, enc] at hne
    | cons w r =>
      have hlin := h.lin
      rw [hl] at hlin
      have : stk x = w := by rw [h5]; rfl
      rw [this, hlin.1, h2]
      simp [wd]
  generalize target s a x = y at *
  fields h
  constructor <;> simp only [S.t] at * <;> first | assumption | ((try simp only [upd_apply] at *); grind)

theorem i_cut {n : Nat} {s : S} (h : Inv n s) {j w : Nat} (hj : s.nt j = .cut w) : Inv n { s.t j (.up (some w)) with nx := upd s.nx w none } := by
  have hu := h.ucut j w hj
  have hm : w ∈ s.U j := by rw [hu]; simp
  have w1 : Linked (upd s.nx w none) s.L := h.lin.upd (fun hL => h.lu w j hL hm)
  have w2 : ∀ k, k ≠ j → (∀ w, s.nt k ≠ .cut w) → Linked (upd s.nx w none) (s.U k) := fun k hk hc =>
    (h.ulin k hc).upd (fun hL => hk (h.uu w k j hL hm))
  have w3 : Linked (upd s.nx w none) (s.U j) := by rw [hu]; exact ⟨by simp, trivial⟩
  have w4 : (s.U j).head? = some w := by rw [hu]; rfl
  have w5 : ∀ k v o, s.nt k = .sg v o → k ≠ j → v ≠ w := fun k v o hk hkj e => by
    have := (h.usg k v o hk).1
    exact hkj (h.uu w k j (e ▸ List.mem_of_mem_head? (by rw [this]; rfl)) hm)
  have w6 : ∀ i, (s.wk i).late = true → s.wk i ≠ .idle := fun i hi e => by rw [e] at hi; simp [W.late] at hi
  have w7 := h.ul w j hm
  have w8 : ∀ x e, s.wk w ≠ .cs true x e := fun x e hx => by rw [hx] at w7; simp [W.late] at w7
  fields h
  constructor <;> simp only [S.t] at * <;> first | assumption | ((try simp only [upd_apply] at *); grind)

theorem i_end {n : Nat} {s : S} (h : Inv n s) {j : Nat} (hj : s.nt j = .up none) : Inv n (s.t j .idle) := by
  have hu : s.U j = [] := by
    have := h.uup j none hj
    simpa using this
  fields h
  constructor <;> simp only [S.t] at * <;> first | assumption | ((try simp only [upd_apply] at *); grind)

theorem i_next {n : Nat} {s : S} (h : Inv n s) {j w : Nat} (hj : s.nt j = .up (some w)) : Inv n (s.t j (.sg w (s.nx w))) := by
  fields h
  constructor <;> simp only [S.t] at * <;> first | assumption | ((try simp only [upd_apply] at *); grind)

theorem i_quiet {n : Nat} {s : S} (h : Inv n s) {j w : Nat} {o : Option Nat} (hj : s.nt j = .nf w false o) : Inv n (s.t j (.up o)) := by
  fields h
  constructor <;> simp only [S.t] at * <;> first | assumption | ((try simp only [upd_apply] at *); grind)

theorem i_ring {n : Nat} {s : S} (h : Inv n s) {j w : Nat} {o : Option Nat} (hj : s.nt j = .nf w true o) : Inv n ((if s.wk w = .sleep then s.w w .park else s).t j (.up o)) := by
  split
  next hw =>
    fields h
    constructor <;> simp only [S.t, S.w] at * <;> first | assumption | ((try simp only [upd_apply] at *); grind [W.early, W.late])
  next hw =>
    fields h
    constructor <;> simp only [S.t] at * <;> first | assumption | ((try simp only [upd_apply] at *); grind)

theorem i_signal {n : Nat} {s : S} (h : Inv n s) {j w : Nat} {o : Option Nat} (hj : s.nt j = .sg w o) :
    Inv n { s.t j (.nf w (decide (s.st w = .waiting)) o) with st := upd s.st w .yes, U := upd s.U j ((s.U j).erase w) } := by
  obtain ⟨h1, h2⟩ := h.usg j w o hj
  obtain ⟨r, hr⟩ : ∃ r, s.U j = w :: r := by
    cases e : s.U j with
    | nil => simp [e] at h1
    | cons a r => simp [e] at h1; exact ⟨r, by rw [h1]⟩
  have w1 : (s.U j).erase w = r := by rw [hr]; simp
  have hn := h.un j
  rw [hr] at hn
  obtain ⟨hn1, hn2⟩ := List.nodup_cons.mp hn
  have hl := h.ulin j (by simp [hj])
  rw [hr] at hl
  have w2 : r.head? = o := by rw [← hl.1]; exact h2
  have w3 := hl.2
  have w4 : s.st w = .waiting ∨ s.st w = .no := by
    have := h.uy w j (by rw [hr]; simp)
    cases e : s.st w <;> simp_all
  have w5 : ∀ k, k ∈ s.U j ↔ k = w ∨ k ∈ r := fun k => by rw [hr]; simp
  have w6 := h.ul w j (by rw [hr]; simp)
  have w7 : ∀ i, s.wk i = .sleep → upd s.st w .yes i = .yes → ∃ k p, upd s.nt j (.nf w (decide (s.st w = .waiting)) o) k = .nf i true p := by
    intro i hi hy
    by_cases hiw : i = w
    · subst hiw
      have : s.st i = .waiting := w4.resolve_right (h.slp i hi)
      exact ⟨j, o, by simp [this]⟩
    · rw [upd_ne _ _ hiw] at hy
      obtain ⟨k, p, hk⟩ := h.nfy i hi hy
      exact ⟨k, p, by rw [upd_ne _ _ (by rintro rfl; rw [hj] at hk; cases hk)]; exact hk⟩
  rw [w1]
  fields h
  constructor <;> simp only [S.t] at * <;> first | assumption | ((try simp only [upd_apply] at *); grind [W.early, W.late])

end Verif.Sync.Notifier
