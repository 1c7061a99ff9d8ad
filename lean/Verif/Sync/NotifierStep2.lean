import Verif.Sync.NotifierProps

/-! The steps of the notifier that change the word, and those of `Notify`. -/

namespace Verif.Sync.Notifier

theorem i_prepare {n : Nat} {s : S} (hn : n < 65535) (h : Inv n s) {i : Nat} (hi : i < n) (hw : s.wk i = .idle) :
    Inv n { s.w i .pre with ep := upd s.ep i s.word, word := (s.word + 2 ^ 16) % 2 ^ 64, tk := upd s.tk i (s.E + s.P.length), P := s.P ++ [i] } := by
  have hm : i ∉ s.P := fun hm => by have := h.pin i hm; rw [hw] at this; simp [W.early] at this
  have hp : s.P.length < 65535 := by have := plen h; omega
  have ht := top_lt hn h
  have w1 : (s.word + 2 ^ 16) % 2 ^ 64 = wd s.E (s.P ++ [i]).length (enc s.L.head?) := by
    rw [h.word, inc_wd hp ht]; simp
  have w2 : (epo s.word + wts s.word) % 2 ^ 32 = (s.E + s.P.length) % 2 ^ 32 := by
    rw [h.word, epo_wd (by omega) ht, wts_wd (by omega) ht]; omega
  have w3 := h.tick.push hm
  have w4 : (s.P ++ [i]).Nodup := by
    rw [List.nodup_append]; exact ⟨h.pn, by simp, by intro a ha b hb; simp at hb; rintro rfl; subst hb; exact hm ha⟩
  generalize (s.word + 2 ^ 16) % 2 ^ 64 = y at *
  fields h
  constructor <;> simp only [S.w] at * <;> first | assumption | ((try simp only [upd_apply] at *); grind [W.early, W.late])

/-- At the exchange of a waiter: nothing has happened since the load, and it is the first. -/
theorem at_cas {n : Nat} {s : S} (hn : n < 65535) (h : Inv n s) (hl : Lag s) {i x e : Nat} {c : Bool} (hw : s.wk i = .cs c x e) (hx : s.word = x) :
    s.P = i :: s.P.tail ∧ s.tk i = s.E ∧ x = wd s.E (s.P.tail.length + 1) (enc s.L.head?) ∧ s.P.tail.length < 65535 := by
  obtain ⟨h1, h2, h3, h4⟩ := h.snap i c x e (.inr hw)
  have h5 := h.cs i c x e hw
  have h6 := hl.snap i c x e (.inr hw)
  have hp := plen h
  have ht := top_lt hn h
  have h7 : epo x = s.E % 2 ^ 32 := by rw [← hx, h.word, epo_wd (by omega) ht]
  have he : s.tk i = s.E := by omega
  have hm : i ∈ s.P := Classical.byContradiction fun hm => by
    have := h.pout i (by rw [hw]; rfl) hm; omega
  have hf := h.tick.first hm he
  have hlen : s.P.length = s.P.tail.length + 1 := by rw [hf]; simp
  exact ⟨hf, he, by rw [← hx, h.word, hlen], by omega⟩

theorem i_commit {n : Nat} {s : S} (hn : n < 65535) (h : Inv n s) (hl : Lag s) {i x e : Nat} (hw : s.wk i = .cs true x e) (hx : s.word = x) :
    Inv n { s.w i .park with word := withTop (pass x) i, E := s.E + 1, P := s.P.erase i, L := i :: s.L } := by
  obtain ⟨h1, h2, h3, h4⟩ := at_cas hn h hl hw hx
  have ht := top_lt hn h
  have w1 : withTop (pass x) i = wd (s.E + 1) s.P.tail.length (enc (some i)) := by
    rw [h3, pass_wd h4 ht, withTop_wd ht]; rfl
  have w2 : s.nx i = s.L.head? := by
    rw [h.csn i x e hw, h3, stk_wd ht, top_dec hn h]
  have hL : i ∉ s.L := fun hm => by have := h.ll i hm; rw [hw] at this; simp [W.late] at this
  have hU : ∀ j, i ∉ s.U j := fun j hm => by have := h.ul i j hm; rw [hw] at this; simp [W.late] at this
  have w3 : Linked s.nx (i :: s.L) := ⟨w2, h.lin⟩
  have w4 : s.P.erase i = s.P.tail := by rw [h1]; simp
  have w5 : Tick s.tk (s.E + 1) s.P.tail := by have := h.tick; rw [h1] at this; exact this.2
  have w6 : i ∉ s.P.tail := by have := h.pn; rw [h1] at this; exact (List.nodup_cons.mp this).1
  have w7 : s.P.tail.Nodup := by have := h.pn; rw [h1] at this; exact (List.nodup_cons.mp this).2
  have w8 : ∀ k, k ∈ s.P ↔ k = i ∨ k ∈ s.P.tail := fun k => by rw [← List.mem_cons, ← h1]
  have wa : ∀ j a x e l y, s.nt j = .nc a x e l y → e ≤ s.E := fun j a x e l y hj => (h.ns j a x e l (.inr ⟨y, hj⟩)).1
  have w9 : ∀ k c x e, s.wk k = .sn c x e ∨ s.wk k = .cs c x e → e ≤ s.E := fun k c x e hk => (h.snap k c x e hk).1
  rw [w4]
  generalize s.P.tail = Q at *
  generalize withTop (pass x) i = y at *
  fields h
  constructor <;> simp only [S.w, List.head?_cons] at * <;> first | assumption | ((try simp only [upd_apply] at *); grind [W.early, W.late])

theorem i_cancel {n : Nat} {s : S} (hn : n < 65535) (h : Inv n s) (hl : Lag s) {i x e : Nat} (hw : s.wk i = .cs false x e) (hx : s.word = x) :
    Inv n { s.w i .idle with word := pass x, E := s.E + 1, P := s.P.erase i } := by
  obtain ⟨h1, h2, h3, h4⟩ := at_cas hn h hl hw hx
  have ht := top_lt hn h
  have w1 : pass x = wd (s.E + 1) s.P.tail.length (enc s.L.head?) := by
    rw [h3, pass_wd h4 ht]
  have w4 : s.P.erase i = s.P.tail := by rw [h1]; simp
  have w5 : Tick s.tk (s.E + 1) s.P.tail := by have := h.tick; rw [h1] at this; exact this.2
  have w6 : i ∉ s.P.tail := by have := h.pn; rw [h1] at this; exact (List.nodup_cons.mp this).1
  have w7 : s.P.tail.Nodup := by have := h.pn; rw [h1] at this; exact (List.nodup_cons.mp this).2
  have w8 : ∀ k, k ∈ s.P ↔ k = i ∨ k ∈ s.P.tail := fun k => by rw [← List.mem_cons, ← h1]
  have wa : ∀ j a x e l y, s.nt j = .nc a x e l y → e ≤ s.E := fun j a x e l y hj => (h.ns j a x e l (.inr ⟨y, hj⟩)).1
  rw [w4]
  generalize s.P.tail = Q at *
  generalize pass x = y at *
  fields h
  constructor <;> simp only [S.w] at * <;> first | assumption | ((try simp only [upd_apply] at *); grind [W.early, W.late])

end Verif.Sync.Notifier
