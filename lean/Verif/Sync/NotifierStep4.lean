import Verif.Sync.NotifierStep
import Verif.Sync.NotifierStep2
import Verif.Sync.NotifierStep3

/-! The exchange in `Notify`; every reachable state satisfies the invariant of the notifier. -/

namespace Verif.Sync.Notifier

/-- A tail with the same top is the whole. -/
theorem suffix_top {a b : List Nat} (h : a <:+ b) (hn : b.Nodup) (ht : a.head? = b.head?) : a = b := by
  obtain ⟨p, rfl⟩ := h
  cases p with
  | nil => rfl
  | cons c q =>
    cases a with
    | nil => simp at ht
    | cons d r =>
      simp at ht
      subst ht
      simp at hn

theorem enc_inj {m n : Nat} {a b : Option Nat} (hm : ∀ i, a = some i → i < 65535) (hn : ∀ i, b = some i → i < 65535) (h : enc a = enc b) (_ : m = n) : a = b := by
  cases a <;> cases b <;> simp [enc] at h ⊢ <;> first | (have := hm _ rfl; omega) | (have := hn _ rfl; omega) | exact h

/-- At the exchange of a notifier: the counter is the same, and so is the stack if there is one to be taken from. -/
theorem at_swap {n : Nat} {s : S} (hn : n < 65535) (h : Inv n s) (hl : Lag s) {j x e y : Nat} {a : Bool} {l : List Nat} (hj : s.nt j = .nc a x e l y) (hx : s.word = x) :
    e = s.E ∧ wts x = s.P.length ∧ stk x = enc s.L.head? ∧ (s.L ≠ [] ∨ s.P ≠ []) ∧
      y = (if a then wd (s.E + s.P.length) 0 65535 else if s.P = [] then wd s.E 0 (enc s.L.tail.head?) else wd (s.E + 1) s.P.tail.length (enc s.L.head?)) := by
  obtain ⟨h1, h2, h3, h4, h5, h6⟩ := h.ns j a x e l (.inr ⟨y, hj⟩)
  have hg := hl.note j a x e l y (.inr hj)
  have hp := plen h
  have ht := top_lt hn h
  have k1 : wts x = s.P.length := by rw [← hx, h.word, wts_wd (by omega) ht]
  have k2 : stk x = enc s.L.head? := by rw [← hx, h.word, stk_wd ht]
  have k3 : epo x = s.E % 2 ^ 32 := by rw [← hx, h.word, epo_wd (by omega) ht]
  have he : e = s.E := by omega
  have k4 : ¬(s.L = [] ∧ s.P = []) := fun hh => by
    have := (easy_iff hn h).2 hh
    rw [hx, h6] at this; simp at this
  have k5 : s.L ≠ [] ∨ s.P ≠ [] := by
    by_cases hL : s.L = []
    · exact .inr (fun hP => k4 ⟨hL, hP⟩)
    · exact .inl hL
  refine ⟨he, k1, k2, k5, ?_⟩
  cases a with
  | true =>
    rw [h.nca j true x e l y hj (.inl rfl), if_pos rfl, if_pos rfl, ← hx, h.word, all_wd (by omega) ht]
  | false =>
    simp only [Bool.false_eq_true, if_false]
    split
    next hP =>
      have hw : wts x = 0 := by rw [k1, hP]; rfl
      have hL : s.L ≠ [] := k5.resolve_right (fun c => c hP)
      have hh : s.L.head? = l.head? := by
        rw [k2] at h5
        cases e1 : s.L with
        | nil => exact absurd e1 hL
        | cons c r =>
          have hc := late_lt h (i := c) (by rw [e1]; simp)
          rw [e1] at h5
          cases l with
          | nil => simp [enc] at h5; omega
          | cons d q => simp [enc] at h5; simp [h5]
      have hs := suffix_top (h3 he) h4 hh
      rw [h.ncp j x e l y hj hw he hs, he, hs]
    next hP =>
      have hlen : s.P.length = s.P.tail.length + 1 := by
        cases e1 : s.P with
        | nil => exact absurd e1 hP
        | cons c r => simp
      have hw : wts x ≠ 0 := by omega
      rw [h.nca j false x e l y hj (.inr hw), if_neg (by simp), ← hx, h.word, hlen, pass_wd (by omega) ht]

set_option maxHeartbeats 1000000 in
theorem i_swap {n : Nat} {s : S} (hn : n < 65535) (h : Inv n s) (hl : Lag s) {j x e y : Nat} {a : Bool} {l : List Nat} (hj : s.nt j = .nc a x e l y) (hx : s.word = x) :
    Inv n (s.swap j a x y) := by
  obtain ⟨he, k1, k2, k3, hy⟩ := at_swap hn h hl hj hx
  have hu := h.u0 j (by simp [hj])
  have wb : ∀ i a x e l, s.nt i = .ns a x e l → e ≤ s.E := fun i a x e l hi => (h.ns i a x e l (.inl hi)).1
  have wc : ∀ i a x e l y, s.nt i = .nc a x e l y → e ≤ s.E := fun i a x e l y hi => (h.ns i a x e l (.inr ⟨y, hi⟩)).1
  have wd' : ∀ i, i ∈ s.P → s.tk i < s.E + s.P.length := fun i hi => (h.tick.bound hi).2
  have we : stk x = 65535 ↔ s.L = [] := by
    rw [k2]
    cases e1 : s.L with
    | nil => simp [enc]
    | cons a r => have := late_lt h (i := a) (by rw [e1]; simp); simp [enc]; omega
  cases a with
  | true =>
    simp only [if_true] at hy
    have hv := h.vj j
    have hlin := h.lin
    have wt : Tick s.tk (s.E + s.P.length) [] := trivial
    have wt' : Linked s.nx [] := trivial
    have w1 : stk x ≠ 65535 → s.L.head? = some (stk x) := fun hne => by
      cases e1 : s.L with
      | nil => exact absurd (we.2 e1) hne
      | cons c r => rw [k2, e1]; rfl
    have wz : ∀ k x e q y, s.nt k = .nc false x e q y → wts x = 0 → q ≠ [] := fun k x e q y hk h0 hq => by
      obtain ⟨-, -, -, -, h5, h6⟩ := h.ns k false x e q (.inr ⟨y, hk⟩)
      rw [hq] at h5
      simp [easy, h0, h5, enc] at h6
    simp only [S.swap, if_true]
    clear hx k2
    generalize stk x = tp at *
    fields h
    constructor <;> simp only [S.t, S.flush, if_true, List.length_nil, List.head?_nil] at * <;> first | assumption | ((try simp only [upd_apply] at *); grind [enc])
  | false =>
    simp only [Bool.false_eq_true, if_false] at hy
    by_cases hP : s.P = []
    · have hL : s.L ≠ [] := k3.resolve_right (fun c => c hP)
      obtain ⟨w, r, hr⟩ : ∃ w r, s.L = w :: r := by
        cases e1 : s.L with
        | nil => exact absurd e1 hL
        | cons c r => exact ⟨c, r, rfl⟩
      have hw : stk x = w := by rw [k2, hr]; rfl
      have hne : ¬ w = 65535 := by rw [← hw]; exact fun c => hL (we.1 c)
      have h0 : ¬ wts x ≠ 0 := by rw [k1, hP]; simp
      simp only [S.swap, Bool.false_eq_true, if_false, h0, hw, hne]
      rw [if_pos hP, hr] at hy
      have w1 : s.L.erase w = r := by rw [hr]; simp
      have hln := h.ln
      rw [hr] at hln
      obtain ⟨hn1, hn2⟩ := List.nodup_cons.mp hln
      have hlin := h.lin
      rw [hr] at hlin
      have w3 := hlin.2
      have w5 : ∀ k, k ∈ s.L ↔ k = w ∨ k ∈ r := fun k => by rw [hr]; simp
      have w6 : [w].Nodup := by simp
      have w7 : ∀ q, s.L <:+ q → r <:+ q := fun q hq => List.IsSuffix.trans (by rw [hr]; exact List.suffix_cons w r) hq
      have w8 : ∀ k x e q y, s.nt k = .nc false x e q y → wts x = 0 → e = s.E → r = q → False := fun k x e q y hk _ he hq => by
        have := (h.ns k false x e q (.inr ⟨y, hk⟩)).2.2.1 he
        rw [hr, hq] at this
        have := this.length_le
        simp at this
        omega
      have w9 : y = wd s.E s.P.length (enc r.head?) := by rw [hy, hP]; rfl
      rw [w1]
      clear hy hr
      fields h
      constructor <;> simp only [S.t] at * <;> first | assumption | ((try simp only [upd_apply] at *); grind)
    · have h0 : wts x ≠ 0 := by rw [k1]; exact fun c => hP (List.length_eq_zero_iff.mp c)
      rw [if_neg hP] at hy
      obtain ⟨w, r, hr⟩ : ∃ w r, s.P = w :: r := by
        cases e1 : s.P with
        | nil => exact absurd e1 hP
        | cons c r => exact ⟨c, r, rfl⟩
      simp only [S.swap, Bool.false_eq_true, if_false, h0, ne_eq, not_false_eq_true, if_true]
      have w1 : s.P.tail = r := by rw [hr]; rfl
      have hpn := h.pn
      rw [hr] at hpn
      obtain ⟨hn1, hn2⟩ := List.nodup_cons.mp hpn
      have htk := h.tick
      rw [hr] at htk
      obtain ⟨t1, t2⟩ := htk
      have w5 : ∀ k, k ∈ s.P ↔ k = w ∨ k ∈ r := fun k => by rw [hr]; simp
      rw [w1] at hy ⊢
      fields h
      constructor <;> simp only [S.t] at * <;> first | assumption | ((try simp only [upd_apply] at *); grind)

theorem Inv.step {n : Nat} {s s' : S} (hn : n < 65535) (h : Inv n s) (hl : Lag s) (hs : Step n s s') : Inv n s' := by
  have hd : ∀ i c x e, s.wk i = .sn c x e → (diff x (s.ep i) = 0 ↔ e = s.tk i) ∧ (2 ^ 31 ≤ diff x (s.ep i) ↔ e < s.tk i) := by
    intro i c x e hi
    have h1 := h.snap i c x e (.inl hi)
    have h2 := h.ept i (by rw [hi]; rfl)
    have h3 := hl.wait i (by rw [hi]; rfl)
    exact diff_eq h1.2.1 h2 (by omega) (by omega)
  cases hs with
  | change => exact i_change h
  | test i c hi => exact i_test h hi
  | prepare i hi hw => exact i_prepare hn h hi hw
  | load i c hi => exact i_load hn h hi
  | yield i c x e hi _ => exact i_again hn h (.inl hi)
  | notified i c x e hi h1 h2 => exact i_notified h hi (by have := hd i c x e hi; omega)
  | turn i c x e hi h1 => exact i_turn h hi ((hd i c x e hi).1.1 h1)
  | commit i x e hi hx => exact i_commit hn h hl hi hx
  | cancel i x e hi hx => exact i_cancel hn h hl hi hx
  | failed i c x e hi => exact i_again hn h (.inr hi)
  | leave i hi hy => exact i_leave h hi hy
  | rest i hi hy => exact i_rest h hi hy
  | wake i hi => exact i_wake h hi
  | notify j a hj => exact i_notify h hj
  | look j a hj => exact i_look hn h (.inl hj)
  | plan j a x e l hj => exact i_plan h hj
  | swap j a x e y l hj hx => exact i_swap hn h hl hj hx
  | retry j a x e y l hj => exact i_look hn h (.inr ⟨x, e, l, y, hj⟩)
  | cut j w hj => exact i_cut h hj
  | end_ j hj => exact i_end h hj
  | next j w hj => exact i_next h hj
  | signal j w o hj => exact i_signal h hj
  | quiet j w o hj => exact i_quiet h hj
  | ring j w o hj => exact i_ring h hj

theorem Reach.lag {n : Nat} {s : S} (h : Reach n s) : Lag s := by
  cases h with
  | init => constructor <;> simp [S.init, W.early]
  | step _ _ hl => exact hl

theorem Reach.inv {n : Nat} {s : S} (hn : n < 65535) (h : Reach n s) : Inv n s := by
  induction h with
  | init => exact .init
  | step h hs _ ih => exact ih.step hn h.lag hs

end Verif.Sync.Notifier
