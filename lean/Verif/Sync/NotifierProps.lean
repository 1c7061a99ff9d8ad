import Verif.Sync.Notifier

/-! The invariant of the notifier. -/

namespace Verif.Sync.Notifier

/-- The word made of a counter, a number of waiters and the top of the stack. -/
def wd (E p t : Nat) : Nat := E % 2 ^ 32 * 2 ^ 32 + p * 2 ^ 16 + t

theorem epo_wd {E p t : Nat} (hp : p < 65536) (ht : t < 65536) : epo (wd E p t) = E % 2 ^ 32 := by
  simp only [epo, wd]; omega

theorem wts_wd {E p t : Nat} (hp : p < 65536) (ht : t < 65536) : wts (wd E p t) = p := by
  simp only [wts, wd]; omega

theorem stk_wd {E p t : Nat} (ht : t < 65536) : stk (wd E p t) = t := by
  simp only [stk, wd]; omega

theorem pass_wd {E p t : Nat} (hp : p < 65535) (ht : t < 65536) : pass (wd E (p + 1) t) = wd (E + 1) p t := by
  simp only [pass, wd]; omega

theorem withTop_wd {E p t i : Nat} (ht : t < 65536) : withTop (wd E p t) i = wd E p i := by
  simp only [withTop, wd]; omega

theorem inc_wd {E p t : Nat} (hp : p < 65535) (ht : t < 65536) : (wd E p t + 2 ^ 16) % 2 ^ 64 = wd E (p + 1) t := by
  simp only [wd]; omega

theorem all_wd {E p t : Nat} (hp : p < 65536) (ht : t < 65536) : (epo (wd E p t) * 2 ^ 32 + 2 ^ 32 * wts (wd E p t) + 65535) % 2 ^ 64 = wd (E + p) 0 65535 := by
  rw [epo_wd hp ht, wts_wd hp ht]; simp only [wd]; omega

theorem diff_eq {x ep e t : Nat} (hx : epo x = e % 2 ^ 32) (ht : (epo ep + wts ep) % 2 ^ 32 = t % 2 ^ 32) (h1 : t < e + 2 ^ 31) (h2 : e < t + 2 ^ 31) :
    (diff x ep = 0 ↔ e = t) ∧ (2 ^ 31 ≤ diff x ep ↔ e < t) := by
  simp only [diff, hx, ht]; omega

/-- The list is chained by `next`. -/
def Linked (nx : Nat → Option Nat) : List Nat → Prop
  | [] => True
  | a :: r => nx a = r.head? ∧ Linked nx r

theorem Linked.congr {f g : Nat → Option Nat} : ∀ {l : List Nat}, (∀ i, i ∈ l → g i = f i) → Linked f l → Linked g l
  | [], _, _ => trivial
  | a :: r, h, hl => ⟨by rw [h a (by simp)]; exact hl.1, hl.2.congr (fun i hi => h i (by simp [hi]))⟩

theorem Linked.upd {f : Nat → Option Nat} {l : List Nat} {a : Nat} {o : Option Nat} (h : Linked f l) (ha : a ∉ l) : Linked (upd f a o) l :=
  h.congr (fun i hi => upd_ne _ _ (fun e => ha (e ▸ hi)))

/-- The tickets are consecutive. -/
def Tick (tk : Nat → Nat) : Nat → List Nat → Prop
  | _, [] => True
  | e, a :: r => tk a = e ∧ Tick tk (e + 1) r

theorem Tick.congr {f g : Nat → Nat} : ∀ {l : List Nat} {e : Nat}, (∀ i, i ∈ l → g i = f i) → Tick f e l → Tick g e l
  | [], _, _, _ => trivial
  | a :: r, _, h, hl => ⟨by rw [h a (by simp)]; exact hl.1, hl.2.congr (fun i hi => h i (by simp [hi]))⟩

theorem Tick.bound {f : Nat → Nat} : ∀ {l : List Nat} {e i : Nat}, Tick f e l → i ∈ l → e ≤ f i ∧ f i < e + l.length
  | a :: r, e, _, h, hi => by
    rcases List.mem_cons.mp hi with rfl | hi
    · have := h.1; simp; omega
    · have := h.2.bound hi; simp; omega

theorem Tick.push {f : Nat → Nat} {i : Nat} : ∀ {l : List Nat} {e : Nat}, Tick f e l → i ∉ l → Tick (upd f i (e + l.length)) e (l ++ [i])
  | [], e, _, _ => ⟨by simp, trivial⟩
  | a :: r, e, h, hi => by
    refine ⟨?_, ?_⟩
    · rw [upd_ne _ _ (by rintro rfl; simp at hi)]; exact h.1
    · have := h.2.push (i := i) (by simp at hi; exact hi.2)
      have e1 : e + (a :: r).length = e + 1 + r.length := by simp; omega
      rw [e1]; exact this

/-- The one whose turn it is, is the first. -/
theorem Tick.first {f : Nat → Nat} {l : List Nat} {e i : Nat} (h : Tick f e l) (hi : i ∈ l) (ht : f i = e) : l = i :: l.tail := by
  cases l with
  | nil => simp at hi
  | cons a r =>
    rcases List.mem_cons.mp hi with rfl | hi
    · rfl
    · have := (h.2.bound hi).1; omega

structure Inv (n : Nat) (s : S) : Prop where
  word : s.word = wd s.E s.P.length (enc s.L.head?)
  pn : s.P.Nodup
  ln : s.L.Nodup
  un : ∀ j, (s.U j).Nodup
  rng : ∀ i, s.wk i ≠ .idle → i < n
  pin : ∀ i, i ∈ s.P → (s.wk i).early = true
  tick : Tick s.tk s.E s.P
  pout : ∀ i, (s.wk i).early = true → i ∉ s.P → s.tk i < s.E
  ept : ∀ i, (s.wk i).early = true → (epo (s.ep i) + wts (s.ep i)) % 2 ^ 32 = s.tk i % 2 ^ 32
  snap : ∀ i c x e, s.wk i = .sn c x e ∨ s.wk i = .cs c x e → e ≤ s.E ∧ epo x = e % 2 ^ 32 ∧ s.tk i < e + 2 ^ 16 ∧ (e = s.tk i → wts x ≠ 0)
  cs : ∀ i c x e, s.wk i = .cs c x e → e = s.tk i
  csn : ∀ i x e, s.wk i = .cs true x e → s.nx i = dec (stk x)
  lin : Linked s.nx s.L
  ll : ∀ i, i ∈ s.L → (s.wk i).late = true
  ul : ∀ i j, i ∈ s.U j → (s.wk i).late = true
  lu : ∀ i j, i ∈ s.L → i ∉ s.U j
  uu : ∀ i j k, i ∈ s.U j → i ∈ s.U k → j = k
  sig : ∀ i, (s.wk i).late = true → i ∈ s.L ∨ (∃ j, i ∈ s.U j) ∨ s.st i = .yes
  ly : ∀ i, i ∈ s.L → s.st i ≠ .yes
  uy : ∀ i j, i ∈ s.U j → s.st i ≠ .yes
  slp : ∀ i, s.wk i = .sleep → s.st i ≠ .no
  csy : ∀ i x e, s.wk i = .sn true x e ∨ s.wk i = .cs true x e → s.st i = .no
  nfy : ∀ i, s.wk i = .sleep → s.st i = .yes → ∃ j o, s.nt j = .nf i true o
  u0 : ∀ j, (s.nt j = .idle ∨ (∃ a, s.nt j = .start a) ∨ (∃ a x e l, s.nt j = .ns a x e l) ∨ ∃ a x e l y, s.nt j = .nc a x e l y) → s.U j = []
  ucut : ∀ j w, s.nt j = .cut w → s.U j = [w]
  ulin : ∀ j, (∀ w, s.nt j ≠ .cut w) → Linked s.nx (s.U j)
  uup : ∀ j o, s.nt j = .up o → (s.U j).head? = o
  usg : ∀ j w o, s.nt j = .sg w o → (s.U j).head? = some w ∧ s.nx w = o
  unf : ∀ j w b o, s.nt j = .nf w b o → (s.U j).head? = o
  ns : ∀ j a x e l, s.nt j = .ns a x e l ∨ (∃ y, s.nt j = .nc a x e l y) → e ≤ s.E ∧ epo x = e % 2 ^ 32 ∧ (e = s.E → s.L <:+ l) ∧ l.Nodup ∧ stk x = enc l.head? ∧ easy x = false
  nca : ∀ j a x e l y, s.nt j = .nc a x e l y → (a = true ∨ wts x ≠ 0) → y = if a then (epo x * 2 ^ 32 + 2 ^ 32 * wts x + 65535) % 2 ^ 64 else pass x
  ncp : ∀ j x e l y, s.nt j = .nc false x e l y → wts x = 0 → e = s.E → s.L = l → y = wd e 0 (enc l.tail.head?)
  vj : ∀ j, s.ver j ≤ s.V
  vf : s.fl ≤ s.V
  seenL : ∀ i, i ∈ s.L → s.fl ≤ s.saw i
  seenP : ∀ i, i ∈ s.P → s.wk i ≠ .pre → s.fl ≤ s.saw i
  good : s.bad = false

/-- The fields of the invariant. -/
macro "fields" h:term : tactic => `(tactic| obtain ⟨a1, a2, a3, a4, a5, a6, a7, a8, a9, b1, b2, b3, b4, b5, b6, b7, b8, b9, c1, c2, c3, c4, c5, c6, c7, c8, c9, d1, d2, d3, d4, d5, d6, d7, d8, d9, e1⟩ := $h)

theorem Inv.init {n : Nat} : Inv n (.init n) := by
  constructor <;> simp [S.init, Linked, Tick, W.early, W.late]
  simp [wd, enc]; omega

theorem late_lt {n : Nat} {s : S} (h : Inv n s) {i : Nat} (hi : i ∈ s.L) : i < n := by
  refine h.rng i (fun e => ?_)
  have := h.ll i hi; rw [e] at this; simp [W.late] at this

theorem plen {n : Nat} {s : S} (h : Inv n s) : s.P.length ≤ n := by
  have := List.Nodup.length_le_of_subset (l₂ := List.range n) h.pn
    (fun i hi => List.mem_range.2 (h.rng i (fun e => by have := h.pin i hi; rw [e] at this; simp [W.early] at this)))
  simpa using this

theorem top_lt {n : Nat} {s : S} (hn : n < 65535) (h : Inv n s) : enc s.L.head? < 65536 := by
  cases e : s.L with
  | nil => simp [enc]
  | cons a r => have := late_lt h (i := a) (by rw [e]; simp); simp [enc]; omega

theorem top_dec {n : Nat} {s : S} (hn : n < 65535) (h : Inv n s) : dec (enc s.L.head?) = s.L.head? := by
  cases e : s.L with
  | nil => simp [enc, dec]
  | cons a r =>
    have := late_lt h (i := a) (by rw [e]; simp)
    have : a ≠ 65535 := by omega
    simp [enc, dec, this]

theorem fresh {n : Nat} {s : S} (hn : n < 65535) (h : Inv n s) {i : Nat} (hi : (s.wk i).early = true) :
    epo s.word = s.E % 2 ^ 32 ∧ s.tk i < s.E + 2 ^ 16 ∧ (s.E = s.tk i → wts s.word ≠ 0) := by
  have hp := plen h
  have ht := top_lt hn h
  rw [h.word, epo_wd (by omega) ht, wts_wd (by omega) ht]
  refine ⟨rfl, ?_, fun e => ?_⟩
  · by_cases hm : i ∈ s.P
    · have := (h.tick.bound hm).2; omega
    · have := h.pout i hi hm; omega
  · by_cases hm : i ∈ s.P
    · have := List.length_pos_of_mem hm; omega
    · have := h.pout i hi hm; omega

end Verif.Sync.Notifier
