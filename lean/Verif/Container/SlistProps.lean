import Verif.Container.Slist

/-!
# C163: the singly linked list is a list

The specification is a list of entries for every list (`Lists`).
-/

namespace Verif.Container.Slist

/-- From `o`, following `next` goes through these nodes and ends with a null pointer. -/
def Chain (nxt : Nat → Option Nat) : Option Nat → List Nat → Prop
  | o, [] => o = none
  | o, x :: l => o = some x ∧ Chain nxt (nxt x) l

/-- Memory holds these lists, which share no entries. -/
structure Lists (m : M) (L : Nat → List Nat) : Prop where
  chain : ∀ h, Chain m.nxt (m.first h) (L h)
  tail : ∀ h, m.tail h = (L h).getLast?
  size : ∀ h, m.size h = (L h).length
  nodup : ∀ h, (L h).Nodup
  apart : ∀ h g, h ≠ g → ∀ x ∈ L h, x ∉ L g

theorem chain_congr {n n' : Nat → Option Nat} : ∀ {l : List Nat} {o : Option Nat}, Chain n o l → (∀ x ∈ l, n' x = n x) → Chain n' o l := by
  intro l
  induction l with
  | nil => intro o h _; exact h
  | cons x l ih =>
    intro o h hx
    refine ⟨h.1, ?_⟩
    rw [hx x (by simp)]
    exact ih h.2 (fun y hy => hx y (List.mem_cons_of_mem _ hy))

/-- Another chain is put at the end. -/
theorem chain_append {n : Nat → Option Nat} {o' : Option Nat} {k : List Nat} {t : Nat} : ∀ {l : List Nat} {o : Option Nat}, Chain n o l → l.getLast? = some t → l.Nodup → t ∉ k → Chain n o' k → Chain (upd n t o') o (l ++ k) := by
  intro l
  induction l with
  | nil => intro o _ h; simp at h
  | cons x l ih =>
    intro o h ht hn hk hc
    have hc' : Chain (upd n t o') o' k := chain_congr hc (fun y hy => upd_ne _ _ (fun e => hk (e ▸ hy)))
    cases l with
    | nil =>
      have : x = t := by simpa using ht
      subst this
      exact ⟨h.1, by rw [upd_same]; exact hc'⟩
    | cons y l =>
      have ht' : (y :: l).getLast? = some t := by rw [← ht]; simp [List.getLast?_cons_cons]
      have hm : t ∈ y :: l := List.mem_of_getLast? ht'
      refine ⟨h.1, ?_⟩
      rw [upd_ne _ _ (show x ≠ t from fun e => (List.nodup_cons.mp hn).1 (e ▸ hm))]
      exact ih h.2 ht' (List.nodup_cons.mp hn).2 hk hc

/-- **C163.** At first all lists are empty. -/
theorem C163_init : Lists M.init (fun _ => []) :=
  ⟨fun _ => rfl, fun _ => rfl, fun _ => rfl, fun _ => List.nodup_nil, fun _ _ _ _ h => nomatch h⟩

/-- **C163.** `push_front` puts an entry that is in no list in front, and leaves the other lists. -/
theorem C163_pushFront {m : M} {L : Nat → List Nat} (w : Lists m L) (h x : Nat) (hx : ∀ g, x ∉ L g) : Lists (m.pushFront h x) (upd L h (x :: L h)) := by
  have e : (m.pushFront h x).nxt = upd m.nxt x (m.first h) ∧ (m.pushFront h x).first = upd m.first h (some x) ∧ (m.pushFront h x).size = upd m.size h (m.size h + 1) ∧
      (m.pushFront h x).tail = if m.size h = 0 then upd m.tail h (some x) else m.tail := by
    unfold M.pushFront
    by_cases c : m.size h = 0 <;> simp [c]
  obtain ⟨e1, e2, e3, e4⟩ := e
  have fr : ∀ g, ∀ o, Chain m.nxt o (L g) → Chain (m.pushFront h x).nxt o (L g) := fun g o hc =>
    chain_congr hc (fun y hy => by rw [e1]; exact upd_ne _ _ (fun e => hx g (e ▸ hy)))
  have hs := w.size h
  constructor
  · intro g
    by_cases hg : g = h
    · subst hg
      rw [e2, upd_same, upd_same]
      exact ⟨rfl, by rw [e1, upd_same, ← e1]; exact fr _ _ (w.chain _)⟩
    · rw [e2, upd_ne _ _ hg, upd_ne _ _ hg]; exact fr _ _ (w.chain _)
  · intro g
    rw [e4]
    by_cases hg : g = h
    · subst hg
      rw [upd_same]
      cases hl : L g with
      | nil => rw [hl] at hs; simp [hs]
      | cons y l => rw [hl] at hs; simp [hs, w.tail, hl]
    · rw [upd_ne _ _ hg, ← w.tail]
      by_cases c : m.size h = 0
      · rw [if_pos c, upd_ne _ _ hg]
      · rw [if_neg c]
  · intro g
    rw [e3]
    by_cases hg : g = h
    · subst hg; rw [upd_same, upd_same, hs]; rfl
    · rw [upd_ne _ _ hg, upd_ne _ _ hg]; exact w.size g
  · intro g
    by_cases hg : g = h
    · subst hg; rw [upd_same]; exact List.nodup_cons.mpr ⟨hx _, w.nodup _⟩
    · rw [upd_ne _ _ hg]; exact w.nodup g
  · intro a b hab y ha hb
    have := w.apart a b hab y
    simp only [upd_apply] at ha hb
    grind

/-- **C163.** `push_back` puts an entry that is in no list at the end, and leaves the other lists. -/
theorem C163_pushBack {m : M} {L : Nat → List Nat} (w : Lists m L) (h x : Nat) (hx : ∀ g, x ∉ L g) : ∃ m', m.pushBack h x = some m' ∧ Lists m' (upd L h (L h ++ [x])) := by
  have hs := w.size h
  have nd : ∀ g, (upd L h (L h ++ [x]) g).Nodup := by
    intro g
    by_cases hg : g = h
    · subst hg; rw [upd_same]
      have := w.nodup g
      have := hx g
      grind
    · rw [upd_ne _ _ hg]; exact w.nodup g
  have ap : ∀ a b, a ≠ b → ∀ y ∈ upd L h (L h ++ [x]) a, y ∉ upd L h (L h ++ [x]) b := by
    intro a b hab y ha hb
    have := w.apart a b hab y
    simp only [upd_apply] at ha hb
    grind
  cases hl : (L h).getLast? with
  | none =>
    have hn : L h = [] := List.getLast?_eq_none_iff.mp hl
    have h0 : m.size h = 0 := by rw [hs, hn]; rfl
    refine ⟨⟨upd m.nxt x none, upd m.first h (some x), upd m.tail h (some x), upd m.size h (m.size h + 1)⟩, by simp [M.pushBack, h0], ?_, ?_, ?_, nd, ap⟩
    · intro g
      by_cases hg : g = h
      · subst hg
        simp only [upd_same, hn]
        exact ⟨rfl, upd_same _ _ _⟩
      · simp only [upd_ne _ _ hg]
        exact chain_congr (w.chain g) (fun y hy => upd_ne _ _ (fun e => hx g (e ▸ hy)))
    · intro g
      by_cases hg : g = h
      · subst hg; simp [hn]
      · simp only [upd_ne _ _ hg]; exact w.tail g
    · intro g
      by_cases hg : g = h
      · subst hg; simp [hn, h0]
      · simp only [upd_ne _ _ hg]; exact w.size g
  | some t =>
    have h0 : m.size h ≠ 0 := by
      rw [hs]; intro h0
      rw [List.length_eq_zero_iff.mp h0] at hl; simp at hl
    have htm : t ∈ L h := List.mem_of_getLast? hl
    refine ⟨⟨upd (upd m.nxt x none) t (some x), m.first, upd m.tail h (some x), upd m.size h (m.size h + 1)⟩, by simp [M.pushBack, h0, w.tail, hl], ?_, ?_, ?_, nd, ap⟩
    · intro g
      have fr : Chain (upd m.nxt x none) (m.first g) (L g) := chain_congr (w.chain g) (fun y hy => upd_ne _ _ (fun e => hx g (e ▸ hy)))
      by_cases hg : g = h
      · subst hg
        rw [upd_same]
        refine chain_append fr hl (w.nodup g) ?_ ⟨rfl, upd_same _ _ _⟩
        intro hm
        exact hx g (by rw [← List.mem_singleton.mp hm]; exact htm)
      · rw [upd_ne _ _ hg]
        exact chain_congr fr (fun y hy => upd_ne _ _ (fun e => w.apart g h hg y hy (e ▸ htm)))
    · intro g
      by_cases hg : g = h
      · subst hg; simp
      · simp only [upd_ne _ _ hg]; exact w.tail g
    · intro g
      by_cases hg : g = h
      · subst hg; simp [hs]
      · simp only [upd_ne _ _ hg]; exact w.size g

/-- **C163.** `pop_front` returns and removes the first entry; with no entry it uses a null pointer. -/
theorem C163_popFront {m : M} {L : Nat → List Nat} (w : Lists m L) (h : Nat) :
    (L h = [] → m.popFront h = none) ∧ ∀ x l, L h = x :: l → ∃ m', m.popFront h = some (m', x) ∧ Lists m' (upd L h l) := by
  have hc := w.chain h
  refine ⟨fun hn => ?_, fun x l hl => ?_⟩
  · rw [hn] at hc
    have : m.first h = none := hc
    simp [M.popFront, this]
  · rw [hl] at hc
    obtain ⟨h1, h2⟩ := hc
    have hs := w.size h
    rw [hl] at hs
    have hs' : m.size h - 1 = l.length := by simp [hs]
    refine ⟨⟨m.nxt, upd m.first h (m.nxt x), if l = [] then upd m.tail h none else m.tail, upd m.size h (m.size h - 1)⟩, ?_, ?_, ?_, ?_, ?_, ?_⟩
    · unfold M.popFront
      rw [h1]
      cases l with
      | nil => simp [hs']
      | cons y k => simp [hs']
    · intro g
      by_cases hg : g = h
      · subst hg; simpa only [upd_same] using h2
      · simp only [upd_ne _ _ hg]; exact w.chain g
    · intro g
      have ht := w.tail g
      by_cases hg : g = h
      · subst hg
        rw [hl] at ht
        cases l with
        | nil => simp
        | cons y k => simp only [upd_same]; simpa [List.getLast?_cons_cons] using ht
      · rw [upd_ne _ _ hg]
        by_cases c : l = []
        · simp only [c, if_true, upd_ne _ _ hg]; exact ht
        · simp only [c, if_false]; exact ht
    · intro g
      by_cases hg : g = h
      · subst hg; simp only [upd_same]; exact hs'
      · simp only [upd_ne _ _ hg]; exact w.size g
    · intro g
      have := w.nodup g
      by_cases hg : g = h
      · subst hg; rw [upd_same]; rw [hl] at this; exact (List.nodup_cons.mp this).2
      · rw [upd_ne _ _ hg]; exact this
    · intro a b hab y ha hb
      have := w.apart a b hab y
      simp only [upd_apply] at ha hb
      grind

/-- **C163.** `swap` exchanges two lists. -/
theorem C163_swap {m : M} {L : Nat → List Nat} (w : Lists m L) (h g : Nat) : Lists (m.swap h g) (upd (upd L h (L g)) g (L h)) := by
  have key : ∀ a, ∃ a', (m.swap h g).first a = m.first a' ∧ (m.swap h g).tail a = m.tail a' ∧ (m.swap h g).size a = m.size a' ∧ upd (upd L h (L g)) g (L h) a = L a' ∧ (a' = if a = g then h else if a = h then g else a) := by
    intro a
    refine ⟨_, ?_, ?_, ?_, ?_, rfl⟩ <;> simp only [M.swap, upd_apply] <;> (repeat' split) <;> rfl
  constructor
  · intro a; obtain ⟨a', h1, _, _, h4, _⟩ := key a; rw [h1, h4]; exact w.chain a'
  · intro a; obtain ⟨a', _, h1, _, h4, _⟩ := key a; rw [h1, h4]; exact w.tail a'
  · intro a; obtain ⟨a', _, _, h1, h4, _⟩ := key a; rw [h1, h4]; exact w.size a'
  · intro a; obtain ⟨a', _, _, _, h4, _⟩ := key a; rw [h4]; exact w.nodup a'
  · intro a b hab
    obtain ⟨a', _, _, _, ha, ea⟩ := key a
    obtain ⟨b', _, _, _, hb, eb⟩ := key b
    rw [ha, hb]
    exact w.apart a' b' (by grind)

/-- **C163.** `splice` moves all entries of another list to the end of this one. -/
theorem C163_splice {m : M} {L : Nat → List Nat} (w : Lists m L) {h g : Nat} (hne : h ≠ g) : ∃ m', m.splice h g = some m' ∧ Lists m' (upd (upd L h (L h ++ L g)) g []) := by
  have hs := w.size h
  have gs := w.size g
  by_cases c1 : L h = []
  · refine ⟨m.swap h g, by simp [M.splice, hs, c1], ?_⟩
    have := C163_swap w h g
    rw [c1] at this ⊢
    exact this
  by_cases c2 : L g = []
  · have h0 : m.size h ≠ 0 := by rw [hs]; simpa using c1
    refine ⟨m, by simp [M.splice, h0, gs, c2], ?_⟩
    have : upd (upd L h (L h ++ L g)) g [] = L := by
      funext a; simp only [upd_apply]; grind
    rw [this]; exact w
  have h0 : m.size h ≠ 0 := by rw [hs]; simpa using c1
  have g0 : m.size g ≠ 0 := by rw [gs]; simpa using c2
  obtain ⟨t, ht⟩ : ∃ t, (L h).getLast? = some t := by
    cases hl : (L h).getLast? with
    | none => exact absurd (List.getLast?_eq_none_iff.mp hl) c1
    | some t => exact ⟨t, rfl⟩
  have htm : t ∈ L h := List.mem_of_getLast? ht
  refine ⟨⟨upd m.nxt t (m.first g), upd m.first g none, upd (upd m.tail h (m.tail g)) g none, upd (upd m.size h (m.size h + m.size g)) g 0⟩, ?_, ?_, ?_, ?_, ?_, ?_⟩
  · simp [M.splice, h0, g0, w.tail, ht]
  · intro a
    by_cases ag : a = g
    · subst ag; simp only [upd_same]; rfl
    · by_cases ah : a = h
      · subst ah
        simp only [upd_ne _ _ ag, upd_same]
        exact chain_append (w.chain a) ht (w.nodup a) (w.apart a g hne t htm) (w.chain g)
      · simp only [upd_ne _ _ ag, upd_ne _ _ ah]
        exact chain_congr (w.chain a) (fun y hy => upd_ne _ _ (fun e => w.apart a h ah y hy (e ▸ htm)))
  · intro a
    by_cases ag : a = g
    · subst ag; simp
    · by_cases ah : a = h
      · subst ah
        simp only [upd_ne _ _ ag, upd_same]
        rw [w.tail g, List.getLast?_append]
        cases hl : (L g).getLast? with
        | none => exact absurd (List.getLast?_eq_none_iff.mp hl) c2
        | some t => rfl
      · simp only [upd_ne _ _ ag, upd_ne _ _ ah]; exact w.tail a
  · intro a
    by_cases ag : a = g
    · subst ag; simp
    · by_cases ah : a = h
      · subst ah
        simp only [upd_ne _ _ ag, upd_same]
        rw [hs, gs, List.length_append]
      · simp only [upd_ne _ _ ag, upd_ne _ _ ah]; exact w.size a
  · intro a
    by_cases ag : a = g
    · subst ag; rw [upd_same]; exact List.nodup_nil
    · rw [upd_ne _ _ ag]
      by_cases ah : a = h
      · subst ah
        rw [upd_same]
        exact List.nodup_append.mpr ⟨w.nodup a, w.nodup g, fun x hx y hy e => w.apart a g hne x hx (e ▸ hy)⟩
      · rw [upd_ne _ _ ah]; exact w.nodup a
  · intro a b hab y ha hb
    have q1 := w.apart a b hab y
    have q2 := w.apart g b
    have q3 := w.apart a g
    simp only [upd_apply] at ha hb
    grind

/-- **C163.** Iteration visits the entries in order and then is at the end; `front` and `back` are the first and the last entry; `size` is their number. -/
theorem C163_iter {m : M} {L : Nat → List Nat} (w : Lists m L) (h : Nat) :
    (∀ n, m.iter h n = (L h)[n]?) ∧ m.first h = (L h).head? ∧ m.tail h = (L h).getLast? ∧ m.size h = (L h).length := by
  have key : ∀ l o, Chain m.nxt o l → o = l.head? ∧ ∀ n x, l[n]? = some x → m.nxt x = l[n + 1]? := by
    intro l
    induction l with
    | nil => intro o hc; exact ⟨hc, fun n x hx => by simp at hx⟩
    | cons y l ih =>
      intro o hc
      obtain ⟨i1, i2⟩ := ih _ hc.2
      refine ⟨hc.1, fun n x hx => ?_⟩
      cases n with
      | zero =>
        have : y = x := by simpa using hx
        subst this
        rw [i1]; cases l <;> simp
      | succ n => simpa using i2 n x (by simpa using hx)
  obtain ⟨k1, k2⟩ := key _ _ (w.chain h)
  refine ⟨fun n => ?_, k1, w.tail h, w.size h⟩
  induction n with
  | zero => rw [M.iter, k1]; cases L h <;> simp
  | succ n ih =>
    rw [M.iter, ih]
    cases hx : (L h)[n]? with
    | none =>
      have := List.getElem?_eq_none_iff.mp hx
      simp; omega
    | some x => exact k2 n x hx

/-- Two lists; the second is moved to the end of the first, and the first entry is taken. -/
example : ∃ m1 m2 m3, ((M.init.pushFront 0 5).pushFront 0 4).pushBack 1 8 = some m1 ∧ m1.splice 0 1 = some m2 ∧ m2.popFront 0 = some (m3, 4) ∧ Lists m3 (fun h => if h = 0 then [5, 8] else []) := by
  have w1 := C163_pushFront C163_init 0 5 (by simp)
  have w2 := C163_pushFront w1 0 4 (by intro g; simp only [upd_apply]; grind)
  obtain ⟨m1, e1, w3⟩ := C163_pushBack w2 1 8 (by intro g; simp only [upd_apply]; grind)
  obtain ⟨m2, e2, w4⟩ := C163_splice w3 (h := 0) (g := 1) (by decide)
  obtain ⟨m3, e3, w5⟩ := (C163_popFront w4 0).2 4 [5, 8] (by decide)
  refine ⟨m1, m2, m3, e1, e2, e3, ?_⟩
  refine cast (congrArg _ (funext fun a => ?_)) w5
  simp only [upd_apply]
  by_cases h0 : a = 0
  · simp [h0]
  · by_cases h1 : a = 1 <;> simp [h0, h1]

end Verif.Container.Slist
