import Verif.Thread.BindCore

/-!
# C165, C166: processors of threads

The specification of a configuration is the set of numbers it names (`Names`).
-/

namespace Verif.Thread.BindCore

/-- A number, or a range in order that does not end with the greatest number. -/
def Good : List (Option Nat) → Prop
  | [some _] => True
  | [some a, some b] => a ≤ b ∧ b < 2 ^ 32 - 1
  | _ => False

/-- The number is named by the part. -/
def Names (n : Nat) : List (Option Nat) → Prop
  | [some a] => n = a
  | [some a, some b] => a ≤ n ∧ n ≤ b
  | _ => False

/-- No number is named twice: not by two parts. -/
def Once (conf : List (List (Option Nat))) : Prop := conf.Pairwise (fun p q => ∀ n, Names n p → ¬ Names n q)

theorem loop_range {b : Nat} (hb : b < 2 ^ 32 - 1) : ∀ {k a fuel : Nat}, b + 1 = a + k → k < fuel → loop b fuel a = some (List.range' a k) := by
  intro k
  induction k with
  | zero =>
    intro a fuel h1 h2
    cases fuel with
    | zero => omega
    | succ f => rw [loop, if_neg (by omega)]; rfl
  | succ k ih =>
    intro a fuel h1 h2
    cases fuel with
    | zero => omega
    | succ f =>
      rw [loop, if_pos (by omega), Nat.mod_eq_of_lt (by omega), ih (by omega) (by omega), List.range'_succ]
      rfl

/-- A range that ends with the greatest number never ends. -/
theorem loop_max (fuel a : Nat) (ha : a < 2 ^ 32) : loop (2 ^ 32 - 1) fuel a = none := by
  induction fuel generalizing a with
  | zero => rfl
  | succ f ih => rw [loop, if_pos (by omega), ih _ (Nat.mod_lt _ (by decide))]; rfl

theorem part_good {p : List (Option Nat)} (h : Good p) {fuel : Nat} (hf : 2 ^ 32 ≤ fuel) : ∃ l, part fuel p = .ok l ∧ l.Nodup ∧ ∀ n, n ∈ l ↔ Names n p := by
  match p, h with
  | [some a], _ => exact ⟨[a], rfl, by simp, by simp [Names]⟩
  | [some a, some b], h =>
    have := loop_range h.2 (a := a) (k := b + 1 - a) (fuel := fuel) (by have := h.1; omega) (by have := h.2; omega)
    refine ⟨List.range' a (b + 1 - a), ?_, List.nodup_range', fun n => ?_⟩
    · rw [part, if_pos h.1, this]
    · rw [List.mem_range'_1]; simp only [Names]; have := h.1; omega

theorem parts_good {fuel : Nat} (hf : 2 ^ 32 ≤ fuel) : ∀ {conf : List (List (Option Nat))}, (∀ p ∈ conf, Good p) →
    ∃ g, parts fuel conf = .ok g ∧ (∀ n, n ∈ g ↔ ∃ p ∈ conf, Names n p) ∧ (g.Nodup ↔ Once conf) := by
  intro conf
  induction conf with
  | nil => intro _; exact ⟨[], rfl, by simp, by simp [Once]⟩
  | cons p ps ih =>
    intro h
    obtain ⟨l, e1, n1, m1⟩ := part_good (h p (by simp)) hf
    obtain ⟨k, e2, m2, n2⟩ := ih (fun q hq => h q (List.mem_cons_of_mem _ hq))
    refine ⟨l ++ k, by simp [parts, e1, e2], fun n => by simp [m1, m2], ?_⟩
    rw [List.nodup_append, n2]
    show _ ↔ List.Pairwise _ (p :: ps)
    rw [List.pairwise_cons]
    constructor
    · rintro ⟨_, h2, h3⟩
      exact ⟨fun q hq n hn hn' => h3 n ((m1 n).mpr hn) n ((m2 n).mpr ⟨q, hq, hn'⟩) rfl, h2⟩
    · rintro ⟨h1, h2⟩
      refine ⟨n1, h2, fun a ha b hb e => ?_⟩
      subst e
      obtain ⟨q, hq, hn⟩ := (m2 a).mp hb
      exact h1 q hq a ((m1 a).mp ha) hn

theorem distinct_iff (l : List Nat) : distinct l = true ↔ l.Nodup := by
  induction l with
  | nil => simp [distinct]
  | cons x l ih => simp [distinct, ih]

theorem includes_iff : ∀ {c g : List Nat}, c.Pairwise (· ≤ ·) → g.Pairwise (· < ·) → (includes c g = true ↔ ∀ x ∈ g, x ∈ c) := by
  intro c
  induction c with
  | nil =>
    intro g _ _
    cases g with
    | nil => simp [includes]
    | cons b k => simp only [includes, Bool.false_eq_true, false_iff]; exact fun h => nomatch h b (by simp)
  | cons a l ih =>
    intro g hc hg
    cases g with
    | nil => simp [includes]
    | cons b k =>
      have hc' := List.pairwise_cons.mp hc
      have hg' := List.pairwise_cons.mp hg
      rw [includes]
      by_cases h1 : b < a
      · rw [if_pos h1]
        simp only [Bool.false_eq_true, false_iff]
        intro h
        rcases List.mem_cons.mp (h b (by simp)) with e | e
        · omega
        · have := hc'.1 b e; omega
      · rw [if_neg h1]
        by_cases h2 : a < b
        · rw [if_pos h2, ih hc'.2 hg]
          constructor
          · exact fun h x hx => List.mem_cons_of_mem _ (h x hx)
          · intro h x hx
            rcases List.mem_cons.mp (h x hx) with e | e
            · rcases List.mem_cons.mp hx with e2 | e2
              · omega
              · have := hg'.1 x e2; omega
            · exact e
        · rw [if_neg h2, ih hc'.2 hg'.2]
          have hab : a = b := by omega
          subst hab
          constructor
          · intro h x hx
            rcases List.mem_cons.mp hx with e | e
            · simp [e]
            · exact List.mem_cons_of_mem _ (h x e)
          · intro h x hx
            have := hg'.1 x hx
            rcases List.mem_cons.mp (h x (List.mem_cons_of_mem _ hx)) with e | e
            · omega
            · exact e

theorem sorted_sort (l : List Nat) : (l.mergeSort (fun a b => decide (a ≤ b))).Pairwise (· ≤ ·) := by
  have := List.pairwise_mergeSort (le := fun a b : Nat => decide (a ≤ b)) (by intro a b c; simp; omega) (by intro a b; simp; omega) l
  exact this.imp (by simp)

/-- The configuration is accepted: it names at least one processor, none twice, and only those of the thread. -/
def Accepts (cpus : Option (List Nat)) (conf : List (List (Option Nat))) : Prop :=
  conf ≠ [] ∧ Once conf ∧ ∃ c, cpus = some c ∧ ∀ p ∈ conf, ∀ n, Names n p → n ∈ c

/-- **C165.** A configuration of good parts is accepted if and only if it names a processor, none twice, and only those of the thread; then the numbers that it names are added in increasing order, otherwise nothing is added. -/
theorem C165_parse {conf : List (List (Option Nat))} (hg : ∀ p ∈ conf, Good p) (cpus : Option (List Nat)) (out : List Nat) {fuel : Nat} (hf : 2 ^ 32 ≤ fuel) :
    (Accepts cpus conf → ∃ g, parse fuel cpus conf out = .ok (true, out ++ g) ∧ g.Pairwise (· < ·) ∧ ∀ n, n ∈ g ↔ ∃ p ∈ conf, Names n p) ∧
    (¬ Accepts cpus conf → parse fuel cpus conf out = .ok (false, out)) := by
  obtain ⟨g, e, hm, hn⟩ := parts_good hf hg
  have hne : conf ≠ [] ↔ g ≠ [] := by
    cases conf with
    | nil => simp only [parts, Res.ok.injEq] at e; simp [← e]
    | cons p ps =>
      simp only [ne_eq, reduceCtorEq, not_false_eq_true, true_iff]
      obtain ⟨n, hp⟩ : ∃ n, Names n p := by
        have := hg p (by simp)
        match p, this with
        | [some a], _ => exact ⟨a, show a = a from rfl⟩
        | [some a, some b], h => exact ⟨a, show a ≤ a ∧ a ≤ b from ⟨Nat.le_refl _, h.1⟩⟩
      intro h0
      have := (hm n).mpr ⟨p, by simp, hp⟩
      rw [h0] at this; cases this
  unfold parse
  rw [e]
  simp only
  by_cases hd : distinct g = true
  · have hnd := (distinct_iff g).mp hd
    simp only [hd, Bool.not_true, Bool.false_eq_true, if_false]
    cases cpus with
    | none => exact ⟨fun ⟨_, _, c, hc, _⟩ => (nomatch hc), fun _ => rfl⟩
    | some c =>
      by_cases h0 : g = []
      · refine ⟨fun ha => absurd h0 (hne.mp ha.1), fun _ => ?_⟩
        simp [effective, h0]
      · have hp := List.mergeSort_perm g (fun a b => decide (a ≤ b))
        have hs : (g.mergeSort (fun a b => decide (a ≤ b))).Pairwise (· < ·) := by
          have h1 := sorted_sort g
          have h2 : (g.mergeSort (fun a b => decide (a ≤ b))).Nodup := hp.nodup_iff.mpr hnd
          exact (h1.and h2).imp (fun h => Nat.lt_of_le_of_ne h.1 h.2)
        have hi := includes_iff (sorted_sort c) hs
        have hcp := List.mergeSort_perm c (fun a b => decide (a ≤ b))
        have hin : includes (c.mergeSort (fun a b => decide (a ≤ b))) (g.mergeSort (fun a b => decide (a ≤ b))) = true ↔ Accepts (some c) conf := by
          rw [hi]
          constructor
          · intro h
            refine ⟨hne.mpr h0, hn.mp hnd, c, rfl, fun p hp' n hnm => ?_⟩
            exact hcp.mem_iff.mp (h n (hp.mem_iff.mpr ((hm n).mpr ⟨p, hp', hnm⟩)))
          · rintro ⟨_, _, c', hc', h⟩ x hx
            cases hc'
            obtain ⟨p, hp', hnm⟩ := (hm x).mp (hp.mem_iff.mp hx)
            exact hcp.mem_iff.mpr (h p hp' x hnm)
        have he : effective (some c) g = (g.mergeSort (fun a b => decide (a ≤ b)), includes (c.mergeSort (fun a b => decide (a ≤ b))) (g.mergeSort (fun a b => decide (a ≤ b)))) := by
          simp [effective, h0]
        rw [he]
        refine ⟨fun ha => ?_, fun ha => ?_⟩
        · rw [hin.mpr ha]
          exact ⟨_, rfl, hs, fun n => by rw [hp.mem_iff, hm]⟩
        · have : includes (c.mergeSort (fun a b => decide (a ≤ b))) (g.mergeSort (fun a b => decide (a ≤ b))) = false := by
            cases hb : includes (c.mergeSort (fun a b => decide (a ≤ b))) (g.mergeSort (fun a b => decide (a ≤ b))) with
            | false => rfl
            | true => exact absurd (hin.mp hb) ha
          rw [this]; rfl
  · have hd' : distinct g = false := by cases h : distinct g <;> simp_all
    simp only [hd', Bool.not_false, if_true]
    refine ⟨fun ha => absurd ((distinct_iff g).mpr (hn.mpr ha.2.1)) hd, fun _ => trivial⟩

/-- **C165.** The manager then has these processors and starts with the first one; otherwise it has none. -/
theorem C165_group {conf : List (List (Option Nat))} (hg : ∀ p ∈ conf, Good p) (cpus : Option (List Nat)) (m : Mgr) {fuel : Nat} (hf : 2 ^ 32 ≤ fuel) :
    (Accepts cpus conf → ∃ g, m.parse fuel cpus false conf = .ok (true, ⟨g, 0⟩) ∧ g ≠ [] ∧ g.Pairwise (· < ·) ∧ ∀ n, n ∈ g ↔ ∃ p ∈ conf, Names n p) ∧
    (¬ Accepts cpus conf → m.parse fuel cpus false conf = .ok (false, { m with group := [] })) ∧ m.parse fuel cpus true conf = .ok (false, { m with group := [] }) := by
  obtain ⟨h1, h2⟩ := C165_parse hg cpus [] hf
  refine ⟨fun ha => ?_, fun ha => ?_, rfl⟩
  · obtain ⟨g, e, hs, hm⟩ := h1 ha
    refine ⟨g, by simp [Mgr.parse, e], fun h0 => ?_, hs, hm⟩
    obtain ⟨p, ps, rfl⟩ := List.exists_cons_of_ne_nil ha.1
    have := hg p (by simp)
    match p, this with
    | [some a], _ => have := (hm a).mpr ⟨_, List.mem_cons_self, show a = a from rfl⟩; rw [h0] at this; cases this
    | [some a, some b], h => have := (hm a).mpr ⟨_, List.mem_cons_self, show a ≤ a ∧ a ≤ b from ⟨Nat.le_refl _, h.1⟩⟩; rw [h0] at this; cases this
  · simp [Mgr.parse, h2 ha]

/-- The state after `n` calls that bind a thread, where the affinity of any processor can be set. -/
def Mgr.binds (m : Mgr) : Nat → Mgr
  | 0 => m
  | n + 1 => ((m.binds n).bind none (fun _ => true)).2

/-- **C165.** Threads get the processors of the group in turn, for the first 2^31 threads. -/
theorem C165_turn (g : List Nat) (hg : g ≠ []) (n : Nat) (hn : n < 2 ^ 31) : ((Mgr.binds ⟨g, 0⟩ n).bind none (fun _ => true)).1 = g[n % g.length]? := by
  have hs : ∀ k, k ≤ 2 ^ 31 → Mgr.binds ⟨g, 0⟩ k = ⟨g, k⟩ := by
    intro k
    induction k with
    | zero => intro _; rfl
    | succ k ih =>
      intro hk
      have hlt : narrow k % g.length < g.length := Nat.mod_lt _ (List.length_pos_iff.mpr hg)
      rw [Mgr.binds, ih (by omega)]
      simp only [Mgr.bind, List.isEmpty_iff, hg, if_false, List.getElem?_eq_getElem hlt, if_true]
      rw [Nat.mod_eq_of_lt (by omega)]
  have hlt : narrow n % g.length < g.length := Nat.mod_lt _ (List.length_pos_iff.mpr hg)
  have hnr : narrow n = n := by
    unfold narrow
    rw [Nat.mod_eq_of_lt (by omega), if_pos hn]
  rw [hs n (by omega)]
  simp only [Mgr.bind, List.isEmpty_iff, hg, if_false, List.getElem?_eq_getElem hlt, if_true]
  rw [← List.getElem?_eq_getElem hlt, hnr]

/-- **C165.** Whatever the state, a thread is bound only to a processor of the group (of its own if there is no group), and one for which this works. -/
theorem C165_member (m : Mgr) (cpus : Option (List Nat)) (set : Nat → Bool) {c : Nat} (h : (m.bind cpus set).1 = some c) :
    (m.group ≠ [] → c ∈ m.group) ∧ (m.group = [] → ∃ l, cpus = some l ∧ c ∈ l) ∧ set c = true := by
  unfold Mgr.bind at h
  generalize hids : (if m.group.isEmpty then cpus.getD [] else m.group) = ids at h
  simp only at h
  by_cases h0 : ids.isEmpty = true
  · rw [if_pos h0] at h; cases h
  · rw [if_neg h0] at h
    cases hd : ids[narrow m.seq % ids.length]? with
    | none => rw [hd] at h; cases h
    | some d =>
      rw [hd] at h
      simp only at h
      by_cases hs : set d = true
      · rw [if_pos hs] at h
        have : d = c := by simpa using h
        subst this
        have hm := List.mem_of_getElem? hd
        rw [← hids] at hm
        refine ⟨fun hg => ?_, fun hg => ?_, hs⟩
        · simpa [hg] using hm
        · rw [hg] at hm
          cases cpus with
          | none => simp at hm
          | some l => exact ⟨l, rfl, by simpa using hm⟩
      · rw [if_neg hs] at h; cases h

/-- **C166.** A part that is not a number or a range in order ends the program instead of being refused (if no range before it goes on for ever). -/
theorem C166_abort_partial {conf rest : List (List (Option Nat))} (hg : ∀ p ∈ conf, Good p) {p : List (Option Nat)} (hp : ∀ a b, p = [some a, some b] → b < a) (hp1 : ∀ a, p ≠ [some a])
    (cpus : Option (List Nat)) (m : Mgr) {fuel : Nat} (hf : 2 ^ 32 ≤ fuel) : m.parse fuel cpus false (conf ++ p :: rest) = .abort := by
  have h1 : part fuel p = .abort := by
    unfold part
    split
    · next a => exact absurd rfl (hp1 a)
    · next a b => have := hp a b rfl; rw [if_neg (by omega)]
    · rfl
  have h2 : ∀ conf : List (List (Option Nat)), (∀ p ∈ conf, Good p) → parts fuel (conf ++ p :: rest) = .abort := by
    intro conf
    induction conf with
    | nil => intro _; simp [parts, h1]
    | cons q qs ih =>
      intro h
      obtain ⟨l, e, _⟩ := part_good (h q (by simp)) hf
      simp [parts, e, ih (fun x hx => h x (List.mem_cons_of_mem _ hx))]
  simp [Mgr.parse, parse, h2 conf hg]

/-- **C166.** A range that ends with 4294967295 goes on for ever. -/
theorem C166_forever_partial {conf rest : List (List (Option Nat))} (hg : ∀ p ∈ conf, Good p) {a : Nat} (ha : a < 2 ^ 32) (cpus : Option (List Nat)) (m : Mgr) {fuel : Nat} (hf : 2 ^ 32 ≤ fuel) :
    m.parse fuel cpus false (conf ++ [some a, some (2 ^ 32 - 1)] :: rest) = .runs := by
  have h1 : part fuel [some a, some (2 ^ 32 - 1)] = .runs := by
    rw [part, if_pos (by omega), loop_max fuel a ha]
  have h2 : ∀ conf : List (List (Option Nat)), (∀ p ∈ conf, Good p) → parts fuel (conf ++ [some a, some (2 ^ 32 - 1)] :: rest) = .runs := by
    intro conf
    induction conf with
    | nil => intro _; rw [List.nil_append, parts, h1]
    | cons q qs ih =>
      intro h
      obtain ⟨l, e, _⟩ := part_good (h q (by simp)) hf
      rw [List.cons_append, parts, e, ih (fun x hx => h x (List.mem_cons_of_mem _ hx))]
  simp only [Mgr.parse, parse, h2 conf hg, Bool.false_eq_true, if_false]

/-- `5-7,1` on a machine with eight processors. -/
example : Accepts (some [0, 1, 2, 3, 4, 5, 6, 7]) [[some 5, some 7], [some 1]] ∧ (∀ p ∈ [[some 5, some 7], [some 1]], Good p) := by
  refine ⟨⟨by simp, ?_, _, rfl, ?_⟩, ?_⟩
  · simp [Once, Names]; omega
  · intro p hp n hn
    simp only [List.mem_cons, List.not_mem_nil, or_false] at hp
    rcases hp with rfl | rfl
    · simp only [Names] at hn; have : n = 5 ∨ n = 6 ∨ n = 7 := by omega
      rcases this with rfl | rfl | rfl <;> decide
    · simp only [Names] at hn; subst hn; decide
  · simp [Good]

/-- `3-3,3` is refused. -/
example : ¬ Accepts (some [3]) [[some 3, some 3], [some 3]] := by
  rintro ⟨_, h, _⟩
  exact (List.pairwise_cons.mp h).1 [some 3] (by simp) 3 (show 3 ≤ 3 ∧ 3 ≤ 3 by decide) (show 3 = 3 from rfl)

end Verif.Thread.BindCore
