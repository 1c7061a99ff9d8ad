import Verif.Tvar.GroupProps

/-!
# The tree of exposed variables: calls
-/

namespace Verif.Tvar.Group

structure Inv (s : S) (hs : List (Path × Bytes)) : Prop where
  good : ∀ p, s.node p = true → p ≠ [] ∧ ∀ n, n ∈ p → Good n
  up : ∀ p n, s.node (p ++ [n]) = true → p = [] ∨ s.node p = true
  dir : ∀ p n, (s.leaf p n).isSome = true → p = [] ∨ s.node p = true
  name : ∀ p n, (s.leaf p n).isSome = true → n = [] ∨ Good n
  excl : ∀ p n, (s.leaf p n).isSome = true → s.node (p ++ [n]) = false
  hand : ∀ h, h ∈ hs ↔ (s.leaf h.1 h.2).isSome = true
  nodup : hs.Nodup

/-- A group or the root. -/
def Dir (s : S) (p : Path) : Prop := p = [] ∨ s.node p = true

theorem Inv.dirGood {s : S} {hs} (i : Inv s hs) {p : Path} (h : Dir s p) : ∀ n, n ∈ p → Good n := by
  rcases h with rfl | h
  · simp
  · exact (i.good p h).2

/-- all prefixes of a group are groups -/
theorem Inv.prefix {s : S} {hs} (i : Inv s hs) : ∀ (b a : Path), Dir s (a ++ b) → Dir s a := by
  intro b
  induction b with
  | nil => intro a h; simpa using h
  | cons n b ih =>
    intro a h
    have h' := ih (a ++ [n]) (by simpa using h)
    rcases h' with h' | h'
    · simp at h'
    · exact i.up a n h'

/-- The names on the way are not leaves. -/
def Free (s : S) (cur d : Path) : Prop := ∀ a m b, d = a ++ m :: b → s.leaf (cur ++ a) m = none

theorem addNode_inv {s : S} {hs} (i : Inv s hs) {p : Path} {n : Bytes} (hp : Dir s p) (hn : Good n) (hl : s.leaf p n = none) : Inv (addNode s (p ++ [n])) hs := by
  have hg := i.dirGood hp
  obtain ⟨i1, i2, i3, i4, i5, i6, i7⟩ := i
  refine ⟨?_, ?_, ?_, i4, ?_, i6, i7⟩
  · intro q hq
    simp only [addNode, Bool.or_eq_true, beq_iff_eq] at hq
    rcases hq with rfl | hq
    · refine ⟨by simp, fun m hm => ?_⟩
      rcases List.mem_append.mp hm with h | h
      · exact hg m h
      · rw [List.mem_singleton.mp h]; exact hn
    · exact i1 q hq
  · intro q m hq
    simp only [addNode, Bool.or_eq_true, beq_iff_eq] at hq ⊢
    rcases hq with hq | hq
    · have := List.append_inj_left' hq rfl
      subst this
      rcases hp with h | h
      · exact Or.inl h
      · exact Or.inr (Or.inr h)
    · rcases i2 q m hq with h | h
      · exact Or.inl h
      · exact Or.inr (Or.inr h)
  · intro q m hq
    simp only [addNode, Bool.or_eq_true, beq_iff_eq]
    rcases i3 q m hq with h | h
    · exact Or.inl h
    · exact Or.inr (Or.inr h)
  · intro q m hq
    have := i5 q m hq
    simp only [addNode, Bool.or_eq_false_iff, beq_eq_false_iff_ne, ne_eq]
    refine ⟨fun e => ?_, this⟩
    obtain ⟨rfl, e2⟩ := List.append_inj' e rfl
    simp only [List.cons.injEq, and_true] at e2
    subst e2
    simp only [addNode] at hq
    rw [hl] at hq
    simp at hq

theorem createLoop_ok {hs} : ∀ (b : Path) (s : S) (cur : Path), Inv s hs → Dir s cur → (∀ n, n ∈ b → Good n) →
    Inv (createLoop s cur b).1 hs ∧ (createLoop s cur b).1.leaf = s.leaf ∧ (∀ p, s.node p = true → (createLoop s cur b).1.node p = true) ∧
    (Free s cur b → (createLoop s cur b).2 = .ok (cur ++ b) ∧ Dir (createLoop s cur b).1 (cur ++ b) ∧ ∀ p, (createLoop s cur b).1.node p = true → s.node p = true ∨ ∃ a m b', b = a ++ m :: b' ∧ p = cur ++ a ++ [m]) ∧
    (¬ Free s cur b → (createLoop s cur b).2 = .refused) := by
  intro b
  induction b with
  | nil =>
    intro s cur i hd _
    refine ⟨i, rfl, fun p h => h, fun _ => ⟨by simp [createLoop], by simpa [createLoop] using hd, fun p h => Or.inl h⟩, fun h => absurd ?_ h⟩
    intro a m b e
    simp at e
  | cons e b ih =>
    intro s cur i hd hg
    rw [createLoop]
    by_cases hl : (s.leaf cur e).isSome = true
    · rw [if_pos hl]
      refine ⟨i, rfl, fun p h => h, fun hf => ?_, fun _ => rfl⟩
      have := hf [] e b rfl
      simp only [List.append_nil] at this
      rw [this] at hl
      simp at hl
    · rw [if_neg hl]
      have hln : s.leaf cur e = none := by simpa using hl
      have i' := addNode_inv i hd (hg e List.mem_cons_self) hln
      have hd' : Dir (addNode s (cur ++ [e])) (cur ++ [e]) := Or.inr (by simp [addNode])
      obtain ⟨a1, a2, a3, a4, a5⟩ := ih (addNode s (cur ++ [e])) (cur ++ [e]) i' hd' fun m hm => hg m (List.mem_cons_of_mem _ hm)
      have hfree : Free s cur (e :: b) ↔ Free (addNode s (cur ++ [e])) (cur ++ [e]) b := by
        constructor
        · intro h a m b' hb
          have := h (e :: a) m b' (by simp [hb])
          simpa [addNode] using this
        · intro h a m b' hb
          cases a with
          | nil => simp only [List.nil_append, List.cons.injEq] at hb; rw [← hb.1]; simpa using hln
          | cons x a =>
            simp only [List.cons_append, List.cons.injEq] at hb
            have := h a m b' hb.2
            rw [← hb.1]
            simpa [addNode] using this
      refine ⟨a1, a2, fun p hp => a3 p (by simp [addNode, hp]), fun hf => ?_, fun hf => a5 (fun h => hf (hfree.mpr h))⟩
      obtain ⟨b1, b2, b3⟩ := a4 (hfree.mp hf)
      refine ⟨by simpa using b1, by simpa using b2, fun p hp => ?_⟩
      rcases b3 p hp with h | ⟨a, m, b', e1, e2⟩
      · simp only [addNode, Bool.or_eq_true, beq_iff_eq] at h
        rcases h with h | h
        · exact Or.inr ⟨[], e, b, rfl, by simpa using h⟩
        · exact Or.inl h
      · exact Or.inr ⟨e :: a, m, b', by simp [e1], by simpa using e2⟩

theorem createUpto_ok {s : S} {hs} (i : Inv s hs) {cur d : Path} (hd : Dir s cur) (hg : ∀ n, n ∈ d → Good n) :
    Inv (createUpto s cur (joinS d)).1 hs ∧ (createUpto s cur (joinS d)).1.leaf = s.leaf ∧ (∀ p, s.node p = true → (createUpto s cur (joinS d)).1.node p = true) ∧
    (Free s cur d → (createUpto s cur (joinS d)).2 = .ok (cur ++ d) ∧ Dir (createUpto s cur (joinS d)).1 (cur ++ d) ∧ ∀ p, (createUpto s cur (joinS d)).1.node p = true → s.node p = true ∨ ∃ a m b', d = a ++ m :: b' ∧ p = cur ++ a ++ [m]) ∧
    (¬ Free s cur d → (createUpto s cur (joinS d)).2 = .refused) := by
  obtain ⟨a, b, e1, e2, e3, e4⟩ := findLowest_join s d cur hg
  have hgb : ∀ n, n ∈ b → Good n := fun n hn => hg n (by rw [e1]; exact List.mem_append_right _ hn)
  have hda : Dir s (cur ++ a) := by
    by_cases ha : a = []
    · subst ha; simpa using hd
    · right
      have := e3 a.dropLast (a.getLast ha) [] (List.dropLast_concat_getLast ha).symm
      rw [List.append_assoc, List.dropLast_concat_getLast] at this
      exact this
  -- groups on the way are no leaves
  have hfree : Free s cur d ↔ Free s (cur ++ a) b := by
    constructor
    · intro h x m y hb
      have := h (a ++ x) m y (by rw [e1, hb]; simp)
      simpa using this
    · intro h x m y hxy
      rw [e1] at hxy
      rcases List.append_eq_append_iff.mp hxy with ⟨z, h1, h2⟩ | ⟨z, h1, h2⟩
      · have := h z m y h2
        rw [h1]
        simpa using this
      · cases z with
        | nil =>
          have := h [] m y (by simpa using h2.symm)
          simp only [List.append_nil] at h1 this
          rw [← h1]
          exact this
        | cons w z =>
          simp only [List.cons_append, List.cons.injEq] at h2
          have hn := e3 x m z (by rw [h1, ← h2.1])
          by_cases hl : (s.leaf (cur ++ x) m).isSome = true
          · rw [i.excl _ _ hl] at hn; simp at hn
          · simpa using hl
  obtain ⟨a1, a2, a3, a4, a5⟩ := createLoop_ok b s (cur ++ a) i hda hgb
  unfold createUpto
  simp only [checkRel_join hg, Bool.not_true, Bool.false_eq_true, if_false, e2, pieces_join hgb]
  have hgood : ∀ n, n ∈ cur ++ d → Good n := by
    intro n hn
    rcases List.mem_append.mp hn with h | h
    · exact i.dirGood hd n h
    · exact hg n h
  by_cases hf : Free s cur d
  · obtain ⟨b1, b2, b3⟩ := a4 (hfree.mp hf)
    generalize hL : createLoop s (cur ++ a) b = L at *
    obtain ⟨s', r⟩ := L
    simp only at *
    subst b1
    have hcd : cur ++ a ++ b = cur ++ d := by rw [e1]; simp
    simp only [hcd] at *
    rw [suffix_ok hgood]
    simp only [if_true]
    refine ⟨a1, a2, a3, fun _ => ⟨trivial, b2, fun p hp => ?_⟩, fun h => absurd hf h⟩
    rcases b3 p hp with h | ⟨x, m, y, h1, h2⟩
    · exact Or.inl h
    · exact Or.inr ⟨a ++ x, m, y, by rw [e1, h1]; simp, by simpa using h2⟩
  · have hr := a5 fun h => hf (hfree.mpr h)
    generalize hL : createLoop s (cur ++ a) b = L at *
    obtain ⟨s', r⟩ := L
    simp only at *
    subst hr
    exact ⟨a1, a2, a3, fun h => absurd h hf, fun _ => rfl⟩

theorem addDirect_inv {s : S} {hs} (i : Inv s hs) {p : Path} {n : Bytes} (hd : Dir s p) (hn : n = [] ∨ Good n) (v : Nat) (h1 : s.leaf p n = none) (h2 : s.node (p ++ [n]) = false) :
    Inv { s with leaf := fun q m => if q = p ∧ m = n then some v else s.leaf q m } ((p, n) :: hs) := by
  obtain ⟨i1, i2, i3, i4, i5, i6, i7⟩ := i
  refine ⟨i1, i2, ?_, ?_, ?_, ?_, ?_⟩
  · intro q m hq
    simp only at hq
    split at hq
    · rename_i h; rw [h.1]; exact hd
    · exact i3 q m hq
  · intro q m hq
    simp only at hq
    split at hq
    · rename_i h; rw [h.2]; exact hn
    · exact i4 q m hq
  · intro q m hq
    simp only at hq
    split at hq
    · rename_i h; rw [h.1, h.2]; exact h2
    · exact i5 q m hq
  · rintro ⟨q, m⟩
    simp only [List.mem_cons, Prod.mk.injEq]
    by_cases h : q = p ∧ m = n
    · simp [h]
    · simp only [h, false_or, if_false]; exact i6 (q, m)
  · refine List.nodup_cons.mpr ⟨fun h => ?_, i7⟩
    have := (i6 _).mp h
    simp [h1] at this

/-- The form of a relative path after the check. -/
theorem rel_form {rel : Bytes} (h : checkRel (esc rel) = true) : esc rel = [] ∨ ∃ d n, (∀ m, m ∈ d → Good m) ∧ Good n ∧ esc rel = joinS (d ++ [n]) := by
  obtain ⟨c, hc, e⟩ := checkRel_exists h
  by_cases h0 : c = []
  · left; rw [e, h0]; rfl
  · right
    refine ⟨c.dropLast, c.getLast h0, fun m hm => hc m ((List.dropLast_sublist c).subset hm), hc _ (List.getLast_mem h0), ?_⟩
    rw [List.dropLast_concat_getLast]; exact e

/-- `Add` of a path of names: refused if a name on the way is a variable, or the last name is a variable or a group; otherwise the variable is there, and no assertion fails. -/
theorem add_ok {s : S} {hs} (i : Inv s hs) {cur d : Path} {n : Bytes} (hd : Dir s cur) (hg : ∀ m, m ∈ d → Good m) (hn : n = [] ∧ d = [] ∨ Good n) {rel : Bytes} (h0 : 0 ∉ rel) (he : esc rel = joinS (d ++ [n])) (v : Nat) :
    (Free s cur d ∧ s.leaf (cur ++ d) n = none ∧ s.node (cur ++ d ++ [n]) = false →
      (add s cur rel v).2 = .ok (cur ++ d, n) ∧ Inv (add s cur rel v).1 ((cur ++ d, n) :: hs) ∧ (add s cur rel v).1.leaf = fun q m => if q = cur ++ d ∧ m = n then some v else s.leaf q m) ∧
    (¬ (Free s cur d ∧ s.leaf (cur ++ d) n = none ∧ s.node (cur ++ d ++ [n]) = false) → (add s cur rel v).2 = .refused ∧ Inv (add s cur rel v).1 hs ∧ (add s cur rel v).1.leaf = s.leaf) := by
  have hns : slash ∉ n := by
    rcases hn with h | h
    · rw [h.1]; simp
    · exact h.2
  have hc : checkRel (joinS (d ++ [n])) = true := by
    rcases hn with h | h
    · rw [h.1, h.2]; decide
    · apply checkRel_join
      intro m hm
      rcases List.mem_append.mp hm with h' | h'
      · exact hg m h'
      · rw [List.mem_singleton.mp h']; exact h
  unfold add
  rw [if_neg h0, he, hc, splitLast_join hns]
  simp only [Bool.not_true, Bool.false_eq_true, if_false]
  obtain ⟨a1, a2, a3, a4, a5⟩ := createUpto_ok i hd hg
  generalize hL : createUpto s cur (joinS d) = L at *
  obtain ⟨s', r⟩ := L
  simp only at *
  by_cases hf : Free s cur d
  · obtain ⟨b1, b2, b3⟩ := a4 hf
    subst b1
    have hnode : s'.node (cur ++ d ++ [n]) = s.node (cur ++ d ++ [n]) := by
      by_cases h : s.node (cur ++ d ++ [n]) = true
      · rw [h, a3 _ h]
      · have h' : s.node (cur ++ d ++ [n]) = false := by simpa using h
        rw [h']
        by_cases hx : s'.node (cur ++ d ++ [n]) = true
        · rcases b3 _ hx with hy | ⟨a, m, b', e1, e2⟩
          · exact absurd hy h
          · exfalso
            have := congrArg List.length e2
            simp only [List.length_append, List.length_cons, List.length_nil] at this
            rw [e1] at this
            simp only [List.length_append, List.length_cons] at this
            omega
        · simpa using hx
    simp only [addDirect, a2, hnode]
    by_cases hx : s.leaf (cur ++ d) n = none ∧ s.node (cur ++ d ++ [n]) = false
    · simp only [hx.1, hx.2, Option.isSome_none, Bool.or_self, Bool.false_eq_true, if_false]
      refine ⟨fun _ => ⟨trivial, ?_, trivial⟩, fun h => absurd ⟨hf, trivial, trivial⟩ h⟩
      have := addDirect_inv a1 b2 (hn.imp And.left id) v (by rw [a2]; exact hx.1) (by rw [hnode]; exact hx.2)
      rw [a2] at this
      exact this
    · have : ((s.leaf (cur ++ d) n).isSome || s.node (cur ++ d ++ [n])) = true := by
        cases h1 : s.leaf (cur ++ d) n with
        | some _ => rfl
        | none =>
          cases h2 : s.node (cur ++ d ++ [n]) with
          | true => rfl
          | false => exact absurd ⟨h1, h2⟩ hx
      rw [if_pos this]
      exact ⟨fun h => absurd h.2 hx, fun _ => ⟨rfl, a1, a2⟩⟩
  · have := a5 hf
    subst this
    exact ⟨fun h => absurd h.1 hf, fun _ => ⟨rfl, a1, a2⟩⟩

theorem remove_inv {s : S} {hs} (i : Inv s hs) {h : Path × Bytes} (hm : h ∈ hs) : Inv (remove s h).1 (hs.erase h) := by
  obtain ⟨i1, i2, i3, i4, i5, i6, i7⟩ := i
  have hsub : ∀ q m, ((remove s h).1.leaf q m).isSome = true → (s.leaf q m).isSome = true := by
    intro q m hq
    simp only [remove] at hq
    split at hq
    · simp at hq
    · exact hq
  refine ⟨i1, i2, fun q m hq => i3 q m (hsub q m hq), fun q m hq => i4 q m (hsub q m hq), fun q m hq => i5 q m (hsub q m hq), ?_, i7.erase h⟩
  intro x
  rw [i7.mem_erase_iff]
  simp only [remove]
  by_cases hx : x = h
  · subst hx; simp
  · have : ¬ (x.1 = h.1 ∧ x.2 = h.2) := fun e => hx (Prod.ext e.1 e.2)
    rw [if_neg this, i6 x]
    simp [hx]

theorem create_inv {s : S} {hs} (i : Inv s hs) (abs : Bytes) : Inv (findOrCreate s abs).1 hs := by
  unfold findOrCreate
  split
  · exact i
  · split
    · exact i
    · split
      · exact i
      · by_cases h : checkRel ((esc abs).drop 1) = true
        · obtain ⟨c, hc, e⟩ := checkRel_exists h
          rw [e]
          exact (createUpto_ok i (Or.inl rfl) hc).1
        · unfold createUpto
          simp only [h, Bool.not_false, if_true]
          exact i

theorem inv_step {s s' : S} {hs hs'} (i : Inv s hs) (h : Step s hs s' hs') : Inv s' hs' := by
  cases h with
  | create abs => exact create_inv i abs
  | removed hm => exact remove_inv i hm
  | added cur rel v hc he =>
    rename_i h
    by_cases h0 : 0 ∈ rel
    · simp [add, h0] at he
    · by_cases hk : checkRel (esc rel) = true
      · have key : ∀ d n, (∀ m, m ∈ d → Good m) → (n = [] ∧ d = [] ∨ Good n) → esc rel = joinS (d ++ [n]) → Inv s' (h :: hs) := by
          intro d n hg hn e
          obtain ⟨k1, k2⟩ := add_ok i hc hg hn h0 e v
          by_cases hx : Free s cur d ∧ s.leaf (cur ++ d) n = none ∧ s.node (cur ++ d ++ [n]) = false
          · obtain ⟨r1, r2, -⟩ := k1 hx
            rw [he] at r1 r2
            simp only [R.ok.injEq] at r1
            rw [r1]
            exact r2
          · have := (k2 hx).1
            rw [he] at this
            simp at this
        rcases rel_form hk with e | ⟨d, n, hg, hn, e⟩
        · exact key [] [] (by simp) (Or.inl ⟨rfl, rfl⟩) (by rw [e]; rfl)
        · exact key d n hg (Or.inr hn) e
      · simp [add, h0, hk] at he
  | failed cur rel v hc he =>
    by_cases h0 : 0 ∈ rel
    · simpa [add, h0] using i
    · by_cases hk : checkRel (esc rel) = true
      · have key : ∀ d n, (∀ m, m ∈ d → Good m) → (n = [] ∧ d = [] ∨ Good n) → esc rel = joinS (d ++ [n]) → Inv (add s cur rel v).1 hs := by
          intro d n hg hn e
          obtain ⟨k1, k2⟩ := add_ok i hc hg hn h0 e v
          by_cases hx : Free s cur d ∧ s.leaf (cur ++ d) n = none ∧ s.node (cur ++ d ++ [n]) = false
          · exact absurd (k1 hx).1 (he _)
          · exact (k2 hx).2.1
        rcases rel_form hk with e | ⟨d, n, hg, hn, e⟩
        · exact key [] [] (by simp) (Or.inl ⟨rfl, rfl⟩) (by rw [e]; rfl)
        · exact key d n hg (Or.inr hn) e
      · simpa [add, h0, hk] using i

theorem inv_reach {s : S} {hs} (h : Reach s hs) : Inv s hs := by
  induction h with
  | init => exact ⟨by simp [init], by simp [init], by simp [init], by simp [init], by simp [init], by simp [init], List.nodup_nil⟩
  | step _ hs ih => exact inv_step ih hs

end Verif.Tvar.Group
