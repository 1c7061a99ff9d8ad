import Verif.Http.FieldMap
/-!
# C70, C71: the maps of headers and query parameters
-/

namespace Verif.Http

/-! ## Lists that are ordered -/

theorem takeWhile_eq_filter {α : Type} {p : α → Bool} {l : List α} (h : l.Pairwise (fun x y => p y = true → p x = true)) :
    l.takeWhile p = l.filter p := by
  induction l with
  | nil => rfl
  | cons a l ih =>
    rw [List.pairwise_cons] at h
    by_cases ha : p a = true
    · rw [List.takeWhile_cons_of_pos ha, List.filter_cons_of_pos ha, ih h.2]
    · rw [List.takeWhile_cons_of_neg ha, List.filter_cons_of_neg ha]
      symm
      rw [List.filter_eq_nil_iff]
      exact fun b hb hpb => ha (h.1 b hb hpb)

theorem dropWhile_eq_filter {α : Type} {p : α → Bool} {l : List α} (h : l.Pairwise (fun x y => p y = true → p x = true)) :
    l.dropWhile p = l.filter (fun x => !p x) := by
  induction l with
  | nil => rfl
  | cons a l ih =>
    rw [List.pairwise_cons] at h
    by_cases ha : p a = true
    · rw [List.dropWhile_cons_of_pos ha, List.filter_cons_of_neg (by simp [ha]), ih h.2]
    · rw [List.dropWhile_cons_of_neg ha, List.filter_cons_of_pos (by simp [ha])]
      congr 1
      symm
      rw [List.filter_eq_self]
      intro b hb
      by_cases hpb : p b = true
      · exact absurd (h.1 b hb hpb) ha
      · simp [hpb]

/-- A strict weak order on the keys `P`. -/
structure Weak (P : Bytes → Prop) (less : Bytes → Bytes → Bool) : Prop where
  asymm : ∀ {a b}, P a → P b → less a b = true → less b a = false
  negTrans : ∀ {a b c}, P a → P b → P c → less a b = false → less b c = false → less a c = false

/-- Neither comes before the other. -/
def same (less : Bytes → Bytes → Bool) (a b : Bytes) : Bool := !less a b && !less b a

structure Pairs.WF (P : Bytes → Prop) (less : Bytes → Bytes → Bool) (m : Pairs) : Prop where
  keys : ∀ p ∈ m, P p.1
  sorted : m.Pairwise (fun p q => less q.1 p.1 = false)

section
variable {P : Bytes → Prop} {less : Bytes → Bytes → Bool} (W : Weak P less)
include W

theorem Weak.irrefl {a : Bytes} (h : P a) : less a a = false := by
  cases hl : less a a
  · rfl
  · rw [W.asymm h h hl] at hl; cases hl

theorem Weak.same_trans {a b c : Bytes} (ha : P a) (hb : P b) (hc : P c) (h1 : same less a b = true) (h2 : same less b c = true) :
    same less a c = true := by
  simp only [same, Bool.and_eq_true, Bool.not_eq_true'] at *
  exact ⟨W.negTrans ha hb hc h1.1 h2.1, W.negTrans hc hb ha h2.2 h1.2⟩

theorem pw_below {m : Pairs} (h : m.WF P less) {k : Bytes} (hk : P k) :
    m.Pairwise (fun x y => (fun p : Bytes × Bytes => less p.1 k) y = true → (fun p : Bytes × Bytes => less p.1 k) x = true) := by
  refine List.Pairwise.imp_of_mem ?_ h.sorted
  intro x y hx hy hxy
  dsimp only
  intro hyk
  cases hxk : less x.1 k
  · rw [W.negTrans (h.keys y hy) (h.keys x hx) hk hxy hxk] at hyk; cases hyk
  · rfl

theorem pw_upto {m : Pairs} (h : m.WF P less) {k : Bytes} (hk : P k) :
    m.Pairwise (fun x y => (fun p : Bytes × Bytes => !less k p.1) y = true → (fun p : Bytes × Bytes => !less k p.1) x = true) := by
  refine List.Pairwise.imp_of_mem ?_ h.sorted
  intro x y hx hy hxy
  dsimp only
  intro hyk
  rw [Bool.not_eq_true'] at hyk ⊢
  exact W.negTrans hk (h.keys y hy) (h.keys x hx) hyk hxy

theorem lowerBound_eq {m : Pairs} (h : m.WF P less) {k : Bytes} (hk : P k) : m.lowerBound less k = m.filter (fun p => !less p.1 k) :=
  dropWhile_eq_filter (pw_below W h hk)

theorem below_eq {m : Pairs} (h : m.WF P less) {k : Bytes} (hk : P k) :
    m.takeWhile (fun p => less p.1 k) = m.filter (fun p => less p.1 k) :=
  takeWhile_eq_filter (pw_below W h hk)

omit W in
theorem Pairs.WF.filter {m : Pairs} (h : m.WF P less) (q : Bytes × Bytes → Bool) : Pairs.WF P less (List.filter q m) :=
  ⟨fun p hp => h.keys p (List.mem_filter.1 hp).1, h.sorted.filter q⟩

theorem equalRange_eq {m : Pairs} (h : m.WF P less) {k : Bytes} (hk : P k) : m.equalRange less k = m.filter (fun p => same less k p.1) := by
  rw [Pairs.equalRange, lowerBound_eq W h hk, takeWhile_eq_filter (pw_upto W (h.filter _) hk), List.filter_filter]
  rfl

theorem above_eq {m : Pairs} (h : m.WF P less) {k : Bytes} (hk : P k) :
    (m.lowerBound less k).dropWhile (fun p => !less k p.1) = m.filter (fun p => less k p.1) := by
  rw [lowerBound_eq W h hk, dropWhile_eq_filter (pw_upto W (h.filter _) hk), List.filter_filter]
  refine List.filter_congr fun p hp => ?_
  cases hl : less k p.1
  · simp
  · simp [W.asymm hk (h.keys p hp) hl]

theorem add_eq {m : Pairs} (h : m.WF P less) {k : Bytes} (hk : P k) (v : Bytes) :
    m.add less k v = m.filter (fun p => !less k p.1) ++ (k, v) :: m.filter (fun p => less k p.1) := by
  rw [Pairs.add, takeWhile_eq_filter (pw_upto W h hk), dropWhile_eq_filter (pw_upto W h hk)]
  simp only [Bool.not_not]

theorem delete_eq {m : Pairs} (h : m.WF P less) {k : Bytes} (hk : P k) :
    m.delete less k = m.filter (fun p => less p.1 k) ++ m.filter (fun p => less k p.1) := by
  rw [Pairs.delete, below_eq W h hk, above_eq W h hk]

theorem deleteValue_eq {m : Pairs} (h : m.WF P less) {k : Bytes} (hk : P k) (v : Bytes) :
    m.deleteValue less k v = m.filter (fun p => less p.1 k) ++ (m.filter (fun p => same less k p.1)).filter (fun p => p.2 != v) ++
      m.filter (fun p => less k p.1) := by
  rw [Pairs.deleteValue, below_eq W h hk, above_eq W h hk, equalRange_eq W h hk]

/-- A map is what comes before a key, its equals and what comes behind. -/
theorem split3 {m : Pairs} (h : m.WF P less) {k : Bytes} (hk : P k) :
    m = m.filter (fun p => less p.1 k) ++ m.filter (fun p => same less k p.1) ++ m.filter (fun p => less k p.1) := by
  have h1 : m = m.takeWhile (fun p => less p.1 k) ++ m.lowerBound less k := List.takeWhile_append_dropWhile.symm
  have h2 : m.lowerBound less k = m.equalRange less k ++ (m.lowerBound less k).dropWhile (fun p => !less k p.1) :=
    List.takeWhile_append_dropWhile.symm
  rw [below_eq W h hk, h2, above_eq W h hk, equalRange_eq W h hk, ← List.append_assoc] at h1
  exact h1

theorem WF_three {A B C : Pairs} {k : Bytes} (hk : P k) (hA : A.WF P less) (hB : B.WF P less) (hC : C.WF P less)
    (h1 : ∀ p ∈ A, less k p.1 = false) (h2 : ∀ p ∈ B, same less k p.1 = true) (h3 : ∀ p ∈ C, less p.1 k = false) :
    Pairs.WF P less (A ++ B ++ C) := by
  have hAB : ∀ p ∈ A ++ B, P p.1 ∧ less k p.1 = false := by
    intro p hp
    rcases List.mem_append.1 hp with hp | hp
    · exact ⟨hA.keys p hp, h1 p hp⟩
    · refine ⟨hB.keys p hp, ?_⟩
      have := h2 p hp
      simp only [same, Bool.and_eq_true, Bool.not_eq_true'] at this
      exact this.1
  refine ⟨?_, ?_⟩
  · intro p hp
    rcases List.mem_append.1 hp with hp | hp
    · exact (hAB p hp).1
    · exact hC.keys p hp
  · rw [List.pairwise_append]
    refine ⟨?_, hC.sorted, ?_⟩
    · rw [List.pairwise_append]
      refine ⟨hA.sorted, hB.sorted, ?_⟩
      intro a ha b hb
      have := h2 b hb
      simp only [same, Bool.and_eq_true, Bool.not_eq_true'] at this
      exact W.negTrans (hB.keys b hb) hk (hA.keys a ha) this.2 (h1 a ha)
    · intro a ha b hb
      exact W.negTrans (hC.keys b hb) hk (hAB a ha).1 (h3 b hb) (hAB a ha).2

theorem WF_split {m B : Pairs} (h : m.WF P less) {k : Bytes} (hk : P k) (hB : B.WF P less) (h2 : ∀ p ∈ B, same less k p.1 = true) :
    Pairs.WF P less (m.filter (fun p => less p.1 k) ++ B ++ m.filter (fun p => less k p.1)) := by
  refine WF_three W hk (h.filter _) hB (h.filter _) ?_ h2 ?_
  · intro p hp
    have := List.mem_filter.1 hp
    exact W.asymm (h.keys p this.1) hk this.2
  · intro p hp
    have := List.mem_filter.1 hp
    exact W.asymm hk (h.keys p this.1) this.2

omit W in
theorem WF_single {k : Bytes} (hk : P k) (v : Bytes) : Pairs.WF P less [(k, v)] :=
  ⟨by simpa using hk, List.pairwise_singleton _ _⟩

/-- Adding puts a pair behind its equals. -/
theorem add_split {m : Pairs} (h : m.WF P less) {k : Bytes} (hk : P k) (v : Bytes) :
    m.add less k v = m.filter (fun p => less p.1 k) ++ (m.filter (fun p => same less k p.1) ++ [(k, v)]) ++ m.filter (fun p => less k p.1) := by
  rw [add_eq W h hk]
  have hs : m.filter (fun p => !less k p.1) = m.filter (fun p => less p.1 k) ++ m.filter (fun p => same less k p.1) := by
    have h3 := congrArg (List.filter (fun p => !less k p.1)) (split3 W h hk)
    rw [h3]
    simp only [List.filter_append, List.filter_filter]
    rw [show m.filter (fun a => !less k a.1 && less k a.1) = [] by
      rw [List.filter_eq_nil_iff]; intro a _; simp, List.append_nil]
    congr 1
    · refine List.filter_congr fun p hp => ?_
      cases hl : less p.1 k
      · simp
      · simp [W.asymm (h.keys p hp) hk hl]
    · refine List.filter_congr fun p hp => ?_
      simp only [same]
      cases less k p.1 <;> simp
  rw [hs]
  simp

/-- The pairs of a key, when the pairs of another one are replaced. -/
theorem filter_split {m B : Pairs} (h : m.WF P less) {k x : Bytes} (hk : P k) (hx : P x) (hB : ∀ p ∈ B, P p.1 ∧ same less k p.1 = true) :
    (m.filter (fun p => less p.1 k) ++ B ++ m.filter (fun p => less k p.1)).filter (fun p => same less x p.1) =
      if same less k x then B else m.filter (fun p => same less x p.1) := by
  split
  · rename_i hs
    have hs' := hs
    simp only [same, Bool.and_eq_true, Bool.not_eq_true'] at hs'
    simp only [List.filter_append, List.filter_filter]
    rw [show m.filter (fun a => same less x a.1 && less a.1 k) = [] by
      rw [List.filter_eq_nil_iff]
      intro a ha hc
      simp only [same, Bool.and_eq_true, Bool.not_eq_true'] at hc
      have := W.negTrans (h.keys a ha) hx hk hc.1.2 hs'.2
      rw [this] at hc
      exact Bool.noConfusion hc.2,
      show m.filter (fun a => same less x a.1 && less k a.1) = [] by
      rw [List.filter_eq_nil_iff]
      intro a ha hc
      simp only [same, Bool.and_eq_true, Bool.not_eq_true'] at hc
      have := W.negTrans hk hx (h.keys a ha) hs'.1 hc.1.1
      rw [this] at hc
      exact Bool.noConfusion hc.2]
    rw [List.nil_append, List.append_nil, List.filter_eq_self]
    intro p hp
    obtain ⟨hp1, hp2⟩ := hB p hp
    refine W.same_trans hx hk hp1 ?_ hp2
    simp only [same, hs'.1, hs'.2]
    rfl
  · rename_i hs
    have hcut : ∀ q : Bytes × Bytes, P q.1 → same less k q.1 = true → same less x q.1 = false := by
      intro q hq hkq
      cases hxq : same less x q.1
      · rfl
      · exfalso
        refine hs (W.same_trans hk hq hx hkq ?_)
        simp only [same, Bool.and_eq_true, Bool.not_eq_true'] at hxq ⊢
        exact ⟨hxq.2, hxq.1⟩
    conv => rhs; rw [split3 W h hk]
    simp only [List.filter_append]
    congr 2
    rw [show B.filter (fun p => same less x p.1) = [] by
      rw [List.filter_eq_nil_iff]
      intro a ha hc
      rw [hcut a (hB a ha).1 (hB a ha).2] at hc
      exact Bool.noConfusion hc]
    symm
    rw [List.filter_eq_nil_iff]
    intro a ha hc
    have ha' := List.mem_filter.1 ha
    rw [hcut a (h.keys a ha'.1) ha'.2] at hc
    exact Bool.noConfusion hc

end

/-! ## What a map is: the values of every key, in the order in which they were added -/

/-- The specification: keys are the same up to `eqv`. -/
def MapOp.spec (eqv : Bytes → Bytes → Bool) (f : Bytes → List Bytes) : MapOp → Bytes → List Bytes
  | .add k v, x => if eqv k x then f x ++ [v] else f x
  | .set k v, x => if eqv k x then [v] else f x
  | .setIfNotPresent k v, x => if eqv k x ∧ f x = [] then [v] else f x
  | .delete k, x => if eqv k x then [] else f x
  | .deleteValue k v, x => if eqv k x then (f x).filter (· != v) else f x
  | .clear, _ => []

/-- The key that an operation has. -/
def MapOp.key : MapOp → Option Bytes
  | .add k _ => some k
  | .set k _ => some k
  | .setIfNotPresent k _ => some k
  | .delete k => some k
  | .deleteValue k _ => some k
  | .clear => none

/-- The comparison of `SetIfNotPresent` is the one of the map. -/
def Agrees (P : Bytes → Prop) (less : Bytes → Bytes → Bool) : Prop := ∀ a b, P a → P b → ciEqual a b = same less a b

section
variable {P : Bytes → Prop} {less : Bytes → Bytes → Bool} (W : Weak P less)
include W

omit W in
theorem same_comm (a b : Bytes) : same less a b = same less b a := by
  simp only [same, Bool.and_comm]

theorem setIfNotPresent_eq (hA : Agrees P less) {m : Pairs} (h : m.WF P less) {k : Bytes} (hk : P k) (v : Bytes) :
    m.setIfNotPresent less k v = if m.filter (fun p => same less k p.1) = [] then m.add less k v else m := by
  have hlb := lowerBound_eq W h hk
  have hsplit := split3 W h hk
  have hlow : m.lowerBound less k = m.filter (fun p => same less k p.1) ++ m.filter (fun p => less k p.1) := by
    have h2 : m.lowerBound less k = m.equalRange less k ++ (m.lowerBound less k).dropWhile (fun p => !less k p.1) :=
      List.takeWhile_append_dropWhile.symm
    rwa [above_eq W h hk, equalRange_eq W h hk] at h2
  rw [Pairs.setIfNotPresent]
  rcases hE : m.filter (fun p => same less k p.1) with _ | ⟨e, E⟩
  · rw [if_pos hE, add_split W h hk, below_eq W h hk, hE]
    rw [hE, List.nil_append] at hlow
    rw [hlow]
    rcases hG : m.filter (fun p => less k p.1) with _ | ⟨g, G⟩
    · simp [hG]
    · rw [hG]
      have hg : g ∈ m.filter (fun p => less k p.1) := by rw [hG]; exact List.mem_cons_self
      have hg' := List.mem_filter.1 hg
      have : ciEqual g.1 k = false := by
        rw [hA _ _ (h.keys g hg'.1) hk, same, hg'.2]
        simp
      simp [this]
  · rw [if_neg (by rw [hE]; simp)]
    rw [hlow, hE]
    simp only [List.cons_append]
    have he : e ∈ m.filter (fun p => same less k p.1) := by rw [hE]; exact List.mem_cons_self
    have he' := List.mem_filter.1 he
    have : ciEqual e.1 k = true := by
      rw [hA _ _ (h.keys e he'.1) hk, same_comm]
      exact he'.2
    rw [if_pos this]

theorem values_eq {m : Pairs} (h : m.WF P less) {x : Bytes} (hx : P x) :
    m.values less x = (m.filter (fun p => same less x p.1)).map (·.2) := by
  rw [Pairs.values, equalRange_eq W h hx]

theorem filter_same_congr {m : Pairs} (h : m.WF P less) {k x : Bytes} (hk : P k) (hx : P x) (hs : same less k x = true) :
    m.filter (fun p => same less k p.1) = m.filter (fun p => same less x p.1) := by
  refine List.filter_congr fun p hp => ?_
  have hs' : same less x k = true := by rw [same_comm]; exact hs
  cases h1 : same less k p.1 <;> cases h2 : same less x p.1
  · rfl
  · rw [W.same_trans hk hx (h.keys p hp) hs h2] at h1; cases h1
  · rw [W.same_trans hx hk (h.keys p hp) hs' h1] at h2; cases h2
  · rfl

theorem add_ok {m : Pairs} (h : m.WF P less) {k : Bytes} (hk : P k) (v : Bytes) :
    Pairs.WF P less (m.add less k v) ∧
    ∀ x, P x → (m.add less k v).values less x = if same less k x then m.values less x ++ [v] else m.values less x := by
  have hB : ∀ p ∈ m.filter (fun p => same less k p.1) ++ [(k, v)], P p.1 ∧ same less k p.1 = true := by
    intro p hp
    rcases List.mem_append.1 hp with hp | hp
    · exact ⟨h.keys p (List.mem_filter.1 hp).1, (List.mem_filter.1 hp).2⟩
    · rw [List.mem_singleton] at hp
      subst hp
      refine ⟨hk, ?_⟩
      simp [same, W.irrefl hk]
  have hwf : Pairs.WF P less (m.add less k v) := by
    rw [add_split W h hk]
    refine WF_split W h hk ⟨fun p hp => (hB p hp).1, ?_⟩ fun p hp => (hB p hp).2
    rw [List.pairwise_append]
    refine ⟨(h.filter _).sorted, List.pairwise_singleton _ _, ?_⟩
    intro a ha b hb
    rw [List.mem_singleton] at hb
    subst hb
    have := (List.mem_filter.1 ha).2
    simp only [same, Bool.and_eq_true, Bool.not_eq_true'] at this
    exact this.1
  refine ⟨hwf, ?_⟩
  intro x hx
  rw [values_eq W hwf hx, values_eq W h hx, add_split W h hk, filter_split W h hk hx hB]
  split
  · rename_i hs
    rw [filter_same_congr W h hk hx hs]
    simp
  · rfl

theorem delete_ok {m : Pairs} (h : m.WF P less) {k : Bytes} (hk : P k) :
    Pairs.WF P less (m.delete less k) ∧
    ∀ x, P x → (m.delete less k).values less x = if same less k x then [] else m.values less x := by
  have hd : m.delete less k = m.filter (fun p => less p.1 k) ++ [] ++ m.filter (fun p => less k p.1) := by
    rw [delete_eq W h hk]; simp
  have hwf : Pairs.WF P less (m.delete less k) := by
    rw [hd]
    exact WF_split W h hk ⟨fun p hp => (List.not_mem_nil hp).elim, List.Pairwise.nil⟩ fun p hp => (List.not_mem_nil hp).elim
  refine ⟨hwf, ?_⟩
  intro x hx
  rw [values_eq W hwf hx, values_eq W h hx, hd, filter_split W h hk hx fun p hp => (List.not_mem_nil hp).elim]
  split <;> rfl

theorem deleteValue_ok {m : Pairs} (h : m.WF P less) {k : Bytes} (hk : P k) (v : Bytes) :
    Pairs.WF P less (m.deleteValue less k v) ∧
    ∀ x, P x → (m.deleteValue less k v).values less x = if same less k x then (m.values less x).filter (· != v) else m.values less x := by
  have hB : ∀ p ∈ (m.filter (fun p => same less k p.1)).filter (fun p => p.2 != v), P p.1 ∧ same less k p.1 = true := by
    intro p hp
    have h1 := (List.mem_filter.1 hp).1
    exact ⟨h.keys p (List.mem_filter.1 h1).1, (List.mem_filter.1 h1).2⟩
  have hwf : Pairs.WF P less (m.deleteValue less k v) := by
    rw [deleteValue_eq W h hk]
    exact WF_split W h hk ((h.filter _).filter _) fun p hp => (hB p hp).2
  refine ⟨hwf, ?_⟩
  intro x hx
  rw [values_eq W hwf hx, values_eq W h hx, deleteValue_eq W h hk, filter_split W h hk hx hB]
  split
  · rename_i hs
    rw [filter_same_congr W h hk hx hs, List.filter_map]
    rfl
  · rfl

theorem op_ok (hA : Agrees P less) {m : Pairs} (h : m.WF P less) (o : MapOp) (ho : ∀ k ∈ o.key, P k) :
    Pairs.WF P less (o.run less m) ∧
    ∀ x, P x → (o.run less m).values less x = o.spec (same less) (m.values less) x := by
  cases o with
  | add k v => exact add_ok W h (ho k rfl) v
  | set k v =>
    have hk := ho k rfl
    obtain ⟨h1, h2⟩ := delete_ok W h hk
    obtain ⟨h3, h4⟩ := add_ok W h1 hk v
    refine ⟨h3, fun x hx => ?_⟩
    have := h4 x hx
    rw [h2 x hx] at this
    simp only [MapOp.run, Pairs.set, MapOp.spec]
    rw [this]
    split <;> simp
  | setIfNotPresent k v =>
    have hk := ho k rfl
    simp only [MapOp.run, MapOp.spec]
    rw [setIfNotPresent_eq W hA h hk]
    have hv : ∀ x, P x → same less k x = true → (m.filter (fun p => same less k p.1) = [] ↔ m.values less x = []) := by
      intro x hx hs
      rw [values_eq W h hx, filter_same_congr W h hk hx hs, List.map_eq_nil_iff]
    split
    · rename_i he
      refine ⟨(add_ok W h hk v).1, fun x hx => ?_⟩
      rw [(add_ok W h hk v).2 x hx]
      by_cases hs : same less k x = true
      · rw [if_pos hs, if_pos ⟨hs, (hv x hx hs).1 he⟩, (hv x hx hs).1 he]
        rfl
      · rw [if_neg hs, if_neg (fun hc => hs hc.1)]
    · rename_i he
      refine ⟨h, fun x hx => ?_⟩
      rw [if_neg]
      rintro ⟨hs, hc⟩
      exact he ((hv x hx hs).2 hc)
  | delete k => exact delete_ok W h (ho k rfl)
  | deleteValue k v => exact deleteValue_ok W h (ho k rfl) v
  | clear => exact ⟨⟨fun p hp => (List.not_mem_nil hp).elim, List.Pairwise.nil⟩, fun x _ => rfl⟩

theorem run_ok (hA : Agrees P less) (ops : List MapOp) (ho : ∀ o ∈ ops, ∀ k ∈ o.key, P k) (m : Pairs) (h : m.WF P less)
    (f : Bytes → List Bytes) (hf : ∀ x, P x → m.values less x = f x) :
    Pairs.WF P less (ops.foldl (MapOp.run less) m) ∧
    ∀ x, P x → (ops.foldl (MapOp.run less) m).values less x = ops.foldl (MapOp.spec (same less)) f x := by
  induction ops generalizing m f with
  | nil => exact ⟨h, hf⟩
  | cons o ops ih =>
    have hk := ho o List.mem_cons_self
    obtain ⟨h1, h2⟩ := op_ok W hA h o hk
    refine ih (fun o' ho' => ho o' (List.mem_cons_of_mem _ ho')) _ h1 _ fun x hx => ?_
    rw [h2 x hx]
    cases o <;> simp only [MapOp.spec, hf x hx]

theorem find_eq {m : Pairs} (h : m.WF P less) {x : Bytes} (hx : P x) :
    m.find less x = (m.filter (fun p => same less x p.1)).head? := by
  have hlow : m.lowerBound less x = m.filter (fun p => same less x p.1) ++ m.filter (fun p => less x p.1) := by
    have h2 : m.lowerBound less x = m.equalRange less x ++ (m.lowerBound less x).dropWhile (fun p => !less x p.1) :=
      List.takeWhile_append_dropWhile.symm
    rwa [above_eq W h hx, equalRange_eq W h hx] at h2
  rw [Pairs.find, hlow]
  rcases hE : m.filter (fun p => same less x p.1) with _ | ⟨e, E⟩
  · rcases hG : m.filter (fun p => less x p.1) with _ | ⟨g, G⟩
    · rw [hE, hG]; rfl
    · rw [hE, hG]
      have hg : g ∈ m.filter (fun p => less x p.1) := by rw [hG]; exact List.mem_cons_self
      simp [(List.mem_filter.1 hg).2]
  · have he : e ∈ m.filter (fun p => same less x p.1) := by rw [hE]; exact List.mem_cons_self
    have := (List.mem_filter.1 he).2
    simp only [same, Bool.and_eq_true, Bool.not_eq_true'] at this
    rw [hE]
    simp [this.1]

theorem get_eq {m : Pairs} (h : m.WF P less) {x : Bytes} (hx : P x) :
    m.get less x = (m.values less x).headD [] ∧ m.has less x = !(m.values less x).isEmpty := by
  rw [Pairs.get, Pairs.has, find_eq W h hx, values_eq W h hx]
  rcases hE : m.filter (fun p => same less x p.1) with _ | ⟨e, E⟩ <;> rw [hE] <;> exact ⟨rfl, rfl⟩

end

/-! ## The two orders -/

theorem lexLess_asymm : ∀ (a b : Bytes), lexLess a b = true → lexLess b a = false
  | _, [], h => by simp [lexLess] at h
  | [], _ :: _, _ => by simp [lexLess]
  | x :: a, y :: b, h => by
    rw [lexLess] at h ⊢
    by_cases h1 : x < y
    · have h2 : ¬ y < x := UInt8.lt_asymm h1
      simp [h1, h2]
    · by_cases h2 : y < x
      · simp [h1, h2] at h
      · simp only [h1, h2, if_false] at h ⊢
        exact lexLess_asymm a b h

theorem lexLess_total : ∀ (a b : Bytes), lexLess a b = false → lexLess b a = false → a = b
  | [], [], _, _ => rfl
  | _ :: _, [], _, h => by simp [lexLess] at h
  | [], _ :: _, h, _ => by simp [lexLess] at h
  | x :: a, y :: b, h, h' => by
    rw [lexLess] at h h'
    by_cases h1 : x < y
    · simp [h1] at h
    · by_cases h2 : y < x
      · simp [h2] at h'
      · simp only [h1, h2, if_false] at h h'
        have hxy : x = y := UInt8.le_antisymm (UInt8.not_lt.1 h2) (UInt8.not_lt.1 h1)
        rw [hxy, lexLess_total a b h h']

theorem lexLess_negTrans : ∀ (a b c : Bytes), lexLess a b = false → lexLess b c = false → lexLess a c = false
  | _, _, [], _, _ => by simp [lexLess]
  | _, [], _ :: _, _, h => by simp [lexLess] at h
  | [], _ :: _, _ :: _, h, _ => by simp [lexLess] at h
  | x :: a, y :: b, z :: c, h, h' => by
    rw [lexLess] at h h' ⊢
    by_cases h1 : x < y
    · simp [h1] at h
    · by_cases h2 : y < z
      · simp [h2] at h'
      · have h3 : ¬ x < z := by
          rw [UInt8.not_lt] at *
          exact UInt8.le_trans h2 h1
        simp only [h1, h2, h3, if_false] at h h' ⊢
        by_cases h4 : z < x
        · simp [h4]
        · simp only [h4, if_false]
          have hyx : y = x := by
            rw [UInt8.not_lt] at *
            exact UInt8.le_antisymm h1 (UInt8.le_trans h4 h2)
          have hzy : z = y := by
            rw [UInt8.not_lt] at *
            subst hyx
            exact UInt8.le_antisymm h2 h4
          subst hyx; subst hzy
          simp only [UInt8.lt_irrefl, if_false] at h h'
          exact lexLess_negTrans a b c h h'

/-- Query parameters: all keys, and they are the same only if they are equal. -/
theorem lexLess_weak : Weak (fun _ => True) lexLess :=
  ⟨fun _ _ h => lexLess_asymm _ _ h, fun _ _ _ h h' => lexLess_negTrans _ _ _ h h'⟩

theorem lexLess_same (a b : Bytes) : same lexLess a b = decide (a = b) := by
  rw [same]
  by_cases h : a = b
  · subst h
    have : lexLess a a = false := by
      cases hl : lexLess a a
      · rfl
      · rw [lexLess_asymm a a hl] at hl; cases hl
    simp [this]
  · cases h1 : lexLess a b
    · cases h2 : lexLess b a
      · exact absurd (lexLess_total a b h1 h2) h
      · simp [h]
    · simp [h]

/-- Names of header fields that are no pseudo-headers of HTTP/2. -/
def FieldName (k : Bytes) : Prop := k ≠ [] ∧ k.head? ≠ some 58 ∧ 0 ∉ k

instance (k : Bytes) : Decidable (FieldName k) := inferInstanceAs (Decidable (_ ∧ _ ∧ _))

theorem toLower_zero (c : UInt8) (h : c ≠ 0) : toLower c ≠ 0 := by
  rw [toLower]
  split
  · rename_i h'
    intro hc
    have h1 := UInt8.le_iff_toNat_le.1 h'.1
    have h2 := UInt8.le_iff_toNat_le.1 h'.2
    have := congrArg UInt8.toNat hc
    simp at this h1 h2
    omega
  · exact h

theorem strncasecmp_eq : ∀ (l r : Bytes), l.length = r.length → 0 ∉ l →
    strncasecmp l r l.length = if lexLess (l.map toLower) (r.map toLower) then -1 else if lexLess (r.map toLower) (l.map toLower) then 1 else 0
  | [], [], _, _ => by simp [strncasecmp, lexLess]
  | a :: l, b :: r, h, hn => by
    simp only [List.length_cons, Nat.add_right_cancel_iff] at h
    simp only [List.mem_cons, not_or] at hn
    rw [List.length_cons, strncasecmp]
    simp only [List.headD_cons, List.drop_succ_cons, List.drop_zero, List.map_cons]
    rw [lexLess, lexLess]
    by_cases h1 : toLower a < toLower b
    · simp [h1]
    · by_cases h2 : toLower b < toLower a
      · simp [h1, h2]
      · simp only [h1, h2, if_false, toLower_zero a (fun hc => hn.1 hc.symm)]
        exact strncasecmp_eq l r h hn.2

theorem ciLess_eq {l r : Bytes} (hl : FieldName l) (hr : FieldName r) :
    ciLess l r = if l.length ≠ r.length then decide (l.length < r.length) else lexLess (l.map toLower) (r.map toLower) := by
  obtain ⟨h1, h2, h3⟩ := hl
  obtain ⟨g1, g2, g3⟩ := hr
  rw [ciLess, ciLessO.eq_def]
  split
  · rcases l with _ | ⟨a, l⟩
    · exact absurd rfl h1
    · rcases r with _ | ⟨b, r⟩
      · exact absurd rfl g1
      · have ha : a ≠ 58 := fun h => h2 (by rw [h]; rfl)
        have hb : b ≠ 58 := fun h => g2 (by rw [h]; rfl)
        simp [ha, hb]
  · rename_i hlen
    rw [strncasecmp_eq l r (by omega) h3]
    cases lexLess (l.map toLower) (r.map toLower) <;> cases lexLess (r.map toLower) (l.map toLower) <;> simp

theorem ciLess_weak : Weak FieldName ciLess where
  asymm {a b} ha hb h := by
    rw [ciLess_eq ha hb] at h
    rw [ciLess_eq hb ha]
    by_cases hlen : a.length ≠ b.length
    · rw [if_pos hlen] at h
      rw [if_pos (Ne.symm hlen)]
      simp only [decide_eq_true_eq] at h
      simp
      omega
    · rw [if_neg hlen] at h
      rw [if_neg (fun hc => hlen (Ne.symm hc))]
      exact lexLess_asymm _ _ h
  negTrans {a b c} ha hb hc h h' := by
    rw [ciLess_eq ha hb] at h
    rw [ciLess_eq hb hc] at h'
    rw [ciLess_eq ha hc]
    split at h <;> split at h' <;> split <;> (try simp only [decide_eq_false_iff_not] at *) <;> try omega
    exact lexLess_negTrans _ _ _ h h'

/-- Names are the same if they are equal up to upper and lower case. -/
theorem ciLess_same {a b : Bytes} (ha : FieldName a) (hb : FieldName b) :
    same ciLess a b = decide (a.map toLower = b.map toLower) := by
  rw [same, ciLess_eq ha hb, ciLess_eq hb ha]
  by_cases hlen : a.length = b.length
  · rw [if_neg (by omega), if_neg (by omega)]
    exact lexLess_same _ _
  · rw [if_pos (by omega), if_pos (by omega)]
    rw [decide_eq_false (p := a.map toLower = b.map toLower) (fun h => hlen (by simpa using congrArg List.length h))]
    by_cases h : a.length < b.length
    · simp [h]
    · simp
      omega

theorem ciLess_agrees : Agrees FieldName ciLess := by
  intro a b ha hb
  rw [ciLess_same ha hb, ciEqual]
  by_cases hlen : a.length = b.length
  · rw [strncasecmp_eq a b hlen ha.2.2]
    have := lexLess_same (a.map toLower) (b.map toLower)
    rw [same] at this
    rw [← this]
    cases lexLess (a.map toLower) (b.map toLower) <;> cases lexLess (b.map toLower) (a.map toLower) <;> simp [hlen]
  · rw [decide_eq_false (p := a.map toLower = b.map toLower) (fun h => hlen (by simpa using congrArg List.length h))]
    simp [hlen]

/-! ## C70: maps -/

/-- Headers: whatever was done with a map, it has for every name the values that were given to it (with any spelling of the name, in their
order), `Get` returns the first of them and `Has` whether there are any. -/
theorem C70_headers (ops : List MapOp) (ho : ∀ o ∈ ops, ∀ k ∈ o.key, FieldName k) (x : Bytes) (hx : FieldName x) :
    let m := ops.foldl (MapOp.run ciLess) []
    let vs := ops.foldl (MapOp.spec fun a b => decide (a.map toLower = b.map toLower)) (fun _ => []) x
    m.values ciLess x = vs ∧ m.get ciLess x = vs.headD [] ∧ m.has ciLess x = !vs.isEmpty := by
  intro m vs
  have h0 : Pairs.WF FieldName ciLess [] := ⟨fun p hp => (List.not_mem_nil hp).elim, List.Pairwise.nil⟩
  obtain ⟨h1, h2⟩ := run_ok ciLess_weak ciLess_agrees ops ho [] h0 (fun _ => []) (fun _ _ => rfl)
  have hsp : ∀ (ops : List MapOp) (f g : Bytes → List Bytes), (∀ o ∈ ops, ∀ k ∈ o.key, FieldName k) → f x = g x →
      ops.foldl (MapOp.spec (same ciLess)) f x = ops.foldl (MapOp.spec fun a b => decide (a.map toLower = b.map toLower)) g x := by
    intro ops
    induction ops with
    | nil => intro f g _ h; exact h
    | cons o ops ih =>
      intro f g hk h
      refine ih _ _ (fun o' ho' => hk o' (List.mem_cons_of_mem _ ho')) ?_
      have hko := hk o List.mem_cons_self
      cases o <;> simp only [MapOp.spec, h] <;> rw [ciLess_same (hko _ rfl) hx]
  have hv : m.values ciLess x = vs := (h2 x hx).trans (hsp ops _ _ ho rfl)
  refine ⟨hv, ?_⟩
  rw [← hv]
  exact get_eq ciLess_weak h1 hx

/-- Nothing undefined is done with such names. -/
theorem C70_defined {a b : Bytes} (ha : FieldName a) (hb : FieldName b) : ciLessO a b ≠ none := by
  obtain ⟨h1, h2, h3⟩ := ha
  obtain ⟨g1, g2, g3⟩ := hb
  rcases a with _ | ⟨a, l⟩
  · exact absurd rfl h1
  · rcases b with _ | ⟨b, r⟩
    · exact absurd rfl g1
    · rw [ciLessO.eq_def]
      dsimp only
      split
      · split
        · simp
        · split <;> simp
      · simp

/-- Query parameters: the same with names that are only equal to themselves, for the operations other than `SetIfNotPresent`. -/
theorem C70_parameters (ops : List MapOp) (ho : ∀ k v, MapOp.setIfNotPresent k v ∉ ops) (x : Bytes) :
    let m := ops.foldl (MapOp.run lexLess) []
    let vs := ops.foldl (MapOp.spec fun a b => decide (a = b)) (fun _ => []) x
    m.values lexLess x = vs ∧ m.get lexLess x = vs.headD [] ∧ m.has lexLess x = !vs.isEmpty := by
  intro m vs
  have hss : same lexLess = fun a b => decide (a = b) := by funext a b; exact lexLess_same a b
  have key : ∀ (ops : List MapOp) (m : Pairs) (f : Bytes → List Bytes), (∀ k v, MapOp.setIfNotPresent k v ∉ ops) →
      m.WF (fun _ => True) lexLess → (∀ x, m.values lexLess x = f x) →
      Pairs.WF (fun _ => True) lexLess (ops.foldl (MapOp.run lexLess) m) ∧
      ∀ x, (ops.foldl (MapOp.run lexLess) m).values lexLess x = ops.foldl (MapOp.spec (same lexLess)) f x := by
    intro ops
    induction ops with
    | nil => intro m f _ h hf; exact ⟨h, hf⟩
    | cons o ops ih =>
      intro m f hn h hf
      have hstep : Pairs.WF (fun _ => True) lexLess (o.run lexLess m) ∧
          ∀ x, (o.run lexLess m).values lexLess x = o.spec (same lexLess) (m.values lexLess) x := by
        have W := lexLess_weak
        cases o with
        | add k v => exact ⟨(add_ok W h trivial v).1, fun x => (add_ok W h trivial v).2 x trivial⟩
        | set k v =>
          obtain ⟨h1, h2⟩ := delete_ok W h (k := k) trivial
          obtain ⟨h3, h4⟩ := add_ok W h1 (k := k) trivial v
          refine ⟨h3, fun x => ?_⟩
          have := h4 x trivial
          rw [h2 x trivial] at this
          simp only [MapOp.run, Pairs.set, MapOp.spec]
          rw [this]
          split <;> simp
        | setIfNotPresent k v => exact absurd List.mem_cons_self (hn k v)
        | delete k => exact ⟨(delete_ok W h trivial).1, fun x => (delete_ok W h trivial).2 x trivial⟩
        | deleteValue k v => exact ⟨(deleteValue_ok W h trivial v).1, fun x => (deleteValue_ok W h trivial v).2 x trivial⟩
        | clear => exact ⟨⟨fun p hp => (List.not_mem_nil hp).elim, List.Pairwise.nil⟩, fun x => rfl⟩
      refine ih _ _ (fun k v hm => hn k v (List.mem_cons_of_mem _ hm)) hstep.1 fun x => ?_
      rw [hstep.2 x]
      cases o <;> simp only [MapOp.spec, hf x]
  obtain ⟨h1, h2⟩ := key ops [] (fun _ => []) ho ⟨fun p hp => (List.not_mem_nil hp).elim, List.Pairwise.nil⟩ (fun _ => rfl)
  have hv : m.values lexLess x = vs := by
    have := h2 x
    rw [hss] at this
    exact this
  refine ⟨hv, ?_⟩
  rw [← hv]
  exact get_eq lexLess_weak h1 trivial

/-- `ByteSizeLong` is the size of `ToString`, so `reserve` is exact. -/
theorem C70_size (m : Pairs) : m.toText.length = m.byteSize := by
  have : ∀ (m : Pairs) (n : Nat), n + m.toText.length = m.foldl (fun n p => n + (p.1.length + p.2.length + 2 + 2)) n := by
    intro m
    induction m with
    | nil => intro n; rfl
    | cons p m ih =>
      intro n
      rw [List.foldl_cons, ← ih]
      simp only [Pairs.toText, List.flatMap_cons, List.length_append, List.length_cons, List.length_nil]
      omega
  have h := this m 0
  rw [Nat.zero_add] at h
  exact h

/-- Non-vacuity: two spellings of a name, replaced and added to. -/
example : ([MapOp.add [65, 98] [49], .add [120] [50], .add [97, 66] [51], .setIfNotPresent [88] [52]].foldl (MapOp.run ciLess) []) =
    [([120], [50]), ([65, 98], [49]), ([97, 66], [51])] := by decide +kernel
example : FieldName [65, 98] ∧ Pairs.values ciLess [([120], [50]), ([65, 98], [49]), ([97, 66], [51])] [97, 98] = [[49], [51]] := by
  decide +kernel

/-! ## C71: names that begin with a colon -/

/-- The order of names is none if there are pseudo-headers of HTTP/2: `:a` is as good as `:ab` and `:ac`, which are different; and three names
that come before each other in a circle. A `std::multimap` may do anything with such names. -/
theorem C71_colon_partial :
    (same ciLess [58, 97] [58, 97, 98] = true ∧ same ciLess [58, 97] [58, 97, 99] = true ∧ same ciLess [58, 97, 98] [58, 97, 99] = false) ∧
    (ciLess [122, 122] [49, 97, 98] = true ∧ ciLess [49, 97, 98] [58, 120] = true ∧ ciLess [58, 120] [122, 122] = true) := by
  decide +kernel

/-- Two different pseudo-headers are taken for the same: setting one deletes the other. -/
theorem C71_lost_partial :
    ([MapOp.set [58, 97, 98] [49], .set [58, 97] [50]].foldl (MapOp.run ciLess) []) = [([58, 97], [50])] := by decide +kernel

/-- An empty name makes `front` undefined as soon as it is compared. -/
theorem C71_empty_partial (c : UInt8) (k : Bytes) : ciLessO [] (c :: k) = none ∧ (c ≠ 58 → ciLessO (c :: k) [] = none) := by
  constructor
  · simp [ciLessO]
  · intro h
    simp [ciLessO, h]

/-- Query parameters are told apart by upper and lower case, but `SetIfNotPresent` does not. -/
theorem C71_parameters_partial :
    ([MapOp.set [107] [49], .setIfNotPresent [75] [50]].foldl (MapOp.run lexLess) []) = [([107], [49])] ∧
    Pairs.has lexLess [([107], [49])] [75] = false := by decide +kernel

end Verif.Http
