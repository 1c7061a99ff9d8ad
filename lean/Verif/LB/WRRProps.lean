import Verif.LB.WRRLemmas
/-!
# Property C17: smooth weighted round robin
-/

namespace Verif.LB.WRR

/-! ## Lemmas over whole runs -/

theorem run_budget {ws : List Nat} {eps : List Endpoint} (hW : 0 < ws.sum) (m : Nat) {s : Infos} {k : Nat}
    {c : Nat → Nat} (a : At ws eps s k c) (hk : k + m ≤ ws.sum)
    (hb : ∀ i, i < ws.length → c i ≤ ws.getD i 0) :
    ∃ c', At ws eps (s.nexts m).1 (k + m) c' ∧ (∀ i, c' i = c i + (s.nexts m).2.count (some i)) ∧
      (∀ i, i < ws.length → c' i ≤ ws.getD i 0) ∧
      (s.nexts m).2.length = m ∧ ∀ o ∈ (s.nexts m).2, ∃ j, o = some j ∧ j < ws.length ∧ 0 < ws.getD j 0 := by
  induction m generalizing s k c with
  | zero => exact ⟨c, a, by simp [Infos.nexts], hb, rfl, by simp [Infos.nexts]⟩
  | succ m ih =>
    obtain ⟨s', j, e1, e2, e3, e4, -⟩ := a.next hW
    have hcj : c j < ws.getD j 0 := by
      rw [a.cur j e2] at e3
      have h1 : (c j : Int) * ws.sum < ((k : Int) + 1) * ws.getD j 0 := by
        rw [Int.add_mul]; omega
      have h2 : ((k : Int) + 1) * ws.getD j 0 ≤ (ws.sum : Int) * ws.getD j 0 :=
        Int.mul_le_mul_of_nonneg_right (by omega) (by omega)
      have h3 : (c j : Int) * ws.sum < (ws.getD j 0 : Int) * ws.sum := by
        rw [Int.mul_comm (ws.getD j 0 : Int)]; omega
      have := Int.lt_of_mul_lt_mul_right h3 (by omega)
      omega
    obtain ⟨c', f1, f2, f3, f4, f5⟩ := ih e4 (by omega) (by
      intro i hi
      by_cases h : i = j
      · subst h; simp only [if_true]; omega
      · simp only [h, if_false]; exact hb i hi)
    refine ⟨c', ?_, ?_, f3, ?_, ?_⟩
    · simp only [Infos.nexts, e1]
      rw [show k + (m + 1) = k + 1 + m by omega]; exact f1
    · intro i
      simp only [Infos.nexts, e1]
      rw [f2 i, List.count_cons]
      by_cases h : i = j
      · subst h; simp; omega
      · have : ¬ (j = i) := fun e => h e.symm
        simp [h, this]
    · simp [Infos.nexts, e1, f4]
    · intro o ho
      simp only [Infos.nexts, e1, List.mem_cons] at ho
      rcases ho with ho | ho
      · exact ⟨j, ho, e2, by omega⟩
      · exact f5 o ho

/-- Counting by position: the counts of all positions add up to the length. -/
theorem sum_counts (n : Nat) (l : List (Option Nat)) (h : ∀ o ∈ l, ∃ j, o = some j ∧ j < n) :
    ((List.range n).map (fun i => l.count (some i))).sum = l.length := by
  induction l with
  | nil =>
    induction n with
    | zero => rfl
    | succ n ih =>
      rw [List.range_succ, List.map_append, List.sum_append, ih (by simp)]; simp
  | cons o l ih =>
    obtain ⟨j, rfl, hj⟩ := h o (by simp)
    have hl := ih (fun o ho => h o (by simp [ho]))
    rw [List.length_cons, ← hl]
    clear h ih hl
    have : ∀ n, ((List.range n).map (fun i => (some j :: l).count (some i))).sum =
        ((List.range n).map (fun i => l.count (some i))).sum + if j < n then 1 else 0 := by
      intro n
      induction n with
      | zero => simp
      | succ n ih =>
        rw [List.range_succ, List.map_append, List.map_append, List.sum_append, List.sum_append, ih]
        simp only [List.map_cons, List.map_nil, List.sum_cons, List.sum_nil, List.count_cons]
        by_cases h1 : j = n
        · subst h1; simp; omega
        · simp only [Option.some_beq_some, beq_iff_eq, h1, if_false]
          by_cases h2 : j < n
          · simp [h2, show j < n + 1 by omega]; omega
          · simp [h2, show ¬ j < n + 1 by omega]
    rw [this n, if_pos hj]

theorem sum_getD (ws : List Nat) : ((List.range ws.length).map (fun i => ws.getD i 0)).sum = ws.sum := by
  induction ws with
  | nil => rfl
  | cons w ws ih =>
    rw [List.length_cons, List.range_succ_eq_map, List.map_cons, List.map_map, List.sum_cons, List.sum_cons, ← ih]
    rfl

/-- Pointwise smaller with the same total: equal. -/
theorem eq_of_sum {f g : Nat → Nat} (n : Nat) (h : ∀ i, i < n → f i ≤ g i)
    (hs : ((List.range n).map f).sum = ((List.range n).map g).sum) : ∀ i, i < n → f i = g i := by
  induction n with
  | zero => intro i hi; omega
  | succ n ih =>
    rw [List.range_succ, List.map_append, List.map_append, List.sum_append, List.sum_append] at hs
    simp only [List.map_cons, List.map_nil, List.sum_cons, List.sum_nil, Nat.add_zero] at hs
    have hle : ((List.range n).map f).sum ≤ ((List.range n).map g).sum := by
      clear hs ih
      induction n with
      | zero => simp
      | succ n ih =>
        rw [List.range_succ, List.map_append, List.map_append, List.sum_append, List.sum_append]
        have := ih (fun i hi => h i (by omega))
        have := h n (by omega)
        simp only [List.map_cons, List.map_nil, List.sum_cons, List.sum_nil, Nat.add_zero]; omega
    have hn := h n (by omega)
    intro i hi
    by_cases e : i = n
    · subst e; omega
    · exact ih (fun i hi => h i (by omega)) (by omega) i (by omega)

theorem nexts_add (s : Infos) (a b : Nat) :
    s.nexts (a + b) = (((s.nexts a).1.nexts b).1, (s.nexts a).2 ++ ((s.nexts a).1.nexts b).2) := by
  induction a generalizing s with
  | zero => simp [Infos.nexts]
  | succ a ih =>
    rw [show a + 1 + b = (a + b) + 1 by omega]
    simp only [Infos.nexts, ih]
    rfl

/-- Total weight of a list. -/
def weightSum (eps : List Endpoint) : Nat := (eps.map (·.weight)).sum

/-- After `W` selections of a fresh record: counts and state. -/
theorem cycle (eps : List Endpoint) (hW : 0 < weightSum eps) :
    (∀ i, i < eps.length → ((Infos.fresh eps).nexts (weightSum eps)).2.count (some i) =
      (eps.map (·.weight)).getD i 0) ∧
    ((Infos.fresh eps).nexts (weightSum eps)).1 = Infos.fresh eps ∧
    ∀ o ∈ ((Infos.fresh eps).nexts (weightSum eps)).2,
      ∃ j, o = some j ∧ j < eps.length ∧ 0 < (eps.map (·.weight)).getD j 0 := by
  unfold weightSum at *
  obtain ⟨c', h1, h2, h3, h4, h5⟩ := run_budget hW (eps.map (·.weight)).sum (At.fresh eps) (by omega)
    (fun i _ => Nat.zero_le _)
  have hlen : (eps.map (·.weight)).length = eps.length := by simp
  have hc : ∀ i, i < eps.length → ((Infos.fresh eps).nexts (eps.map (·.weight)).sum).2.count (some i) =
      (eps.map (·.weight)).getD i 0 := by
    apply eq_of_sum
    · intro i hi
      have := h3 i (by rw [hlen]; exact hi)
      rw [h2 i] at this; omega
    · rw [sum_counts eps.length _ (fun o ho => by
        obtain ⟨j, e1, e2, _⟩ := h5 o ho
        exact ⟨j, e1, by rw [hlen] at e2; exact e2⟩), h4, ← sum_getD, hlen]
  refine ⟨hc, ?_, fun o ho => by
    obtain ⟨j, e1, e2, e3⟩ := h5 o ho
    exact ⟨j, e1, by rw [hlen] at e2; exact e2, e3⟩⟩
  generalize ((Infos.fresh eps).nexts (eps.map (·.weight)).sum) = r at *
  obtain ⟨⟨w, cu, ep⟩, o⟩ := r
  obtain ⟨g1, g2, g3, g4, g5, g6⟩ := h1
  simp only at *
  subst g1; subst g2
  unfold Infos.fresh
  congr 1
  apply List.ext_getElem
  · simp [g3]
  · intro i hi1 hi2
    have := g6 i (by omega)
    rw [h2 i, hc i (by simpa using hi2)] at this
    rw [List.getD_eq_getElem?_getD, List.getElem?_eq_getElem hi1, Option.getD_some] at this
    rw [this, List.getElem_map]
    rw [Nat.zero_add, Nat.zero_add, Int.mul_comm]
    omega

/-! ## Properties -/



/-- **C17.**  From a fresh list with total weight `W > 0`, `W` consecutive selections choose endpoint `i`
exactly `weight i` times and restore the initial state. -/
theorem C17_exact_proportion (eps : List Endpoint) (hW : 0 < weightSum eps) :
    (∀ i (hi : i < eps.length),
      ((Infos.fresh eps).nexts (weightSum eps)).2.count (some i) = eps[i].weight) ∧
    ((Infos.fresh eps).nexts (weightSum eps)).1 = Infos.fresh eps := by
  obtain ⟨h1, h2, -⟩ := cycle eps hW
  refine ⟨fun i hi => ?_, h2⟩
  rw [h1 i hi, List.getD_eq_getElem?_getD, List.getElem?_map, List.getElem?_eq_getElem hi]
  rfl

/-- **C17, every phase.**  The same holds for any `W` consecutive selections, not only those starting at a fresh
list. -/
theorem C17_every_window (eps : List Endpoint) (hW : 0 < weightSum eps) (k : Nat) :
    ∀ i (hi : i < eps.length),
      (((Infos.fresh eps).nexts k).1.nexts (weightSum eps)).2.count (some i) = eps[i].weight := by
  have hc := C17_exact_proportion eps hW
  intro i hi
  have h1 := nexts_add (Infos.fresh eps) k (weightSum eps)
  have h2 := nexts_add (Infos.fresh eps) (weightSum eps) k
  rw [Nat.add_comm] at h2
  rw [hc.2] at h2
  rw [h1] at h2
  have h3 := congrArg (fun x => (x.2.count (some i))) h2
  simp only [List.count_append] at h3
  rw [hc.1 i hi] at h3
  omega

/-- **C17, every selection.**  After any number of selections the next one succeeds, returns an endpoint of the
list with positive weight. -/
theorem C17_selects_positive_weight (eps : List Endpoint) (hW : 0 < weightSum eps) (k : Nat) :
    ∃ i, ∃ hi : i < eps.length, ((Infos.fresh eps).nexts k).1.next.2 = (.ok eps[i], some i) ∧
      0 < eps[i].weight := by
  -- periodicity reduces to the first cycle
  have hper : ∀ q r, ((Infos.fresh eps).nexts (q * weightSum eps + r)).1 =
      ((Infos.fresh eps).nexts r).1 := by
    intro q
    induction q with
    | zero => intro r; simp
    | succ q ih =>
      intro r
      rw [show (q + 1) * weightSum eps + r =
        weightSum eps + (q * weightSum eps + r) by rw [Nat.add_mul]; omega]
      rw [nexts_add, (cycle eps hW).2.1]
      exact ih r
  have hr := Nat.mod_lt k hW
  have hS : weightSum eps = (eps.map (·.weight)).sum := rfl
  have hk : ((Infos.fresh eps).nexts k).1 = ((Infos.fresh eps).nexts (k % weightSum eps)).1 := by
    have := hper (k / weightSum eps) (k % weightSum eps)
    rw [Nat.mul_comm, Nat.div_add_mod] at this
    exact this
  rw [hk]
  generalize k % weightSum eps = r at hr
  obtain ⟨c', a, -, hb, -, -⟩ := run_budget hW r (At.fresh eps) (by omega) (fun i _ => Nat.zero_le _)
  obtain ⟨s', j, e1, e2, e3, -, -⟩ := a.next hW
  have hlen : (eps.map (·.weight)).length = eps.length := by simp
  rw [hlen] at e2
  have hw : (eps.map (·.weight)).getD j 0 = eps[j].weight := by
    rw [List.getD_eq_getElem?_getD, List.getElem?_map, List.getElem?_eq_getElem e2]; rfl
  refine ⟨j, e2, ?_, ?_⟩
  · rw [e1]
    simp [at', e2]
  · -- a zero weight never becomes positive
    rcases Nat.eq_zero_or_pos eps[j].weight with hz | hp
    · exfalso
      rw [a.cur j (by rw [hlen]; exact e2), hw, hz] at e3
      have : (0 : Int) ≤ (c' j : Int) * (weightSum eps : Int) :=
        Int.mul_nonneg (by omega) (by omega)
      simp only [weightSum, Int.natCast_zero, Int.mul_zero, Int.zero_sub, Int.add_zero] at e3 this
      omega
    · exact hp

/-- **C17, integers.**  All values the C++ `int`s take stay between `-W` and `n·W`: modelling them as
unbounded integers is exact whenever `n·W < 2³¹`. -/
theorem C17_no_overflow (eps : List Endpoint) (hW : 0 < weightSum eps) (k i : Nat)
    (hi : i < eps.length) :
    -(weightSum eps : Int) < ((Infos.fresh eps).nexts k).1.current.getD i 0 ∧
    ((Infos.fresh eps).nexts k).1.current.getD i 0 + eps[i].weight ≤
      (eps.length : Int) * (weightSum eps : Int) := by
  have hlen : (eps.map (·.weight)).length = eps.length := by simp
  have hS : weightSum eps = (eps.map (·.weight)).sum := rfl
  have inv : ∀ k, ∃ c, At (eps.map (·.weight)) eps ((Infos.fresh eps).nexts k).1 k c ∧
      ∀ i, i < eps.length → -(weightSum eps : Int) < ((Infos.fresh eps).nexts k).1.current.getD i 0 := by
    intro k
    induction k with
    | zero =>
      refine ⟨_, At.fresh eps, fun i hi => ?_⟩
      have := (At.fresh eps).cur i (by rw [hlen]; exact hi)
      simp only [Infos.nexts]
      rw [this]; simp only [Int.natCast_zero, Int.zero_mul, Int.sub_zero]; omega
    | succ k ih =>
      obtain ⟨c, a, hb⟩ := ih
      obtain ⟨s', j, e1, e2, e3, e4, e5⟩ := a.next hW
      have hs : ((Infos.fresh eps).nexts (k + 1)).1 = s' := by
        rw [nexts_add]; simp only [Infos.nexts, e1]
      rw [hs]
      refine ⟨_, e4, fun i hi => ?_⟩
      have c1 := e4.cur i (by rw [hlen]; exact hi)
      have c0 := a.cur i (by rw [hlen]; exact hi)
      have hb' := hb i hi
      rw [c1]
      by_cases h : i = j
      · subst h
        simp only [if_true]
        rw [c0] at e3
        simp only [Int.natCast_add, Int.natCast_one]
        rw [Int.add_mul, Int.add_mul]
        omega
      · simp only [h, if_false]
        simp only [Int.natCast_add, Int.natCast_one]
        rw [Int.add_mul]
        omega
  obtain ⟨c, a, hb⟩ := inv k
  refine ⟨hb i hi, ?_⟩
  -- the values after the addition sum up to W and each is above -W
  obtain ⟨s', j, e1, e2, e3, e4, e5⟩ := a.next hW
  have hw : (eps.map (·.weight)).getD i 0 = eps[i].weight := by
    rw [List.getD_eq_getElem?_getD, List.getElem?_map, List.getElem?_eq_getElem hi]; rfl
  have hle : ∀ l : List Int, ∀ W : Int, 0 ≤ W → (∀ j, j < l.length → -W < l.getD j 0) → ∀ i, i < l.length →
      l.getD i 0 ≤ l.sum + (l.length - 1) * W := by
    intro l W hW0
    induction l with
    | nil => intro _ i hi; simp at hi
    | cons x xs ih =>
      intro hl i hi
      have hx := hl 0 (by simp)
      simp only [List.getD_cons_zero] at hx
      have hxs : ∀ j, j < xs.length → -W < xs.getD j 0 := fun j hj => by
        simpa using hl (j + 1) (by simpa using hj)
      have hlow : ∀ l : List Int, (∀ j, j < l.length → -W < l.getD j 0) → -(l.length * W) ≤ l.sum := by
        intro l
        induction l with
        | nil => intro _; simp
        | cons y ys ihy =>
          intro h
          have h0 := h 0 (by simp)
          simp only [List.getD_cons_zero] at h0
          have := ihy (fun j hj => by simpa using h (j + 1) (by simpa using hj))
          simp only [List.length_cons, List.sum_cons]
          simp only [Int.natCast_add, Int.natCast_one]
          rw [Int.add_mul]; omega
      simp only [List.length_cons, List.sum_cons]
      simp only [Int.natCast_add, Int.natCast_one]
      rw [show ((xs.length : Int) + 1 - 1) * W = xs.length * W by congr 1; omega]
      cases i with
      | zero =>
        have := hlow xs hxs
        simp only [List.getD_cons_zero]; omega
      | succ i =>
        have := ih hxs i (by simpa using hi)
        rw [Int.sub_mul] at this
        simp only [List.getD_cons_succ]; omega
  have hl := hle ((Infos.fresh eps).nexts k).1.current (weightSum eps : Int) (by omega)
    (fun j hj => hb j (by rw [a.len, hlen] at hj; exact hj)) i (by rw [a.len, hlen]; exact hi)
  rw [a.sum, a.len, hlen] at hl
  have hwle : (eps[i].weight : Int) ≤ (weightSum eps : Int) := by
    rw [← hw]
    have : ∀ (l : List Nat) (i : Nat), l.getD i 0 ≤ l.sum := by
      intro l
      induction l with
      | nil => intro i; simp
      | cons x xs ih =>
        intro i
        cases i with
        | zero => simp
        | succ i => have := ih i; simp only [List.getD_cons_succ, List.sum_cons]; omega
    have := this (eps.map (·.weight)) i
    unfold weightSum
    exact Int.ofNat_le.2 this
  rw [Int.sub_mul] at hl
  omega

/-- **C17, updates.**  An update that changes neither addresses nor weights does not disturb the cycle; any other
update starts a fresh one. -/
theorem C17_update (s : Infos) (new : List Endpoint) :
    s.update new = if s.endpoints.map (fun e => (e.weight, e.host, e.port)) =
      new.map (fun e => (e.weight, e.host, e.port)) then s else .fresh new := by
  have diff : ∀ old : List Endpoint, infoDiff old new = false ↔
      old.map (fun e => (e.weight, e.host, e.port)) = new.map (fun e => (e.weight, e.host, e.port)) := by
    intro old
    unfold infoDiff
    induction old generalizing new with
    | nil => cases new <;> simp
    | cons x xs ih =>
      cases new with
      | nil => simp
      | cons y ys =>
        have := ih ys
        by_cases hl : xs.length = ys.length
        · simp only [hl, ne_eq, not_true_eq_false, if_false] at this
          simp only [List.length_cons, hl, ne_eq, not_true_eq_false, if_false, List.zip_cons_cons,
            List.any_cons, Bool.or_eq_false_iff, List.map_cons, List.cons.injEq, this, Prod.mk.injEq,
            bne_eq_false_iff_eq, and_assoc]
        · simp only [List.length_cons, Nat.add_right_cancel_iff, hl, ne_eq, not_false_eq_true, if_true,
            Bool.true_eq_false, false_iff]
          intro h
          have := congrArg List.length h
          simp at this
          exact hl this
  unfold Infos.update
  by_cases h : s.endpoints.map (fun e => (e.weight, e.host, e.port)) = new.map (fun e => (e.weight, e.host, e.port))
  · rw [if_pos h, (diff s.endpoints).2 h]; rfl
  · rw [if_neg h]
    cases hb : infoDiff s.endpoints new with
    | true => rfl
    | false => exact absurd ((diff _).1 hb) h

/-! Non-vacuity: weights 5, 1, 0, 1. -/

def ep (k w : Nat) : Endpoint := ⟨['h'], k, 0, w, 0⟩

example : 0 < ([ep 1 5, ep 2 1, ep 3 0, ep 4 1].map (·.weight)).sum := by decide

example : ((Infos.fresh [ep 1 5, ep 2 1, ep 3 0, ep 4 1]).nexts 7).2 =
    [some 0, some 0, some 1, some 0, some 3, some 0, some 0] := by decide

/-- Outside the quantifier: with all weights zero the first endpoint is always selected. -/
theorem C17_all_zero_selects_first (n k : Nat) (e : Endpoint) (he : e.weight = 0) :
    ((Infos.fresh (List.replicate (n + 1) e)).nexts k).1.next.2 = (.ok e, some 0) ∧
    ((Infos.fresh (List.replicate (n + 1) e)).nexts k).1 = Infos.fresh (List.replicate (n + 1) e) := by
  have scan0 : ∀ m i, scan (List.replicate m 0) (List.replicate m 0) i 0 (some 0) =
      (List.replicate m 0, 0, some 0) := by
    intro m
    induction m with
    | zero => intro i; rfl
    | succ m ih => intro i; simp [List.replicate_succ, scan, ih]
  have one : (Infos.fresh (List.replicate (n + 1) e)).next =
      (Infos.fresh (List.replicate (n + 1) e), .ok e, some 0) := by
    unfold Infos.next Infos.fresh
    simp only [List.length_replicate, show ¬ n + 1 < 1 by omega, if_false, List.map_replicate, he]
    have : scan (List.replicate (n + 1) 0) (List.replicate (n + 1) 0) 0 (-1) none =
        (List.replicate (n + 1) 0, 0, some 0) := by
      simp [List.replicate_succ, scan, scan0]
    rw [this]
    simp [Infos.total, List.replicate_succ, at']
  have all : ((Infos.fresh (List.replicate (n + 1) e)).nexts k).1 = Infos.fresh (List.replicate (n + 1) e) := by
    induction k with
    | zero => rfl
    | succ k ih => simp only [Infos.nexts, one]; exact ih
  exact ⟨by rw [all, one], all⟩

end Verif.LB.WRR
