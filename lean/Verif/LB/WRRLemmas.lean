import Verif.LB.Model

namespace Verif.LB.WRR

/-! ### The loop -/

theorem scan_cur (ws : List Nat) (cs : List Int) (i : Nat) (mx : Int) (sel : Option Nat)
    (h : ws.length = cs.length) :
    (scan ws cs i mx sel).1 = List.zipWith (fun (c : Int) (w : Nat) => c + w) cs ws := by
  induction ws generalizing cs i mx sel with
  | nil => cases cs <;> simp_all [scan]
  | cons w ws ih =>
    cases cs with
    | nil => simp at h
    | cons c cs =>
      have h' : ws.length = cs.length := by simpa using h
      rw [scan]
      simp only
      split <;> simp [ih _ _ _ _ h']

/-- What the selection loop finds: a position holding the maximum, provided it beats the start value. -/
theorem scan_sel (ws : List Nat) (cs : List Int) (i : Nat) (mx : Int) (sel : Option Nat)
    (h : ws.length = cs.length) :
    (((scan ws cs i mx sel).2.2 = sel ∧ (scan ws cs i mx sel).2.1 = mx) ∨
      ∃ j, (scan ws cs i mx sel).2.2 = some (i + j) ∧ j < ws.length ∧
        (scan ws cs i mx sel).1.getD j 0 = (scan ws cs i mx sel).2.1 ∧ mx < (scan ws cs i mx sel).2.1) ∧
    mx ≤ (scan ws cs i mx sel).2.1 ∧
    ∀ j, j < ws.length → (scan ws cs i mx sel).1.getD j 0 ≤ (scan ws cs i mx sel).2.1 := by
  induction ws generalizing cs i mx sel with
  | nil => cases cs <;> simp_all [scan]
  | cons w ws ih =>
    cases cs with
    | nil => simp at h
    | cons c cs =>
      have h' : ws.length = cs.length := by simpa using h
      rw [scan]
      simp only
      split
      · next hgt =>
        obtain ⟨h1, h2, h3⟩ := ih cs (i + 1) (c + w) (some i) h'
        refine ⟨.inr ?_, by omega, ?_⟩
        · rcases h1 with ⟨e1, e2⟩ | ⟨j, e1, e2, e3, e4⟩
          · exact ⟨0, by rw [e1]; rfl, by simp, by simp [e2], by rw [e2]; omega⟩
          · exact ⟨j + 1, by rw [e1]; congr 1; omega, by simpa using e2, by simpa using e3, by omega⟩
        · intro j hj
          cases j with
          | zero => simpa using h2
          | succ j => simpa using h3 j (by simpa using hj)
      · next hle =>
        obtain ⟨h1, h2, h3⟩ := ih cs (i + 1) mx sel h'
        refine ⟨?_, h2, ?_⟩
        · rcases h1 with ⟨e1, e2⟩ | ⟨j, e1, e2, e3, e4⟩
          · exact .inl ⟨e1, e2⟩
          · exact .inr ⟨j + 1, by rw [e1]; congr 1; omega, by simpa using e2, by simpa using e3, e4⟩
        · intro j hj
          cases j with
          | zero => simp only [List.getD_cons_zero]; omega
          | succ j => simpa using h3 j (by simpa using hj)

/-! ### Sums -/

theorem sum_zipWith (cs : List Int) (ws : List Nat) (h : ws.length = cs.length) :
    (List.zipWith (fun (c : Int) (w : Nat) => c + w) cs ws).sum = cs.sum + (ws.sum : Int) := by
  induction cs generalizing ws with
  | nil => cases ws <;> simp_all
  | cons c cs ih =>
    cases ws with
    | nil => simp at h
    | cons w ws =>
      have := ih ws (by simpa using h)
      simp only [List.zipWith_cons_cons, List.sum_cons, this]
      push_cast
      omega

theorem sum_set (l : List Int) (j : Nat) (h : j < l.length) (d : Int) :
    (l.set j (l.getD j 0 - d)).sum = l.sum - d := by
  induction l generalizing j with
  | nil => simp at h
  | cons x xs ih =>
    cases j with
    | zero => simp only [List.set_cons_zero, List.getD_cons_zero, List.sum_cons]; omega
    | succ j =>
      have := ih j (by simpa using h)
      simp only [List.set_cons_succ, List.getD_cons_succ, List.sum_cons, this]; omega

theorem sum_nonpos (l : List Int) (h : ∀ j, j < l.length → l.getD j 0 ≤ 0) : l.sum ≤ 0 := by
  induction l with
  | nil => simp
  | cons x xs ih =>
    have h0 := h 0 (by simp)
    have := ih (fun j hj => by simpa using h (j + 1) (by simpa using hj))
    simp only [List.getD_cons_zero] at h0
    simp only [List.sum_cons]; omega

theorem zipWith_getD (cs : List Int) (ws : List Nat) (h : ws.length = cs.length) (j : Nat) :
    (List.zipWith (fun (c : Int) (w : Nat) => c + w) cs ws).getD j 0 = cs.getD j 0 + (ws.getD j 0 : Int) := by
  induction cs generalizing ws j with
  | nil => cases ws <;> simp_all
  | cons c cs ih =>
    cases ws with
    | nil => simp at h
    | cons w ws =>
      cases j with
      | zero => simp
      | succ j => simpa using ih ws (by simpa using h) j

theorem set_getD (l : List Int) (i j : Nat) (v : Int) (h : i < l.length) :
    (l.set i v).getD j 0 = if j = i then v else l.getD j 0 := by
  induction l generalizing i j with
  | nil => simp at h
  | cons x xs ih =>
    cases i with
    | zero => cases j <;> simp
    | succ i =>
      cases j with
      | zero => simp
      | succ j => simpa using ih i j (by simpa using h)

/-! ### One selection -/

/-- State reached after `k` selections, `i` having been selected `c i` times. -/
structure At (ws : List Nat) (eps : List Endpoint) (s : Infos) (k : Nat) (c : Nat → Nat) : Prop where
  weights : s.weights = ws
  endpoints : s.endpoints = eps
  len : s.current.length = ws.length
  elen : eps.length = ws.length
  sum : s.current.sum = 0
  cur : ∀ i, i < ws.length → s.current.getD i 0 = (k : Int) * ws.getD i 0 - (c i : Int) * ws.sum

theorem At.fresh (eps : List Endpoint) :
    At (eps.map (·.weight)) eps (Infos.fresh eps) 0 (fun _ => 0) := by
  refine ⟨rfl, rfl, by simp [Infos.fresh], by simp, ?_, ?_⟩
  · show (eps.map (fun _ => (0 : Int))).sum = 0
    induction eps with
    | nil => rfl
    | cons x xs ih => simp only [List.map_cons, List.sum_cons, ih]; rfl
  · intro i hi
    have : (eps.map (fun _ => (0 : Int))).getD i 0 = 0 := by
      rw [List.getD_eq_getElem?_getD, List.getElem?_map]
      cases eps[i]? <;> rfl
    simp only [Infos.fresh]
    rw [this]; simp

theorem At.next {ws : List Nat} {eps : List Endpoint} {s : Infos} {k : Nat} {c : Nat → Nat}
    (a : At ws eps s k c) (hW : 0 < ws.sum) :
    ∃ s' j, s.next = (s', at' eps j, some j) ∧ j < ws.length ∧
      0 < s.current.getD j 0 + (ws.getD j 0 : Int) ∧
      At ws eps s' (k + 1) (fun i => if i = j then c i + 1 else c i) ∧
      (∀ i, i < ws.length → s.current.getD i 0 + (ws.getD i 0 : Int) ≤ s.current.getD j 0 + (ws.getD j 0 : Int)) := by
  obtain ⟨h1, h2, h3, h4, h5, h6⟩ := a
  have hne : ¬ s.endpoints.length < 1 := by
    rw [h2, h4]
    intro h
    have : ws = [] := List.length_eq_zero_iff.1 (by omega)
    subst this; simp at hW
  have hlen : s.weights.length = s.current.length := by rw [h1, h3]
  have hcur := scan_cur s.weights s.current 0 (-1) none hlen
  obtain ⟨g1, g2, g3⟩ := scan_sel s.weights s.current 0 (-1) none hlen
  have hsum : (scan s.weights s.current 0 (-1) none).1.sum = (ws.sum : Int) := by
    rw [hcur, sum_zipWith _ _ hlen, h5, h1]; simp
  have hlen1 : (scan s.weights s.current 0 (-1) none).1.length = ws.length := by
    rw [hcur, List.length_zipWith, ← hlen, h1]; simp
  generalize hr : scan s.weights s.current 0 (-1) none = r at *
  obtain ⟨cur', mx, sel⟩ := r
  simp only at *
  have hpos : 0 < mx := by
    rcases Int.lt_or_le 0 mx with h | h
    · exact h
    · have := sum_nonpos cur' (fun j hj => by
        have := g3 j (by rw [h1]; omega)
        omega)
      omega
  rcases g1 with ⟨e1, e2⟩ | ⟨j, e1, e2, e3, e4⟩
  · omega
  · rw [Nat.zero_add] at e1
    rw [h1] at e2
    have hj : cur'.getD j 0 = s.current.getD j 0 + (ws.getD j 0 : Int) := by
      rw [hcur, zipWith_getD _ _ hlen, h1]
    refine ⟨{ s with current := cur'.set j (cur'.getD j 0 - s.total) }, j, ?_, e2, by omega, ?_, ?_⟩
    · unfold Infos.next
      rw [if_neg hne, hr]
      simp only [e1, h2]
    · refine ⟨h1, h2, by simpa using hlen1, h4, ?_, ?_⟩
      · simp only
        rw [sum_set _ _ (by omega), hsum, Infos.total, h1]; omega
      · intro i hi
        simp only
        rw [set_getD _ _ _ _ (by omega)]
        have hi' : cur'.getD i 0 = s.current.getD i 0 + (ws.getD i 0 : Int) := by
          rw [hcur, zipWith_getD _ _ hlen, h1]
        have h6i := h6 i hi
        split
        · next e =>
          subst e
          rw [hi', h6i, Infos.total, h1]
          push_cast
          rw [Int.add_mul, Int.add_mul]
          omega
        · rw [hi', h6i]
          push_cast
          rw [Int.add_mul]; omega
    · intro i hi
      have := g3 i (by rw [h1]; exact hi)
      have hi' : cur'.getD i 0 = s.current.getD i 0 + (ws.getD i 0 : Int) := by
        rw [hcur, zipWith_getD _ _ hlen, h1]
      omega

end Verif.LB.WRR
