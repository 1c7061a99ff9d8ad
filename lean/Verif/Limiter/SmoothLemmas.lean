import Verif.Limiter.SmoothModel
import Verif.Limiter.SmoothSpec
/-!
The ring represents the newest `n` frames of the history.
-/

namespace Verif.Limiter.Smooth

open Spec

/-- Slot holding the frame `i` frames ago. -/
def slot (n b i : Nat) : Nat := (b + (n - 1 - i)) % (n + 1)

/-- The ring holds the newest `n` frames of `h`. -/
structure Rep (q : HitQueue) (h : List Nat) : Prop where
  npos : 0 < q.n
  blt : q.begin < q.n + 1
  cells : ∀ i, i < q.n → q.hits (slot q.n q.begin i) = h.getD i 0

theorem rep_init {n : Nat} (hn : 0 < n) : Rep (HitQueue.init n) [] :=
  ⟨hn, Nat.succ_pos _, fun _ _ => rfl⟩

theorem mod_case (a m : Nat) (h : a < 2 * m) : a % m = if a < m then a else a - m := by
  split
  · exact Nat.mod_eq_of_lt ‹_›
  · rw [Nat.mod_eq_sub_mod (by omega), Nat.mod_eq_of_lt (by omega)]

theorem Rep.tick {q : HitQueue} {h : List Nat} (r : Rep q h) : Rep q.nextFrame (0 :: h) := by
  obtain ⟨hn, hb, hc⟩ := r
  refine ⟨hn, Nat.mod_lt _ (Nat.succ_pos _), ?_⟩
  intro i hi
  have hi' : i < q.n := hi
  simp only [HitQueue.nextFrame, HitQueue.nextIndex]
  cases i with
  | zero =>
    have : slot q.n ((q.begin + 1) % (q.n + 1)) 0 = (q.begin + q.n) % (q.n + 1) := by
      unfold slot
      rw [Nat.mod_add_mod]; congr 1; omega
    rw [this, upd_same]; rfl
  | succ j =>
    have e1 : slot q.n ((q.begin + 1) % (q.n + 1)) (j + 1) = slot q.n q.begin j := by
      unfold slot
      rw [Nat.mod_add_mod]; congr 1; omega
    have e2 : slot q.n q.begin j ≠ (q.begin + q.n) % (q.n + 1) := by
      unfold slot
      rw [mod_case _ _ (by omega), mod_case _ _ (by omega)]
      split <;> split <;> omega
    rw [e1, upd_ne _ _ e2, hc j (by omega)]
    simp

theorem sumLoop_spec (q : HitQueue) (hb : q.begin < q.n + 1) (k : Nat) (hk : k ≤ q.n) (fuel acc : Nat)
    (hf : k ≤ fuel) :
    q.sumLoop fuel ((q.begin + (q.n - k)) % (q.n + 1)) ((q.begin + q.n) % (q.n + 1)) acc =
      some (acc + ((List.range k).map (fun i => q.hits ((q.begin + (q.n - k) + i) % (q.n + 1)))).sum) := by
  induction k generalizing fuel acc with
  | zero => cases fuel <;> simp [HitQueue.sumLoop]
  | succ k ih =>
    cases fuel with
    | zero => omega
    | succ fuel =>
      have hne : (q.begin + (q.n - (k + 1))) % (q.n + 1) ≠ (q.begin + q.n) % (q.n + 1) := by
        rw [mod_case _ _ (by omega), mod_case _ _ (by omega)]
        split <;> split <;> omega
      have hnext : q.nextIndex ((q.begin + (q.n - (k + 1))) % (q.n + 1)) =
          (q.begin + (q.n - k)) % (q.n + 1) := by
        unfold HitQueue.nextIndex
        rw [Nat.mod_add_mod]; congr 1; omega
      rw [HitQueue.sumLoop, if_pos hne, hnext, ih (by omega) fuel _ (by omega)]
      congr 1
      rw [List.range_succ_eq_map, List.map_cons, List.sum_cons, List.map_map, Nat.add_assoc]
      congr 2
      congr 1
      apply List.map_congr_left
      intro i _
      simp only [Function.comp]
      congr 2
      omega

theorem sum_map_range_succ (f : Nat → Nat) (n : Nat) :
    ((List.range (n + 1)).map f).sum = ((List.range n).map f).sum + f n := by
  rw [List.range_succ]; simp

theorem sum_reverse_range (f : Nat → Nat) (n : Nat) :
    ((List.range n).map (fun i => f (n - 1 - i))).sum = ((List.range n).map f).sum := by
  induction n generalizing f with
  | zero => rfl
  | succ n ih =>
    rw [sum_map_range_succ f n, List.range_succ_eq_map, List.map_cons, List.sum_cons, List.map_map,
      ← ih f, Nat.add_comm]
    congr 2
    apply List.map_congr_left
    intro i _
    simp only [Function.comp]
    congr 1
    omega

theorem window_eq (n : Nat) (h : List Nat) :
    window n h = ((List.range n).map (fun i => h.getD i 0)).sum := by
  unfold window
  induction n generalizing h with
  | zero => simp
  | succ n ih =>
    cases h with
    | nil =>
      rw [sum_map_range_succ, ← ih []]; simp
    | cons x xs =>
      rw [List.range_succ_eq_map, List.map_cons, List.sum_cons, List.map_map, List.take_succ_cons,
        List.sum_cons, ih xs]
      congr 1

theorem Rep.activeSum {q : HitQueue} {h : List Nat} (r : Rep q h) : q.activeSum = some (window q.n h) := by
  have := sumLoop_spec q r.blt q.n (Nat.le_refl _) (q.n + 1) 0 (by omega)
  simp only [Nat.sub_self, Nat.add_zero] at this
  rw [Nat.mod_eq_of_lt r.blt] at this
  rw [HitQueue.activeSum, this, Nat.zero_add, window_eq, ← sum_reverse_range]
  congr 2
  apply List.map_congr_left
  intro i hi
  rw [List.mem_range] at hi
  rw [← r.cells i hi]
  rfl

theorem Rep.addHit {q : HitQueue} {h : List Nat} (r : Rep q h) :
    Rep q.addHit.1 (observe h (some true)) ∧ q.addHit.1.n = q.n := by
  refine ⟨⟨r.npos, r.blt, ?_⟩, rfl⟩
  intro i hi
  have hi' : i < q.n := hi
  have hn := r.npos
  have hb := r.blt
  simp only [HitQueue.addHit]
  have e0 : (q.begin + q.n - 1) % (q.n + 1) = slot q.n q.begin 0 := by
    unfold slot; congr 1; omega
  rw [e0]
  cases i with
  | zero =>
    rw [upd_same, r.cells 0 hn]
    cases h <;> rfl
  | succ j =>
    have : slot q.n q.begin (j + 1) ≠ slot q.n q.begin 0 := by
      unfold slot
      rw [mod_case _ _ (by omega), mod_case _ _ (by omega)]
      split <;> split <;> omega
    rw [upd_ne _ _ this, r.cells (j + 1) hi']
    cases h <;> rfl

theorem window_observe_true (n : Nat) (hn : 0 < n) (h : List Nat) :
    window n (observe h (some true)) = window n h + 1 := by
  obtain ⟨m, rfl⟩ : ∃ m, n = m + 1 := ⟨n - 1, by omega⟩
  cases h <;> simp [window, observe]
  omega

theorem checkLimit_spec {q : HitQueue} {h : List Nat} (r : Rep q h) (limit : Int) :
    ∃ q' b, checkLimit limit q = some (q', b) ∧ (b = true ↔ (window q.n h : Int) < limit) ∧
      Rep q' (observe h (some b)) ∧ q'.n = q.n := by
  unfold checkLimit
  rw [r.activeSum]
  by_cases hl : (window q.n h : Int) ≥ limit
  · refine ⟨q, false, by simp [hl], by simp; omega, r, rfl⟩
  · have ha := r.addHit
    have hs : q.addHit.2 = some (window q.n h + 1) := by
      have := ha.1.activeSum
      rw [ha.2, window_observe_true _ r.npos] at this
      exact this
    have hd : (!decide (((window q.n h + 1 : Nat) : Int) > limit)) = true := by
      rw [Bool.not_eq_true', decide_eq_false_iff_not]; omega
    refine ⟨q.addHit.1, true, ?_, by simp; omega, ha.1, ha.2⟩
    simp only [hl, if_false]
    rw [show q.addHit = (q.addHit.1, some (window q.n h + 1)) by rw [← hs]]
    simp only [hd]

end Verif.Limiter.Smooth
