import Verif.Limiter.SmoothLemmas
/-!
# Property C12: the sliding window limiter
-/

namespace Verif.Limiter.Smooth

open Spec

/-- The history of admitted requests per frame that an observer writes down. -/
def observed (outs : List (Option Bool)) : List Nat := outs.foldl observe []

theorem run_append {limit : Int} {q : HitQueue} {a b : List Op} {r : HitQueue × List (Option Bool)}
    (h : run limit q (a ++ b) = some r) :
    ∃ q' oa ob, run limit q a = some (q', oa) ∧ run limit q' b = some (r.1, ob) ∧ r.2 = oa ++ ob := by
  induction a generalizing q r with
  | nil => exact ⟨q, [], r.2, rfl, h, rfl⟩
  | cons o os ih =>
    rw [List.cons_append, run] at h
    cases hs : step limit q o with
    | none => rw [hs] at h; cases h
    | some s =>
      obtain ⟨q1, r1⟩ := s
      rw [hs] at h
      obtain ⟨x, hx, rfl⟩ := Option.map_eq_some_iff.1 h
      obtain ⟨q', oa, ob, h1, h2, h3⟩ := ih hx
      refine ⟨q', r1 :: oa, ob, ?_, h2, by rw [h3]; rfl⟩
      rw [run, hs]; simp [h1]

theorem run_rep {limit : Int} {q : HitQueue} {h : List Nat} (r : Rep q h) (ops : List Op) :
    ∃ q' outs, run limit q ops = some (q', outs) ∧ Rep q' (outs.foldl observe h) ∧ q'.n = q.n := by
  induction ops generalizing q h with
  | nil => exact ⟨q, [], rfl, r, rfl⟩
  | cons o os ih =>
    cases o with
    | tick =>
      obtain ⟨q', outs, h1, h2, h3⟩ := ih r.tick
      exact ⟨q', none :: outs, by simp [run, step, h1], h2, h3⟩
    | request =>
      obtain ⟨q1, b, c1, _, c3, c4⟩ := checkLimit_spec r limit
      obtain ⟨q', outs, h1, h2, h3⟩ := ih c3
      exact ⟨q', some b :: outs, by simp [run, step, c1, h1], h2, by rw [h3, c4]⟩

/-- **C12, decisions.**  In every history of requests and ticks from a fresh limiter with `n ≥ 1` frames,
all calls finish, and a request is admitted iff fewer than `limit` requests were admitted in the newest
`n` frames before it. -/
theorem C12_admitted_iff_window_below_limit (n : Nat) (hn : 0 < n) (limit : Int) (ops : List Op) :
    ∃ q outs, run limit (HitQueue.init n) ops = some (q, outs) ∧ outs.length = ops.length ∧
      ∀ pre b post, outs = pre ++ some b :: post →
        (b = true ↔ (window n (observed pre) : Int) < limit) := by
  obtain ⟨q, outs, h1, -, -⟩ := run_rep (limit := limit) (rep_init hn) ops
  have hlen : ∀ (ops : List Op) (q q' : HitQueue) outs, run limit q ops = some (q', outs) →
      outs.length = ops.length := by
    intro ops
    induction ops with
    | nil => intro q q' outs h; simp [run] at h; simp [← h.2]
    | cons o os ih =>
      intro q q' outs h
      rw [run] at h
      split at h
      · cases h
      · obtain ⟨x, hx, he⟩ := Option.map_eq_some_iff.1 h
        cases he
        simp [ih _ _ _ hx]
  refine ⟨q, outs, h1, hlen _ _ _ _ h1, ?_⟩
  intro pre b post he
  have hl := hlen _ _ _ _ h1
  have hsplit : ops = ops.take pre.length ++ ops.drop pre.length := (List.take_append_drop _ _).symm
  rw [hsplit] at h1
  obtain ⟨q', oa, ob, k1, k2, k3⟩ := run_append h1
  obtain ⟨q'', oa', m1, m2, m3⟩ := run_rep (limit := limit) (rep_init hn) (ops.take pre.length)
  rw [k1] at m1; cases m1
  have hoa : oa = pre := by
    have := hlen _ _ _ _ k1
    simp only at k3
    rw [he] at k3
    exact (List.append_inj k3 (by
      rw [this, List.length_take, ← hl, he]; simp)).1.symm
  subst hoa
  have hob : ob = some b :: post := by
    simp only at k3; rw [he] at k3; exact (List.append_cancel_left k3).symm
  rw [hob] at k2
  cases hd : ops.drop oa.length with
  | nil => rw [hd] at k2; simp [run] at k2
  | cons o os =>
    rw [hd, run] at k2
    cases o with
    | tick => simp [step] at k2
    | request =>
      obtain ⟨q1, b', c1, c2, -, -⟩ := checkLimit_spec m2 limit
      simp only [step, c1, Option.map_some] at k2
      obtain ⟨x, -, hx⟩ := Option.map_eq_some_iff.1 k2
      simp only [Prod.mk.injEq, List.cons.injEq, Option.some.injEq] at hx
      rw [← hx.2.1]
      rw [m3] at c2
      exact c2

theorem sum_take_le (m : Nat) (l : List Nat) : (l.take m).sum ≤ (l.take (m + 1)).sum := by
  induction m generalizing l with
  | zero => simp
  | succ m ih =>
    cases l with
    | nil => simp
    | cons x xs => simp only [List.take_succ_cons, List.sum_cons]; exact Nat.add_le_add_left (ih xs) _

theorem windows_le {n : Nat} (hn : 0 < n) {limit : Nat} (outs : List (Option Bool))
    (h : ∀ pre b post, outs = pre ++ some b :: post → (b = true → window n (observed pre) < limit)) :
    ∀ k, window n ((observed outs).drop k) ≤ limit := by
  induction hk : outs.length generalizing outs with
  | zero =>
    rw [List.length_eq_zero_iff] at hk; subst hk; intro k; simp [observed, window]
  | succ m ih =>
    rcases List.eq_nil_or_concat outs with h' | ⟨o', x, h'⟩
    · subst h'; simp at hk
    · rw [List.concat_eq_append] at h'
      subst h'
      have ih' := ih o' (fun pre b post e => h pre b (post ++ [x]) (by rw [e]; simp)) (by simpa using hk)
      have ho : observed (o' ++ [x]) = observe (observed o') x := by simp [observed]
      rw [ho]
      intro k
      cases x with
      | none =>
        cases k with
        | zero =>
          have := ih' 0
          simp only [List.drop_zero, window, observe] at this ⊢
          obtain ⟨m, rfl⟩ : ∃ m, n = m + 1 := ⟨n - 1, by omega⟩
          rw [List.take_succ_cons, List.sum_cons, Nat.zero_add]
          exact Nat.le_trans (sum_take_le m _) this
        | succ k => exact ih' k
      | some b =>
        cases b with
        | false => exact ih' k
        | true =>
          cases k with
          | zero =>
            have := h o' true [] rfl rfl
            rw [List.drop_zero, window_observe_true n hn]
            exact this
          | succ k =>
            have := ih' (k + 1)
            cases ho' : observed o' with
            | nil => simp [observe, window]
            | cons y ys => rw [ho'] at this; exact this

/-- **C12, bound.**  In any `n` consecutive frames (the ones starting `k` frames ago) at most `limit`
requests are admitted. -/
theorem C12_at_most_limit_per_window (n : Nat) (hn : 0 < n) (limit : Nat) (ops : List Op)
    (q : HitQueue) (outs : List (Option Bool)) (h : run limit (HitQueue.init n) ops = some (q, outs))
    (k : Nat) : window n ((observed outs).drop k) ≤ limit := by
  obtain ⟨q', outs', h1, -, h2⟩ := C12_admitted_iff_window_below_limit n hn limit ops
  rw [h] at h1; cases h1
  refine windows_le hn outs (fun pre b post e hb => ?_) k
  have := (h2 pre b post e).1 hb
  omega

/-- The configured number of frames is always at least one, so the theorems apply to every configuration. -/
theorem C12_frames_pos (windowSize : Int) : 0 < frames windowSize := by
  unfold frames; split <;> omega

example : (run 2 (HitQueue.init 2)
    [.request, .tick, .request, .request, .tick, .request, .request]).map (·.2) =
    some [some true, none, some true, some false, none, some true, some false] := by decide

end Verif.Limiter.Smooth
