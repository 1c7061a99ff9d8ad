import Verif.LB.WRRProps
/-!
# Property C34: concurrent `Next` of smooth weighted round robin

`SWRoundRobinLoadBalance::Next` (weighted_round_robin_load_balancer.cc:46-85) holds `mutex_` only in *shared*
mode while it updates the plain `int`s `current_weights[i]`.  Callers therefore interleave.  Formally that is a
data race (undefined behaviour); the model below gives it the mildest meaning possible, sequentially consistent
loads and stores of whole `int`s.
-/

namespace Verif.LB.WRR.Race

/-- Where a caller is.  `rd i mx sel`: head of the loop at index `i`; `wr i v mx sel`: has loaded
`current_weights[i] = v` (:69), about to store; `subRd`, `subWr`: line 77; `done`: returned (`none` is -1). -/
inductive PC
  | idle
  | rd (i : Nat) (mx : Int) (sel : Option Nat)
  | wr (i : Nat) (v : Int) (mx : Int) (sel : Option Nat)
  | subRd (j : Nat)
  | subWr (j : Nat) (v : Int)
  | done (r : Option Nat)
deriving DecidableEq, Repr

/-- Shared weights and the callers. -/
structure Conf where
  cur : List Int
  pc : Nat → PC

/-- One load or store of a caller, on the shared weights.  The comparison of lines 70-71 uses the value just
stored (reloading it could only see more interference). -/
def pcStep (ws : List Nat) (cur : List Int) : PC → Option (List Int × PC)
  | .idle => if ws.length < 1 then some (cur, .done none) else some (cur, .rd 0 (-1) none)
  | .rd i mx sel =>
    if i < ws.length then some (cur, .wr i (cur.getD i 0) mx sel)
    else match sel with
      | none => some (cur, .done none)
      | some j => some (cur, .subRd j)
  | .wr i v mx sel =>
    let v' := v + ws.getD i 0
    some (cur.set i v', if v' > mx then .rd (i + 1) v' (some i) else .rd (i + 1) mx sel)
  | .subRd j => some (cur, .subWr j (cur.getD j 0))
  | .subWr j v => some (cur.set j (v - ws.sum), .done (some j))
  | .done _ => none

/-- Caller `t` takes a step. -/
def step (ws : List Nat) (c : Conf) (t : Nat) : Option Conf :=
  (pcStep ws c.cur (c.pc t)).map (fun r => ⟨r.1, upd c.pc t r.2⟩)

/-- Executions: finite interleavings. -/
inductive Reach (ws : List Nat) : Conf → Conf → Prop
  | refl (c) : Reach ws c c
  | tail {c d e : Conf} (t : Nat) : Reach ws c d → step ws d t = some e → Reach ws c e

theorem Reach.trans {ws : List Nat} {a b c : Conf} (h1 : Reach ws a b) (h2 : Reach ws b c) : Reach ws a c := by
  induction h2 with
  | refl => exact h1
  | tail t _ hs ih => exact .tail t ih hs

/-- All callers idle. -/
def start (cur : List Int) : Conf := ⟨cur, fun _ => .idle⟩

/-! ## Run alone, a caller does what the sequential model says -/

/-- `t` alone runs from `(cur, pc)` to `(cur', pc')`. -/
inductive Solo (ws : List Nat) : List Int → PC → List Int → PC → Prop
  | refl (cur pc) : Solo ws cur pc cur pc
  | head {cur pc cur1 pc1 cur2 pc2} : pcStep ws cur pc = some (cur1, pc1) → Solo ws cur1 pc1 cur2 pc2 →
      Solo ws cur pc cur2 pc2

theorem Solo.trans {ws cur pc cur1 pc1 cur2 pc2} (h1 : Solo ws cur pc cur1 pc1) (h2 : Solo ws cur1 pc1 cur2 pc2) :
    Solo ws cur pc cur2 pc2 := by
  induction h1 with
  | refl => exact h2
  | head h _ ih => exact .head h (ih h2)

theorem Solo.reach {ws cur pc cur' pc'} (h : Solo ws cur pc cur' pc') (t : Nat) (c : Conf) (h1 : c.cur = cur)
    (h2 : c.pc t = pc) : Reach ws c ⟨cur', upd c.pc t pc'⟩ := by
  induction h generalizing c with
  | refl cur pc =>
    subst h1 h2
    have : (⟨c.cur, upd c.pc t (c.pc t)⟩ : Conf) = c := by
      obtain ⟨a, b⟩ := c
      congr
      funext x
      by_cases e : x = t
      · subst e; simp [upd]
      · simp [upd, e]
    rw [this]
    exact .refl _
  | @head cur pc cur1 pc1 cur2 pc2 hs _ ih =>
    have hd : step ws c t = some ⟨cur1, upd c.pc t pc1⟩ := by simp [step, h1, h2, hs]
    have := ih ⟨cur1, upd c.pc t pc1⟩ rfl (upd_same _ _ _)
    have e : upd (upd c.pc t pc1) t pc2 = upd c.pc t pc2 := by
      funext x
      by_cases e : x = t
      · subst e; simp [upd]
      · simp [upd, e]
    simp only [e] at this
    exact (Reach.tail t (.refl c) hd).trans this

/-- The loop, from index `pre.length`. -/
theorem solo_scan (pw rw' : List Nat) (pre rest : List Int) (hl : pw.length = pre.length)
    (hr : rw'.length = rest.length) (mx : Int) (sel : Option Nat) :
    Solo (pw ++ rw') (pre ++ rest) (.rd pre.length mx sel) (pre ++ (scan rw' rest pre.length mx sel).1)
      (.rd (pw ++ rw').length (scan rw' rest pre.length mx sel).2.1 (scan rw' rest pre.length mx sel).2.2) := by
  induction rw' generalizing pw pre rest mx sel with
  | nil =>
    cases rest with
    | nil => simp only [scan, List.append_nil, hl]; exact .refl _ _
    | cons => simp at hr
  | cons w ws ih =>
    cases rest with
    | nil => simp at hr
    | cons c cs =>
      have hg : (pre ++ c :: cs).getD pre.length 0 = c := by
        rw [List.getD_eq_getElem?_getD, List.getElem?_append_right (Nat.le_refl _)]; simp
      have hw : (pw ++ w :: ws).getD pre.length 0 = w := by
        rw [List.getD_eq_getElem?_getD, ← hl, List.getElem?_append_right (Nat.le_refl _)]; simp
      have hset : (pre ++ c :: cs).set pre.length (c + (w : Int)) = (pre ++ [c + (w : Int)]) ++ cs := by
        rw [List.set_append_right _ _ (Nat.le_refl _)]; simp
      refine .head (cur1 := pre ++ c :: cs) (pc1 := .wr pre.length c mx sel) ?_ ?_
      · simp only [pcStep]
        rw [if_pos (by simp [hl]), hg]
      have hcons : pw ++ w :: ws = (pw ++ [w]) ++ ws := by simp
      have hlen : (pre ++ [c + (w : Int)]).length = pre.length + 1 := by simp
      refine .head (cur1 := (pre ++ [c + (w : Int)]) ++ cs)
        (pc1 := if c + (w : Int) > mx then .rd (pre.length + 1) (c + w) (some pre.length)
          else .rd (pre.length + 1) mx sel) ?_ ?_
      · simp only [pcStep, hw, hset]
      · simp only [scan]
        by_cases h : c + (w : Int) > mx
        · simp only [if_pos h]
          have := ih (pw ++ [w]) (pre ++ [c + (w : Int)]) cs (by simp [hl]) (by simpa using hr) (c + w)
            (some pre.length)
          rw [hlen, ← hcons] at this
          simpa using this
        · simp only [if_neg h]
          have := ih (pw ++ [w]) (pre ++ [c + (w : Int)]) cs (by simp [hl]) (by simpa using hr) mx sel
          rw [hlen, ← hcons] at this
          simpa using this

/-- **C34, serial calls.**  A caller that is not interleaved with others does exactly what `Infos.next` (hence
C17) says. -/
theorem C34_serial_is_next (s : Infos) (hl : s.weights.length = s.current.length)
    (he : s.endpoints.length = s.weights.length) (t : Nat) (c : Conf) (hc : c.cur = s.current)
    (hp : c.pc t = .idle) :
    Reach s.weights c ⟨s.next.1.current, upd c.pc t (.done s.next.2.2)⟩ := by
  apply Solo.reach (cur := s.current) (pc := .idle) _ t c hc hp
  by_cases h0 : s.weights.length < 1
  · have : s.next = (s, .err, none) := by simp [Infos.next, he, h0]
    rw [this]
    exact .head (by simp [pcStep, h0]) (.refl _ _)
  · refine .head (cur1 := s.current) (pc1 := .rd 0 (-1) none) (by simp [pcStep, h0]) ?_
    have hs := solo_scan [] s.weights [] s.current rfl hl (-1) none
    simp only [List.nil_append, List.length_nil] at hs
    refine hs.trans ?_
    unfold Infos.next
    rw [he, if_neg h0]
    simp only
    generalize scan s.weights s.current 0 (-1) none = r
    obtain ⟨cs, mx, sel⟩ := r
    cases sel with
    | none =>
      exact .head (by simp [pcStep]) (.refl _ _)
    | some j =>
      refine .head (cur1 := cs) (pc1 := .subRd j) (by simp [pcStep]) ?_
      refine .head (cur1 := cs) (pc1 := .subWr j (cs.getD j 0)) (by simp [pcStep]) ?_
      exact .head (by simp [pcStep, Infos.total]) (.refl _ _)

/-! ## Interleaved, they do not -/

/-- Everybody moves once, in order: the first `m` callers go from `p` to `q` while the weights follow `g`. -/
theorem sweep (ws : List Nat) (m : Nat) (g : Nat → List Int) (p q : PC)
    (hs : ∀ k, k < m → pcStep ws (g k) p = some (g (k + 1), q)) :
    Reach ws ⟨g 0, fun t => if t < m then p else .idle⟩ ⟨g m, fun t => if t < m then q else .idle⟩ := by
  have : ∀ k, k ≤ m → Reach ws ⟨g 0, fun t => if t < m then p else .idle⟩
      ⟨g k, fun t => if t < m then (if t < k then q else p) else .idle⟩ := by
    intro k
    induction k with
    | zero => intro _; simp only [Nat.not_lt_zero, if_false]; exact .refl _
    | succ k ih =>
      intro hk
      refine .tail k (ih (by omega)) ?_
      simp only [step, show k < m by omega, if_true, Nat.lt_irrefl, if_false, hs k (by omega), Option.map_some]
      congr 2
      funext t
      by_cases e : t = k
      · subst e; simp [upd, show t < m by omega]
      · simp only [upd_ne _ _ e]
        by_cases h1 : t < m
        · by_cases h2 : t < k
          · simp [h1, h2, show t < k + 1 by omega]
          · simp [h1, h2, show ¬ t < k + 1 by omega]
        · simp [h1]
  have h := this m (Nat.le_refl _)
  have e : (fun t => if t < m then (if t < m then q else p) else PC.idle) =
      (fun t => if t < m then q else PC.idle) := by
    funext t
    by_cases h : t < m <;> simp [h]
  rw [e] at h
  exact h

/-- **C34, refutation.**  One healthy endpoint of weight 1.  For every `N` there is an execution in which `N + 2`
callers each select it successfully, and after which the next `N` calls — made one after the other, nobody else
around — all fail although the list is not empty. -/
theorem C34_concurrent_next_breaks (N : Nat) (e : Endpoint) :
    ∃ c, Reach [1] (start [0]) c ∧ (∀ t, t < N + 2 → c.pc t = .done (some 0)) ∧
      ∀ k, k < N → ((Infos.mk [1] c.cur [e]).nexts k).1.next.2 = (.err, none) := by
  refine ⟨⟨[-((N + 1 : Nat) : Int)], fun t => if t < N + 2 then .done (some 0) else .idle⟩, ?_, ?_, ?_⟩
  · have s0 : start [0] = ⟨[0], fun t => if t < N + 2 then .idle else .idle⟩ := by
      simp [start]
    rw [s0]
    have h1 := sweep [1] (N + 2) (fun _ => [0]) .idle (.rd 0 (-1) none) (by intro k _; simp [pcStep])
    have h2 := sweep [1] (N + 2) (fun _ => [0]) (.rd 0 (-1) none) (.wr 0 0 (-1) none) (by intro k _; simp [pcStep])
    have h3 := sweep [1] (N + 2) (fun k => if k = 0 then [0] else [1]) (.wr 0 0 (-1) none) (.rd 1 1 (some 0)) (by
      intro k _
      by_cases hk : k = 0 <;> simp [pcStep, hk])
    have h4 := sweep [1] (N + 2) (fun _ => [1]) (.rd 1 1 (some 0)) (.subRd 0) (by intro k _; simp [pcStep])
    -- the subtractions go one caller after the other
    have h5 : ∀ k, k ≤ N + 2 → Reach [1] ⟨[1], fun t => if t < N + 2 then .subRd 0 else .idle⟩
        ⟨[1 - (k : Int)], fun t => if t < N + 2 then (if t < k then .done (some 0) else .subRd 0) else .idle⟩ := by
      intro k
      induction k with
      | zero => intro _; simp only [Nat.not_lt_zero, if_false]; exact .refl _
      | succ k ih =>
        intro hk
        refine .tail k (.tail k (ih (by omega)) (by
          simp only [step, show k < N + 2 by omega, if_true, Nat.lt_irrefl, if_false, pcStep, Option.map_some]
          rfl)) ?_
        simp only [step, upd_same, pcStep, Option.map_some]
        congr 2
        · simp only [List.getD_cons_zero, List.set_cons_zero, List.sum_cons, List.sum_nil]
          congr 1
          omega
        · funext t
          by_cases e : t = k
          · subst e; simp [upd, show t < N + 2 by omega]
          · simp only [upd_ne _ _ e]
            by_cases h1 : t < N + 2
            · by_cases h2 : t < k
              · simp [h1, h2, show t < k + 1 by omega]
              · simp [h1, h2, show ¬ t < k + 1 by omega]
            · simp [h1]
    have h5' := h5 (N + 2) (Nat.le_refl _)
    have e5 : (fun t => if t < N + 2 then (if t < N + 2 then PC.done (some 0) else .subRd 0) else .idle) =
        (fun t => if t < N + 2 then PC.done (some 0) else .idle) := by
      funext t
      by_cases h : t < N + 2 <;> simp [h]
    rw [e5] at h5'
    have e6 : [1 - ((N + 2 : Nat) : Int)] = [-((N + 1 : Nat) : Int)] := by
      have : (1 - ((N + 2 : Nat) : Int)) = -((N + 1 : Nat) : Int) := by omega
      rw [this]
    rw [e6] at h5'
    simp only [if_true, Nat.add_eq_zero_iff, show ¬ ((2 : Nat) = 0) by omega, and_false, if_false] at h3
    exact (((h1.trans h2).trans h3).trans h4).trans h5'
  · intro t ht; simp [ht]
  · -- a failing call only adds one
    have one : ∀ v : Int, v < -1 → (Infos.mk [1] [v] [e]).next = (⟨[1], [v + 1], [e]⟩, .err, none) := by
      intro v hv
      simp only [Infos.next, List.length_cons, List.length_nil, scan]
      have : ¬ (v + ((1 : Nat) : Int) > -1) := by omega
      simp only [this, if_false]
      rfl
    have runs : ∀ (k : Nat) (v : Int), v + k < -1 → ((Infos.mk [1] [v] [e]).nexts k).1 = ⟨[1], [v + k], [e]⟩ := by
      intro k
      induction k with
      | zero => intro v _; simp [Infos.nexts]
      | succ k ih =>
        intro v hv
        simp only [Infos.nexts, one v (by omega)]
        rw [ih (v + 1) (by omega)]
        congr 2
        omega
    intro k hk
    rw [runs k (-((N + 1 : Nat) : Int)) (by omega), one (-((N + 1 : Nat) : Int) + k) (by omega)]

end Verif.LB.WRR.Race
