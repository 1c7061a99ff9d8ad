import Verif.Overload.HighPct
import Verif.Overload.PriorityProps

/-!
# C108, C109: limits of concurrency by high percentiles
-/

namespace Verif.Overload

/-! ## Measures -/

/-- The largest of some numbers and 0. -/
def top (vs : List Rat) : Rat := vs.foldl (fun a v => if v < a then a else v) 0

/-- The states after some samples. -/
def MaxN.run (n : Nat) (m : MaxN) : List Rat → MaxN × List (Bool × Rat)
  | [] => (m, [])
  | v :: vs =>
    let r := m.sample n v
    let t := MaxN.run n r.1 vs
    (t.1, r.2 :: t.2)

theorem run_part {n : Nat} {m : MaxN} {vs : List Rat} (h : m.times + vs.length < n) :
    (m.run n vs).1 = ⟨m.times + vs.length, vs.foldl (fun a v => if v < a then a else v) m.max⟩ ∧ ∀ x ∈ (m.run n vs).2, x.1 = false := by
  induction vs generalizing m with
  | nil => exact ⟨rfl, by intro x hx; cases hx⟩
  | cons v vs ih =>
    have hl : m.times + (vs.length + 1) < n := h
    have hs : m.sample n v = (⟨m.times + 1, if v < m.max then m.max else v⟩, false, if v < m.max then m.max else v) := by
      unfold MaxN.sample; dsimp only; rw [if_neg (by omega)]
    obtain ⟨h1, h2⟩ := ih (m := ⟨m.times + 1, if v < m.max then m.max else v⟩) (by dsimp only; omega)
    unfold MaxN.run
    rw [hs]
    dsimp only
    refine ⟨?_, ?_⟩
    · rw [h1, List.foldl_cons, List.length_cons]; congr 1; dsimp only; omega
    · intro x hx
      rcases List.mem_cons.1 hx with hx | hx
      · rw [hx]
      · exact h2 x hx

/-- **C108a.** After each period of `n` samples, and only then, `MaxInEveryN` reports the largest of them, and starts again. -/
theorem C108_max {n : Nat} {vs : List Rat} (v : Rat) (hn : vs.length + 1 = n) :
    (∀ x ∈ (MaxN.init.run n vs).2, x.1 = false) ∧ ((MaxN.init.run n vs).1).sample n v = (.init, true, top (vs ++ [v])) := by
  obtain ⟨h1, h2⟩ := run_part (n := n) (m := .init) (vs := vs) (by show 0 + vs.length < n; omega)
  refine ⟨h2, ?_⟩
  rw [h1]
  unfold MaxN.sample
  dsimp only
  rw [if_pos (by show n ≤ 0 + vs.length + 1; omega)]
  unfold top
  rw [List.foldl_append]
  rfl

example : (MaxN.init.run 3 [5, 2, 7, 1, 0, 3]).2 = [(false, 5), (false, 5), (true, 7), (false, 1), (false, 1), (true, 3)] := by decide +kernel

/-- **C108b.** A moving average lies between its old value and the sample. -/
theorem C108_ema {inc dec val x : Rat} (h1 : 0 ≤ inc ∧ inc ≤ 1) (h2 : 0 ≤ dec ∧ dec ≤ 1) : min val x ≤ emaUpdate inc dec val x ∧ emaUpdate inc dec val x ≤ max val x := by
  unfold emaUpdate
  dsimp only
  by_cases h : val ≤ x
  · rw [if_pos h]
    have a1 := Rat.mul_nonneg (show 0 ≤ x - val by grind) h1.1
    have a2 := Rat.mul_nonneg (show 0 ≤ x - val by grind) (show 0 ≤ 1 - inc by grind)
    constructor <;> grind
  · rw [if_neg h]
    have a1 := Rat.mul_nonneg (show 0 ≤ val - x by grind) h2.1
    have a2 := Rat.mul_nonneg (show 0 ≤ val - x by grind) (show 0 ≤ 1 - dec by grind)
    constructor <;> grind

/-! ## Estimates -/

theorem worst_spec {i : Nat} {best : Rat} {crit : Option Nat} {ss : List Strategy} :
    best ≤ (worst i best crit ss).1 ∧ (∀ s ∈ ss, s.measured / s.expected ≤ (worst i best crit ss).1) ∧
      ((worst i best crit ss) = (best, crit) ∨ ∃ k s, ss[k]? = some s ∧ worst i best crit ss = (s.measured / s.expected, some (i + k)) ∧ best < s.measured / s.expected) := by
  induction ss generalizing i best crit with
  | nil => exact ⟨Rat.le_refl, (by intro s hs; cases hs), .inl rfl⟩
  | cons s ss ih =>
    unfold worst
    split
    · rename_i hlt
      obtain ⟨h1, h2, h3⟩ := ih (i := i + 1) (best := s.measured / s.expected) (crit := some i)
      refine ⟨by grind, ?_, .inr ?_⟩
      · intro t ht
        rcases List.mem_cons.1 ht with ht | ht
        · rw [ht]; exact h1
        · exact h2 t ht
      · rcases h3 with h3 | ⟨k, t, g1, g2, g3⟩
        · exact ⟨0, s, rfl, by rw [h3]; rfl, hlt⟩
        · exact ⟨k + 1, t, by simpa using g1, by rw [g2]; congr 2; omega, by grind⟩
    · rename_i hlt
      obtain ⟨h1, h2, h3⟩ := ih (i := i + 1) (best := best) (crit := crit)
      refine ⟨h1, ?_, ?_⟩
      · intro t ht
        rcases List.mem_cons.1 ht with ht | ht
        · rw [ht]; grind
        · exact h2 t ht
      · rcases h3 with h3 | ⟨k, t, g1, g2, g3⟩
        · exact .inl h3
        · exact .inr ⟨k + 1, t, by simpa using g1, by rw [g2]; congr 2; omega, g3⟩

/-- **C108c.** An update leaves a limit of at least `min_max_concurrency`, an interval from 1 to 100 milliseconds and a window of at least `min_concurrency_window_size`. A strategy comes into
effect only if some measure is above nine tenths of what is expected, goes out of effect only if all are at most half of it, and is then one whose measure is the worst. -/
theorem C108_update {c : HCfg} {h h' : H} {ss : List Strategy} {succeeded costs interval : Nat} {secs size : Rat} (he : expire c h ss succeeded costs secs = .upd h' interval size) :
    c.minMax ≤ h'.max ∧ (1 ≤ interval ∧ interval ≤ 100) ∧ (c.minWin : Rat) ≤ size ∧
    (h.eff = none → h'.eff ≠ none → ∃ s ∈ ss, 9 / 10 < s.measured / s.expected) ∧
    (h.eff ≠ none → h'.eff = none → ∀ s ∈ ss, s.measured / s.expected ≤ 1 / 2) ∧
    (∀ i, h'.eff = some i → ∃ s, ss[i]? = some s ∧ 1 / 2 < s.measured / s.expected ∧ ∀ t ∈ ss, t.measured / t.expected ≤ s.measured / s.expected) := by
  unfold expire at he
  split at he
  · cases he
  · dsimp only at he
    split at he
    · cases he
    · cases he
      obtain ⟨w1, w2, w3⟩ := worst_spec (i := 0) (best := 1 / 2) (crit := none) (ss := ss)
      refine ⟨Nat.le_max_right _ _, ⟨by omega, by omega⟩, ?_, ?_, ?_, ?_⟩
      · split
        · exact Rat.le_refl
        · grind
      · intro h1 h2
        dsimp only at h2
        unfold newEff at h2
        rcases w3 with w3 | ⟨k, s, g1, g2, g3⟩
        · rw [w3] at h2
          rw [if_pos Rat.le_refl] at h2
          exact absurd rfl h2
        · rw [g2, if_neg (by grind)] at h2
          by_cases h3 : 9 / 10 < s.measured / s.expected
          · exact ⟨s, List.mem_of_getElem? g1, h3⟩
          · rw [if_neg (by simp [h3, h1])] at h2
            exact absurd h1 h2
      · intro h1 h2
        dsimp only at h2
        unfold newEff at h2
        by_cases h3 : (worst 0 (1 / 2) none ss).1 ≤ 1 / 2
        · intro s hs
          have := w2 s hs
          grind
        · rw [if_neg h3] at h2
          rcases w3 with w3 | ⟨k, s, g1, g2, g3⟩
          · rw [w3] at h3
            exact absurd Rat.le_refl h3
          · rw [if_pos (by simp [Option.isSome_iff_ne_none.2 h1]), g2] at h2
            cases h2
      · intro i h1
        dsimp only at h1
        unfold newEff at h1
        by_cases h3 : (worst 0 (1 / 2) none ss).1 ≤ 1 / 2
        · rw [if_pos h3] at h1; cases h1
        · rw [if_neg h3] at h1
          rcases w3 with w3 | ⟨k, s, g1, g2, g3⟩
          · rw [w3] at h3
            exact absurd Rat.le_refl h3
          · split at h1
            · rw [g2] at h1
              have hk : k = i := by simpa using h1
              rw [← hk]
              refine ⟨s, g1, g3, ?_⟩
              intro t ht
              have := w2 t ht
              rw [g2] at this
              exact this
            · rename_i hno
              rw [h1] at hno
              simp at hno

example : ∃ h i s, expire ⟨2, 10, true⟩ ⟨none, 0, 0, 0⟩ [⟨15, 3⟩, ⟨20, 19⟩] 2 10 (1 / 10) = .upd h i s ∧ h.eff = some 1 ∧ h.max = 10 := ⟨_, _, _, rfl, by decide +kernel, by decide +kernel⟩

/-! ## Concurrency -/

def w (f : Pc → Nat) (l : List (Bool × Pc)) : Nat := (l.map fun x => f x.2).sum

theorem w_set {f : Pc → Nat} {l : List (Bool × Pc)} {i : Nat} {b b' : Bool} {p p' : Pc} (h : l[i]? = some (b, p)) : w f (l.set i (b', p')) + f p = w f l + f p' := by
  induction l generalizing i with
  | nil => cases h
  | cons x l ih =>
    cases i with
    | zero =>
      have hx : x = (b, p) := by simpa using h
      subst hx
      simp [w]; omega
    | succ i =>
      have := ih (i := i) (by simpa using h)
      simp [w] at this ⊢
      omega

theorem w_app {f : Pc → Nat} {l : List (Bool × Pc)} {b : Bool} : w f (l ++ [(b, .idle)]) = w f l + f .idle := by
  simp [w]

theorem M.set_eq {m : M} {i : Nat} {b : Bool} {p q : Pc} (h : m.pc[i]? = some (b, p)) : m.set i q = { m with pc := m.pc.set i (b, q) } := by
  unfold M.set; rw [h]

theorem M.set_eqc {e : Bool} {mx : Nat} {k : Int} {l : List (Bool × Pc)} {i : Nat} {b : Bool} {p q : Pc} (h : l[i]? = some (b, p)) : (⟨e, mx, k, l⟩ : M).set i q = ⟨e, mx, k, l.set i (b, q)⟩ := by
  unfold M.set; dsimp only; rw [h]

/-- Requests that are counted. -/
def counted : Pc → Nat
  | .running => 1
  | .dec => 1
  | _ => 0

/-- Requests that have passed the check and are not yet counted. -/
def between : Pc → Nat
  | .inc => 1
  | _ => 0

theorem MReach.cur {c : HCfg} {m0 m : M} (h0 : m0.cur = w counted m0.pc) (h : MReach c m0 m) : m.cur = w counted m.pc := by
  induction h with
  | init => exact h0
  | @step m m' _ hs ih =>
    cases hs with
    | new high => dsimp only; rw [w_app]; exact ih
    | limit i high hp => rw [M.set_eq hp]; have := w_set (f := counted) (b' := high) (p' := .lim (if high then m.max * 2 else m.max)) hp; simp only [counted] at this; dsimp only; rw [ih]; omega
    | strategy i high k hp =>
      rw [M.set_eq hp]
      dsimp only; rw [ih]
      split
      · have := w_set (f := counted) (b' := high) (p' := .chk k) hp; simp only [counted] at this; omega
      · have := w_set (f := counted) (b' := high) (p' := .inc) hp; simp only [counted] at this; omega
    | check i high k hp =>
      rw [M.set_eq hp]
      dsimp only; rw [ih]
      split
      · have := w_set (f := counted) (b' := high) (p' := .refused) hp; simp only [counted] at this; omega
      · have := w_set (f := counted) (b' := high) (p' := .inc) hp; simp only [counted] at this; omega
    | inc i high hp => rw [M.set_eqc hp]; have := w_set (f := counted) (b' := high) (p' := .running) hp; simp only [counted] at this; dsimp only; rw [ih]; omega
    | read i high hp =>
      rw [M.set_eq hp]
      dsimp only
      split
      · have := w_set (f := counted) (b' := high) (p' := .dec) hp; simp only [counted] at this; rw [ih]; omega
      · rename_i hc
        have := w_set (f := counted) (b' := high) (p' := .done) hp; simp only [counted] at this
        omega
    | dec i high hp => rw [M.set_eqc hp]; have := w_set (f := counted) (b' := high) (p' := .done) hp; simp only [counted] at this; dsimp only; rw [ih]; omega
    | storeEff b => exact ih
    | storeMax k hk => exact ih

/-- **C108d.** The counter is the number of requests that are running: it never gets negative, and every request that ends is taken off, whatever the order of the steps. -/
theorem C108_count {c : HCfg} {m : M} (h : MReach c .init m) :
    m.cur = w counted m.pc ∧ ∀ (i : Nat) (high : Bool), m.pc[i]? = some (high, .running) → 0 < m.cur := by
  have hc := MReach.cur (m0 := .init) rfl h
  refine ⟨hc, ?_⟩
  intro i high hp
  have := w_set (f := counted) (b' := high) (p' := .done) hp
  simp only [counted] at this
  omega

/-- Runs during which a strategy is in effect, the limits are at most `K` and at most `T` requests at a time are between the check and the counter. -/
inductive Held (c : HCfg) (K T : Nat) (m0 : M) : M → Prop
  | init (hm : m0.max * 2 ≤ K) : Held c K T m0 m0
  | step {m m' : M} (h : Held c K T m0 m) (hs : MStep c m m') (he : m'.eff = true) (hm : m'.max * 2 ≤ K) (ht : w between m'.pc ≤ T) : Held c K T m0 m'

/-- **C108e.** While a strategy is in effect, no more requests run than the limit allows and the number of those that pass the check at the same time. -/
theorem C108_bound {c : HCfg} {K T : Nat} {m0 m : M} (h0 : m0.cur = 0) (hp0 : m0.pc = []) (he0 : m0.eff = true) (h : Held c K T m0 m) : m.cur + w between m.pc ≤ K + T := by
  have key : m.eff = true ∧ m.max * 2 ≤ K ∧ (∀ (i : Nat) (b : Bool) (k : Nat), m.pc[i]? = some (b, .lim k) ∨ m.pc[i]? = some (b, .chk k) → k ≤ K) ∧ m.cur + w between m.pc ≤ K + T := by
    induction h with
    | init hm => exact ⟨he0, hm, (by rw [hp0]; intro i b k hx; simp at hx), by rw [h0, hp0]; simp [w]; omega⟩
    | @step m m' _ hs he hm ht ih =>
      obtain ⟨i1, i2, i3, i4⟩ := ih
      have setl : ∀ {i : Nat} {b : Bool} {p q : Pc}, m.pc[i]? = some (b, p) → (∀ k, q = .lim k ∨ q = .chk k → k ≤ K) →
          ∀ (j : Nat) (b' : Bool) (k : Nat), (m.pc.set i (b, q))[j]? = some (b', .lim k) ∨ (m.pc.set i (b, q))[j]? = some (b', .chk k) → k ≤ K := by
        intro i b p q hp hq j b' k hx
        rw [List.getElem?_set] at hx
        split at hx
        · split at hx
          · apply hq k
            rcases hx with hx | hx <;> simp at hx <;> simp [hx]
          · simp at hx
        · exact i3 j b' k hx
      refine ⟨he, hm, ?_, ?_⟩
      · cases hs with
        | new high =>
          dsimp only
          intro j b' k hx
          rw [List.getElem?_append] at hx
          split at hx
          · exact i3 j b' k hx
          · exfalso
            rcases hx with hx | hx <;> (rw [List.getElem?_singleton] at hx; split at hx <;> simp at hx)
        | limit i high hp => rw [M.set_eq hp]; refine setl hp ?_; intro k hk; simp at hk; rw [← hk]; split <;> omega
        | strategy i high k0 hp => rw [M.set_eq hp]; refine setl hp ?_; intro k hk; rw [i1] at hk; simp at hk; rw [← hk]; exact i3 i high k0 (.inl hp)
        | check i high k0 hp => rw [M.set_eq hp]; refine setl hp ?_; intro k hk; split at hk <;> simp at hk
        | inc i high hp => rw [M.set_eqc hp]; refine setl hp ?_; intro k hk; simp at hk
        | read i high hp => rw [M.set_eq hp]; refine setl hp ?_; intro k hk; split at hk <;> simp at hk
        | dec i high hp => rw [M.set_eqc hp]; refine setl hp ?_; intro k hk; simp at hk
        | storeEff b => exact i3
        | storeMax k hk => exact i3
      · cases hs with
        | new high => dsimp only; rw [w_app]; simpa [between] using i4
        | limit i high hp => rw [M.set_eq hp]; have := w_set (f := between) (b' := high) (p' := .lim (if high then m.max * 2 else m.max)) hp; simp only [between] at this; dsimp only; omega
        | strategy i high k hp => rw [M.set_eq hp]; have := w_set (f := between) (b' := high) (p' := .chk k) hp; simp only [between] at this; dsimp only; rw [i1]; simp only [if_true]; omega
        | check i high k hp =>
          rw [M.set_eq hp] at ht ⊢
          dsimp only at ht ⊢
          have hk := i3 i high k (.inr hp)
          split at ht
          · rename_i hlt
            rw [if_pos hlt]
            have := w_set (f := between) (b' := high) (p' := .refused) hp; simp only [between] at this; omega
          · rename_i hlt
            rw [if_neg hlt]
            omega
        | inc i high hp => rw [M.set_eqc hp]; have := w_set (f := between) (b' := high) (p' := .running) hp; simp only [between] at this; dsimp only; omega
        | read i high hp =>
          rw [M.set_eq hp]
          dsimp only
          split
          · have := w_set (f := between) (b' := high) (p' := .dec) hp; simp only [between] at this; omega
          · have := w_set (f := between) (b' := high) (p' := .done) hp; simp only [between] at this; omega
        | dec i high hp => rw [M.set_eqc hp]; have := w_set (f := between) (b' := high) (p' := .done) hp; simp only [between] at this; dsimp only; omega
        | storeEff b => exact i4
        | storeMax k hk => exact i4
  exact key.2.2.2

/-- **C108f.** After the first estimate a request is refused only if more than `min_max_concurrency` requests are running. -/
theorem C108_minimum {c : HCfg} {m0 m m' : M} (hm0 : c.minMax ≤ m0.max) (hp0 : m0.pc = []) (h : MReach c m0 m) (hs : MStep c m m') {i : Nat} {b : Bool} (hr : m'.pc[i]? = some (b, .refused))
    (hn : m.pc[i]? ≠ some (b, .refused)) : (c.minMax : Int) < m.cur := by
  have key : c.minMax ≤ m.max ∧ ∀ (i : Nat) (b : Bool) (k : Nat), m.pc[i]? = some (b, .lim k) ∨ m.pc[i]? = some (b, .chk k) → c.minMax ≤ k := by
    clear hs hr hn
    induction h with
    | init => exact ⟨hm0, by rw [hp0]; intro i b k hx; simp at hx⟩
    | @step m m' _ hs ih =>
      obtain ⟨i2, i3⟩ := ih
      have setl : ∀ {i : Nat} {b : Bool} {p q : Pc}, m.pc[i]? = some (b, p) → (∀ k, q = .lim k ∨ q = .chk k → c.minMax ≤ k) →
          ∀ (j : Nat) (b' : Bool) (k : Nat), (m.pc.set i (b, q))[j]? = some (b', .lim k) ∨ (m.pc.set i (b, q))[j]? = some (b', .chk k) → c.minMax ≤ k := by
        intro i b p q hp hq j b' k hx
        rw [List.getElem?_set] at hx
        split at hx
        · split at hx
          · apply hq k
            rcases hx with hx | hx <;> simp at hx <;> simp [hx]
          · simp at hx
        · exact i3 j b' k hx
      cases hs with
      | new high =>
        refine ⟨i2, ?_⟩
        dsimp only
        intro j b' k hx
        rw [List.getElem?_append] at hx
        split at hx
        · exact i3 j b' k hx
        · exfalso
          rcases hx with hx | hx <;> (rw [List.getElem?_singleton] at hx; split at hx <;> simp at hx)
      | limit i high hp => rw [M.set_eq hp]; refine ⟨i2, setl hp ?_⟩; intro k hk; simp at hk; rw [← hk]; split <;> omega
      | strategy i high k0 hp =>
        rw [M.set_eq hp]; refine ⟨i2, setl hp ?_⟩; intro k hk
        split at hk
        · simp at hk; rw [← hk]; exact i3 i high k0 (.inl hp)
        · simp at hk
      | check i high k0 hp => rw [M.set_eq hp]; refine ⟨i2, setl hp ?_⟩; intro k hk; split at hk <;> simp at hk
      | inc i high hp => rw [M.set_eqc hp]; refine ⟨i2, setl hp ?_⟩; intro k hk; simp at hk
      | read i high hp => rw [M.set_eq hp]; refine ⟨i2, setl hp ?_⟩; intro k hk; split at hk <;> simp at hk
      | dec i high hp => rw [M.set_eqc hp]; refine ⟨i2, setl hp ?_⟩; intro k hk; simp at hk
      | storeEff b => exact ⟨i2, i3⟩
      | storeMax k hk => exact ⟨hk, i3⟩
  obtain ⟨-, i3⟩ := key
  have other : ∀ {j : Nat} {bj : Bool} {q : Pc}, (m.pc.set j (bj, q))[i]? = some (b, .refused) → q ≠ .refused → False := by
    intro j bj q hx hq
    rw [List.getElem?_set] at hx
    split at hx
    · split at hx
      · simp at hx; exact hq hx.2
      · cases hx
    · exact hn hx
  cases hs with
  | new high =>
    exfalso
    dsimp only at hr
    rw [List.getElem?_append] at hr
    split at hr
    · exact hn hr
    · rw [List.getElem?_singleton] at hr; split at hr <;> simp at hr
  | limit j high hp => rw [M.set_eq hp] at hr; exact (other hr (by intro e; cases e)).elim
  | strategy j high k0 hp => rw [M.set_eq hp] at hr; exact (other hr (by intro e; split at e <;> cases e)).elim
  | check j high k0 hp =>
    rw [M.set_eq hp] at hr
    by_cases hlt : (k0 : Int) < m.cur
    · have := i3 j high k0 (.inr hp); omega
    · rw [if_neg hlt] at hr; exact (other hr (by intro e; cases e)).elim
  | inc j high hp => rw [M.set_eqc hp] at hr; exact (other hr (by intro e; cases e)).elim
  | read j high hp => rw [M.set_eq hp] at hr; exact (other hr (by intro e; split at e <;> cases e)).elim
  | dec j high hp => rw [M.set_eqc hp] at hr; exact (other hr (by intro e; cases e)).elim
  | storeEff b => exact absurd hr hn
  | storeMax k hk => exact absurd hr hn

/-! ## Refutations -/

/-- **C109a.** The first update puts a strategy into effect before it stores a limit: a request is refused though one request is running and ten are guaranteed. -/
theorem C109_first_partial : ∃ m, MReach ⟨200, 10, true⟩ .init m ∧ m.cur = 1 ∧ m.pc[1]? = some (false, .refused) := by
  have h := (MReach.init (c := ⟨200, 10, true⟩) (m0 := .init)).step (.new false)
  have h := h.step (.limit 0 false rfl)
  have h := h.step (.strategy 0 false 0 rfl)
  have h := h.step (.inc 0 false rfl)
  have h := h.step (.new false)
  have h := h.step (.storeEff true)
  have h := h.step (.limit 1 false rfl)
  have h := h.step (.strategy 1 false 0 rfl)
  have h := h.step (.check 1 false 0 rfl)
  exact ⟨_, h, rfl, rfl⟩

/-- **C109b.** The check is `>`, not `>=`: with a limit of 1 two requests run, one after the other has passed. -/
theorem C109_off_by_one_partial : ∃ m, MReach ⟨200, 1, true⟩ ⟨true, 1, 0, []⟩ m ∧ m.max = 1 ∧ m.cur = 2 := by
  have h := (MReach.init (c := ⟨200, 1, true⟩) (m0 := ⟨true, 1, 0, []⟩)).step (.new false)
  have h := h.step (.limit 0 false rfl)
  have h := h.step (.strategy 0 false 1 rfl)
  have h := h.step (.check 0 false 1 rfl)
  have h := h.step (.inc 0 false rfl)
  have h := h.step (.new false)
  have h := h.step (.limit 1 false rfl)
  have h := h.step (.strategy 1 false 1 rfl)
  have h := h.step (.check 1 false 1 rfl)
  have h := h.step (.inc 1 false rfl)
  exact ⟨_, h, rfl, rfl⟩

/-- **C109c.** With reports (the default) and no measure configured (both expected delays 0) every update reads the largest element of an empty vector. -/
theorem C109_report_partial (c : HCfg) (h : H) (succeeded costs : Nat) (secs : Rat) (hr : c.report = true) (hn : c.minWin ≤ succeeded) : expire c h [] succeeded costs secs = .ub := by
  unfold expire
  rw [if_neg (by omega)]
  simp [hr]

end Verif.Overload
