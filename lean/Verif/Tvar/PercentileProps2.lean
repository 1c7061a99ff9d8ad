import Verif.Tvar.PercentileProps

/-!
# Percentiles: updates and resets

No assertion fails; no latency is lost; what is counted twice is what a `Reset` finds in the buffer of a thread that has just merged it.
-/

namespace Verif.Tvar.Percentile

/-- the values of interval `i` -/
abbrev sel (i : Nat) (h : List Nat) : List Nat := h.filter (fun y => index y = some i)

/-- A group stands for its values. -/
structure GRep (cap : Nat) (g : Grp) : Prop where
  total : g.total = g.hist.length
  range : ∀ x, x ∈ g.hist → x < 2 ^ 32 ∧ ∃ i, index x = some i
  rep : ∀ i, i < 32 → Rep cap (g.ivl i) (sel i g.hist)
  raw : ∀ i, i < 32 → (g.ivl i).sorted = false

/-- a buffer of a thread: all its samples are there -/
structure LRep (g : Grp) : Prop where
  rep : GRep localCap g
  few : ∀ i, i < 32 → (sel i g.hist).length ≤ localCap

theorem grep_empty (cap : Nat) : GRep cap Grp.empty :=
  ⟨rfl, by simp [Grp.empty], fun i _ => ⟨rfl, by simp [Grp.empty, Ivl.empty], ⟨[], by simp [Grp.empty, Ivl.empty]⟩⟩, fun i _ => rfl⟩

theorem lrep_empty : LRep Grp.empty := ⟨grep_empty _, by simp [Grp.empty]⟩

theorem LRep.wide {g : Grp} (h : LRep g) {i : Nat} (hi : i < 32) : Rep globalCap (g.ivl i) (sel i g.hist) := by
  have f := h.few i hi
  obtain ⟨a, b, c⟩ := h.rep.rep i hi
  refine ⟨a, ?_, c⟩
  simp only [globalCap, localCap] at *
  omega

theorem gone_ok {a b : Grp} (ha : GRep globalCap a) (hb : LRep b) (r : Rnd) {i : Nat} (hi : i < 32) :
    ∃ c, gone globalCap r a b i = some c ∧ Rep globalCap c (sel i (a.hist ++ b.hist)) ∧ c.sorted = false := by
  unfold gone
  simp only [sel, List.filter_append]
  have hw := hb.wide hi
  split
  · rename_i h0
    have : sel i b.hist = [] := by
      have := hw.len
      rw [h0] at this
      simp only [globalCap, List.length_nil] at this
      exact List.length_eq_zero_iff.mp (by omega)
    simp only [sel] at this
    rw [this, List.append_nil]
    exact ⟨_, rfl, ha.rep i hi, ha.raw i hi⟩
  · obtain ⟨c, h1, h2, h3⟩ := C151_merge (ha.rep i hi) hw (Nat.le_trans (hb.few i hi) (by decide)) (r.r0 i) (r.r1 i) (r.r2 i)
    exact ⟨c, h1, h2, by rw [h3, ha.raw i hi]⟩

theorem gmerge_ok {a b : Grp} (ha : GRep globalCap a) (hb : LRep b) (r : Rnd) :
    ∃ g, gmerge globalCap r a b = some g ∧ GRep globalCap g ∧ g.hist = a.hist ++ b.hist := by
  unfold gmerge
  rw [if_pos]
  · refine ⟨_, rfl, ⟨?_, ?_, ?_, ?_⟩, rfl⟩
    · simp [ha.total, hb.rep.total]
    · intro x hx
      rcases List.mem_append.mp hx with h | h
      · exact ha.range x h
      · exact hb.rep.range x h
    · intro i hi
      obtain ⟨c, h1, h2, h3⟩ := gone_ok ha hb r hi
      simp only [hi, if_true, h1, Option.getD_some]
      exact h2
    · intro i hi
      obtain ⟨c, h1, h2, h3⟩ := gone_ok ha hb r hi
      simp only [hi, if_true, h1, Option.getD_some]
      exact h3
  · rw [List.all_eq_true]
    intro i hi
    obtain ⟨c, h1, -, -⟩ := gone_ok ha hb r (List.mem_range.mp hi)
    rw [h1]; rfl

theorem give_ok {a b : Grp} (ha : GRep globalCap a) (hb : LRep b) (r : Rnd) {i : Nat} (hi : i < 32) :
    ∃ g, give r i b a = some g ∧ GRep globalCap g ∧ g.hist = a.hist ++ sel i b.hist := by
  obtain ⟨c, h1, h2, h3⟩ := C151_merge (ha.rep i hi) (hb.wide hi) (Nat.le_trans (hb.few i hi) (by decide)) (r.r0 i) (r.r1 i) (r.r2 i)
  unfold give
  rw [h1]
  refine ⟨_, rfl, ⟨?_, ?_, ?_, ?_⟩, rfl⟩
  · simp [ha.total, (hb.rep.rep i hi).added]
  · intro x hx
    rcases List.mem_append.mp hx with h | h
    · exact ha.range x h
    · exact hb.rep.range x (List.mem_filter.mp h).1
  · intro j hj
    simp only [sel, List.filter_append, List.filter_filter]
    by_cases hij : j = i
    · subst hij
      simpa [upd] using h2
    · have : ∀ l : List Nat, l.filter (fun y => decide (index y = some j) && decide (index y = some i)) = [] := by
        intro l; simp only [List.filter_eq_nil_iff]; intro y _; simp; intro e; rw [e]; simpa using hij
      rw [this, List.append_nil, upd_ne _ _ hij]
      exact ha.rep j hj
  · intro j hj
    by_cases hij : j = i
    · subst hij; simp only [upd_same]; rw [h3, ha.raw j hj]
    · simp only [upd_ne _ _ hij]; exact ha.raw j hj

theorem put_ok {g : Grp} (h : LRep g) {x i : Nat} (hx : x < 2 ^ 32) (hi : index x = some i) (hf : (g.ivl i).samples.length ≠ localCap) : LRep (put x i g) := by
  have hi32 := (C151_index hx hi).1
  have hl : (sel i g.hist).length < localCap := by
    have := (h.rep.rep i hi32).len; have := h.few i hi32; omega
  have hsel : ∀ j, sel j (g.hist ++ [x]) = sel j g.hist ++ if j = i then [x] else [] := by
    intro j
    simp only [sel, List.filter_append]
    by_cases hij : j = i
    · subst hij; simp [List.filter_cons, hi]
    · rw [if_neg hij]
      have : ¬ i = j := fun e => hij e.symm
      simp [List.filter_cons, hi, this]
  refine ⟨⟨?_, ?_, ?_, ?_⟩, ?_⟩
  · simp [put, h.rep.total]
  · intro y hy
    rcases List.mem_append.mp hy with hy | hy
    · exact h.rep.range y hy
    · rw [List.mem_singleton.mp hy]; exact ⟨hx, i, hi⟩
  · intro j hj
    simp only [put, hsel]
    by_cases hij : j = i
    · subst hij
      obtain ⟨a, b, c⟩ := h.rep.rep j hj
      have : (g.ivl j).samples.length < localCap := by omega
      simp only [upd_same, add32, if_neg (Nat.not_le.mpr this), if_true]
      exact ⟨by simp [a], by simp; omega, c.append (Part.refl _)⟩
    · simp only [upd_ne _ _ hij, if_neg hij, List.append_nil]
      exact h.rep.rep j hj
  · intro j hj
    simp only [put]
    by_cases hij : j = i
    · subst hij; simp only [upd_same, add32]; split <;> exact h.rep.raw j hj
    · simp only [upd_ne _ _ hij]; exact h.rep.raw j hj
  · intro j hj
    simp only [put, hsel]
    split
    · rename_i hij; subst hij; simp; omega
    · simpa using h.few j hj

theorem wipe_ok {g : Grp} (h : LRep g) {i : Nat} (hi : i < 32) : LRep (wipe i g) ∧ ((wipe i g).ivl i).samples.length ≠ localCap := by
  have hsel : ∀ j, sel j (g.hist.filter (fun y => index y ≠ some i)) = if j = i then [] else sel j g.hist := by
    intro j
    simp only [sel, List.filter_filter]
    split
    · rename_i e; subst e; simp
    · rename_i e
      apply List.filter_congr
      intro y _
      by_cases hy : index y = some j
      · simp [hy, e]
      · simp [hy]
  have hlen : ∀ l : List Nat, (l.filter (fun y => index y ≠ some i)).length + (sel i l).length = l.length := by
    intro l
    induction l with
    | nil => rfl
    | cons a l ih =>
      simp only [sel, List.filter_cons] at *
      by_cases ha : index a = some i <;> simp [ha] at * <;> omega
  refine ⟨⟨⟨?_, ?_, ?_, ?_⟩, ?_⟩, ?_⟩
  · have := hlen g.hist
    simp only [wipe, h.rep.total, (h.rep.rep i hi).added]
    omega
  · intro x hx
    exact h.rep.range x (List.mem_filter.mp hx).1
  · intro j hj
    simp only [wipe, hsel]
    by_cases hij : j = i
    · subst hij; simp only [upd_same, if_true]; exact ⟨rfl, by simp [Ivl.empty], ⟨[], by simp [Ivl.empty]⟩⟩
    · simp only [upd_ne _ _ hij, if_neg hij]; exact h.rep.rep j hj
  · intro j hj
    by_cases hij : j = i
    · subst hij; simp [wipe, Ivl.empty]
    · simp only [wipe, upd_ne _ _ hij]; exact h.rep.raw j hj
  · intro j hj
    simp only [wipe, hsel]
    split
    · simp
    · exact h.few j hj
  · simp [wipe, Ivl.empty, localCap]

/-! ## Conservation -/

/-- values of a buffer that are not in the variable yet -/
def own (w : W) (g : Grp) : List Nat :=
  match w with
  | .merged _ i => g.hist.filter (fun y => index y ≠ some i)
  | _ => g.hist

/-- Everything that is counted: in results, by a `Reset` in progress, in the variable, in the buffers. -/
def counted (n : Nat) (s : S) : List Nat :=
  s.outs.flatMap Grp.hist ++ (match s.hold with | none => [] | some a => a.hist) ++ s.exited.hist ++ (List.range n).flatMap fun t => own (s.wk t) (s.loc t)

theorem own_twice (w : W) (g : Grp) (y : Nat) : g.hist.count y = (own w g).count y + (twice w g).count y := by
  cases w with
  | merged x i =>
    simp only [own, twice]
    generalize g.hist = l
    induction l with
    | nil => rfl
    | cons a l ih =>
      simp only [List.filter_cons, List.count_cons]
      by_cases ha : index a = some i <;> simp [ha, List.count_cons] at * <;> omega
  | idle => simp [own, twice]
  | full x i => simp [own, twice]

theorem sum_one {n t : Nat} (ht : t < n) (f f' : Nat → Nat) (h : ∀ u, u ≠ t → f u = f' u) :
    ((List.range n).map f).sum + f' t = ((List.range n).map f').sum + f t := by
  induction n with
  | zero => omega
  | succ n ih =>
    simp only [List.range_succ, List.map_append, List.sum_append, List.map_cons, List.map_nil, List.sum_cons, List.sum_nil]
    by_cases htn : t = n
    · subst htn
      have : (List.range t).map f = (List.range t).map f' := List.map_congr_left fun u hu => h u (by have := List.mem_range.mp hu; omega)
      rw [this]; omega
    · have := ih (by omega)
      have := h n (by omega)
      omega

/-- the sum over the threads -/
def owned (n : Nat) (s : S) (y : Nat) : Nat := ((List.range n).map fun t => (own (s.wk t) (s.loc t)).count y).sum

theorem count_counted (n : Nat) (s : S) (y : Nat) :
    (counted n s).count y = (s.outs.flatMap Grp.hist).count y + (match s.hold with | none => 0 | some a => a.hist.count y) + s.exited.hist.count y + owned n s y := by
  unfold counted owned
  rw [List.count_append, List.count_append, List.count_append, List.count_flatMap (l := List.range n)]
  cases s.hold <;> simp [Function.comp_def]

theorem owned_one {n t : Nat} (ht : t < n) {s s' : S} (y : Nat) (h : ∀ u, u ≠ t → s'.wk u = s.wk u ∧ s'.loc u = s.loc u) :
    owned n s' y + (own (s.wk t) (s.loc t)).count y = owned n s y + (own (s'.wk t) (s'.loc t)).count y := by
  apply sum_one ht
  intro u hu
  rw [(h u hu).1, (h u hu).2]

structure Inv (n : Nat) (s : S) : Prop where
  ok : s.failed = false
  ex : GRep globalCap s.exited
  lo : ∀ t, LRep (s.loc t)
  ho : ∀ a, s.hold = some a → GRep globalCap a
  ou : ∀ a, a ∈ s.outs → GRep globalCap a
  fu : ∀ t x i, s.wk t = .full x i ∨ s.wk t = .merged x i → x < 2 ^ 32 ∧ index x = some i
  cnt : ∀ y, s.log.count y + s.dup.count y = (counted n s).count y

theorem wk_upd {s : S} {t : Nat} {w : W} {u x i : Nat} (h : upd s.wk t w u = .full x i ∨ upd s.wk t w u = .merged x i) :
    (u = t ∧ (w = .full x i ∨ w = .merged x i)) ∨ (s.wk u = .full x i ∨ s.wk u = .merged x i) := by
  unfold upd at h
  split at h
  · exact Or.inl ⟨by assumption, h⟩
  · exact Or.inr h

theorem lo_upd {s : S} (h : ∀ t, LRep (s.loc t)) {t : Nat} {g : Grp} (hg : LRep g) (u : Nat) : LRep (upd s.loc t g u) := by
  unfold upd; split
  · exact hg
  · exact h u

theorem inv_step {n : Nat} {s s' : S} (h : Inv n s) (hs : Step n s s') : Inv n s' := by
  obtain ⟨ok, ex, lo, ho, ou, fu, cnt⟩ := h
  cases hs with
  | add t x i ht hx hw hi hf =>
    refine ⟨ok, ex, lo_upd lo (put_ok (lo t) hx hi hf), ho, ou, fu, fun y => ?_⟩
    have c := cnt y
    have o := owned_one (s := s) (s' := { s with loc := upd s.loc t (put x i (s.loc t)), log := x :: s.log }) ht y (fun u hu => ⟨rfl, upd_ne _ _ hu⟩)
    rw [count_counted] at *
    simp only [upd_same, hw, own, put, List.count_append, List.count_cons, List.count_nil] at *
    omega
  | full t x i ht hx hw hi hf =>
    refine ⟨ok, ex, lo, ho, ou, fun u x' i' hu => ?_, fun y => ?_⟩
    · rcases wk_upd hu with ⟨-, e⟩ | e
      · rcases e with e | e <;> simp at e
        obtain ⟨rfl, rfl⟩ := e
        exact ⟨hx, hi⟩
      · exact fu u x' i' e
    · have c := cnt y
      have o := owned_one (s := s) (s' := { s with wk := upd s.wk t (.full x i) }) ht y (fun u hu => ⟨upd_ne _ _ hu, rfl⟩)
      rw [count_counted] at *
      simp only [upd_same, hw, own] at *
      omega
  | merge t x i g r ht hw hh hg =>
    obtain ⟨hx, hi⟩ := fu t x i (Or.inl hw)
    obtain ⟨g', e1, e2, e3⟩ := give_ok ex (lo t) r (C151_index hx hi).1
    rw [hg] at e1; cases e1
    refine ⟨ok, e2, lo, ho, ou, fun u x' i' hu => ?_, fun y => ?_⟩
    · rcases wk_upd hu with ⟨-, e⟩ | e
      · rcases e with e | e <;> simp at e
        obtain ⟨rfl, rfl⟩ := e
        exact ⟨hx, hi⟩
      · exact fu u x' i' e
    · have c := cnt y
      have o := owned_one (s := s) (s' := { s with exited := g, wk := upd s.wk t (.merged x i) }) ht y (fun u hu => ⟨upd_ne _ _ hu, rfl⟩)
      have w := own_twice (.merged x i) (s.loc t) y
      rw [count_counted] at *
      simp only [upd_same, hw, own, twice, e3, hh, List.count_append, sel] at *
      omega
  | mergeFail t x i r ht hw hh hg =>
    obtain ⟨hx, hi⟩ := fu t x i (Or.inl hw)
    obtain ⟨g', e1, -, -⟩ := give_ok ex (lo t) r (C151_index hx hi).1
    rw [hg] at e1; cases e1
  | finish t x i ht hw =>
    obtain ⟨hx, hi⟩ := fu t x i (Or.inr hw)
    obtain ⟨w1, w2⟩ := wipe_ok (lo t) (C151_index hx hi).1
    refine ⟨ok, ex, lo_upd lo (put_ok w1 hx hi w2), ho, ou, fun u x' i' hu => ?_, fun y => ?_⟩
    · rcases wk_upd hu with ⟨-, e⟩ | e
      · rcases e with e | e <;> simp at e
      · exact fu u x' i' e
    · have c := cnt y
      have o := owned_one (s := s) (s' := { s with loc := upd s.loc t (put x i (wipe i (s.loc t))), wk := upd s.wk t .idle, log := x :: s.log }) ht y (fun u hu => ⟨upd_ne _ _ hu, upd_ne _ _ hu⟩)
      rw [count_counted] at *
      simp only [upd_same, hw, own, put, wipe, List.count_append, List.count_cons, List.count_nil] at *
      omega
  | exit t g r ht hw hh hg =>
    obtain ⟨g', e1, e2, e3⟩ := gmerge_ok ex (lo t) r
    rw [hg] at e1; cases e1
    refine ⟨ok, e2, lo_upd lo lrep_empty, ho, ou, fu, fun y => ?_⟩
    have c := cnt y
    have o := owned_one (s := s) (s' := { s with exited := g, loc := upd s.loc t Grp.empty }) ht y (fun u hu => ⟨rfl, upd_ne _ _ hu⟩)
    rw [count_counted] at *
    simp only [upd_same, hw, own, e3, hh, List.count_append, Grp.empty, List.count_nil] at *
    omega
  | exitFail t r ht hw hh hg =>
    obtain ⟨g', e1, -, -⟩ := gmerge_ok ex (lo t) r
    rw [hg] at e1; cases e1
  | start hh =>
    refine ⟨ok, grep_empty _, lo, fun a ha => by cases ha; exact ex, ou, fu, fun y => ?_⟩
    have c := cnt y
    rw [count_counted] at *
    simp only [hh, Grp.empty, List.count_nil, owned] at *
    omega
  | visit t a g r ht hh hg =>
    obtain ⟨g', e1, e2, e3⟩ := gmerge_ok (ho a hh) (lo t) r
    rw [hg] at e1; cases e1
    refine ⟨ok, ex, lo_upd lo lrep_empty, fun a ha => by cases ha; exact e2, ou, fu, fun y => ?_⟩
    have c := cnt y
    have o := owned_one (s := s) (s' := { s with hold := some g, loc := upd s.loc t Grp.empty, dup := twice (s.wk t) (s.loc t) ++ s.dup }) ht y (fun u hu => ⟨rfl, upd_ne _ _ hu⟩)
    have w := own_twice (s.wk t) (s.loc t) y
    have z : (own (s.wk t) Grp.empty).count y = 0 := by unfold own; split <;> simp [Grp.empty]
    rw [count_counted] at *
    simp only [upd_same, e3, hh, List.count_append, z] at *
    omega
  | visitFail t a r ht hh hg =>
    obtain ⟨g', e1, -, -⟩ := gmerge_ok (ho a hh) (lo t) r
    rw [hg] at e1; cases e1
  | done a hh =>
    refine ⟨ok, ex, lo, fun a ha => (nomatch ha), fun b hb => ?_, fu, fun y => ?_⟩
    · rcases List.mem_cons.mp hb with rfl | hb
      · exact ho _ hh
      · exact ou b hb
    · have c := cnt y
      rw [count_counted] at *
      simp only [hh, List.flatMap_cons, List.count_append, owned] at *
      omega

theorem inv_init (n : Nat) : Inv n init := by
  refine ⟨rfl, grep_empty _, fun _ => lrep_empty, nofun, nofun, by simp [init], fun y => ?_⟩
  have : y ∉ counted n init := by simp [counted, init, Grp.empty, own]
  rw [List.count_eq_zero.mpr this]
  rfl

theorem inv_reach {n : Nat} {s : S} (h : Reach n s) : Inv n s := by
  induction h with
  | init => exact inv_init n
  | step _ hs ih => exact inv_step ih hs

/-- No assertion fails, whatever is drawn. Every latency is counted in a result or is still there; with those that were found in a buffer after they had been merged it is exact. -/
theorem C151_conserved {n : Nat} {s : S} (h : Reach n s) : s.failed = false ∧ (s.log ++ s.dup).Perm (counted n s) := by
  have i := inv_reach h
  exact ⟨i.ok, List.perm_iff_count.mpr fun y => by rw [List.count_append]; exact i.cnt y⟩

/-- What a result of `Reset` says of its values: their number, and for every interval their number there, and samples of them, all if they are not more than 254. -/
theorem C151_result {n : Nat} {s : S} (h : Reach n s) {g : Grp} (hg : g ∈ s.outs) :
    g.total = g.hist.length ∧ ∀ i, i < 32 → (g.ivl i).added = (sel i g.hist).length ∧ (g.ivl i).samples.length = min (sel i g.hist).length 254 ∧ ∃ rest, (sel i g.hist).Perm ((g.ivl i).samples ++ rest) := by
  have r := (inv_reach h).ou g hg
  exact ⟨r.total, fun i hi => ⟨(r.rep i hi).added, (r.rep i hi).len, (r.rep i hi).part⟩⟩

/-! ## Counted twice -/

theorem thirty : ∀ k, k ≤ 30 → ∃ s, Reach 1 s ∧ s.wk 0 = .idle ∧ s.hold = none ∧ s.outs = [] ∧ s.log = List.replicate k 1 ∧ (s.loc 0).hist = List.replicate k 1 ∧ s.exited.hist = [] := by
  intro k
  induction k with
  | zero => intro _; exact ⟨init, .init, rfl, rfl, rfl, rfl, rfl, rfl⟩
  | succ k ih =>
    intro hk
    obtain ⟨s, h1, h2, h3, h4, h5, h6, h7⟩ := ih (by omega)
    have hi : index 1 = some 0 := by decide
    have hl := ((inv_reach h1).lo 0).rep.rep 0 (by omega)
    have : (sel 0 (s.loc 0).hist).length ≤ k := by rw [h6]; exact Nat.le_trans (List.length_filter_le _ _) (by simp)
    refine ⟨_, .step h1 (.add 0 1 0 (by omega) (by decide) h2 hi ?_), h2, h3, h4, ?_, ?_, h7⟩
    · have := hl.len; simp only [localCap] at *; omega
    · simp [h5, List.replicate_succ]
    · simp [put, h6, List.replicate_succ']

/-- A `Reset` between the merge of a full interval and its removal from the buffer counts its latencies twice: after 30 updates the result has 60. -/
theorem C152_twice_partial : ∃ s g, Reach 1 s ∧ s.log.length = 30 ∧ s.outs = [g] ∧ g.total = 60 := by
  obtain ⟨s, h1, h2, h3, h4, h5, h6, h7⟩ := thirty 30 (by omega)
  have i1 := inv_reach h1
  have hi : index 1 = some 0 := by decide
  have hsel : sel 0 (s.loc 0).hist = List.replicate 30 1 := by rw [h6]; decide
  have hl := (i1.lo 0).rep.rep 0 (by omega)
  have hf : ((s.loc 0).ivl 0).samples.length = localCap := by rw [hl.len, hsel]; rfl
  have r1 := Reach.step h1 (.full 0 1 0 (by omega) (by decide) h2 hi hf)
  let r : Rnd := ⟨fun _ => 0, fun _ _ => 0, fun _ _ => 0⟩
  obtain ⟨g, e1, e2, e3⟩ := give_ok i1.ex (i1.lo 0) r (i := 0) (by omega)
  have r2 := Reach.step r1 (.merge 0 1 0 g r (by omega) (by simp) h3 e1)
  have r3 := Reach.step r2 (.start h3)
  obtain ⟨g', f1, f2, f3⟩ := gmerge_ok e2 (i1.lo 0) r
  have r4 := Reach.step r3 (.visit 0 g g' r (by omega) rfl f1)
  have r5 := Reach.step r4 (.done g' rfl)
  refine ⟨_, g', r5, by simp [h5], by simp [h4], ?_⟩
  rw [f2.total, f3, e3, hsel, h6, h7]
  rfl

end Verif.Tvar.Percentile
