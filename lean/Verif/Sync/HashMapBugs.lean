import Verif.Sync.HashMapThms

/-!
# The sizes of the concurrent hash map, its readers alone, and what goes wrong
-/

namespace Verif.Sync.HashMap

/-! ## Sizes -/

theorem double_some (n : Nat) (hn : n < 2 ^ 63) : ∀ f j, j + f = 65 → j ≤ 63 → ∃ i, double n f (2 ^ j) = some (2 ^ i) ∧ n < 2 ^ i ∧ j ≤ i ∧ (i = j ∨ 2 ^ (i - 1) ≤ n) := by
  intro f
  induction f with
  | zero => intro j h1 h2; omega
  | succ f ih =>
    intro j h1 h2
    unfold double
    by_cases hj : 2 ^ j ≤ n
    · have hj' : j < 63 := by
        rcases Nat.lt_or_ge j 63 with h | h
        · exact h
        · have := Nat.pow_le_pow_right (n := 2) (by decide) h
          omega
      have e : 2 ^ j * 2 % 2 ^ 64 = 2 ^ (j + 1) := by
        rw [← Nat.pow_succ]
        exact Nat.mod_eq_of_lt (Nat.pow_lt_pow_right (by decide) (by omega))
      rw [if_pos hj, e]
      obtain ⟨i, g1, g2, g3, g4⟩ := ih (j + 1) (by omega) (by omega)
      refine ⟨i, g1, g2, by omega, .inr ?_⟩
      rcases g4 with g4 | g4
      · rw [g4]; exact hj
      · exact g4
    · rw [if_neg hj]
      exact ⟨j, rfl, by omega, Nat.le_refl _, .inl rfl⟩

theorem bit_of_between {x i : Nat} (h1 : 2 ^ i ≤ x) (h2 : x < 2 ^ (i + 1)) : x.testBit i = true := by
  rw [Nat.testBit_eq_decide_div_mod_eq]
  have : x / 2 ^ i = 1 := Nat.div_eq_of_lt_le (by omega) (by rw [Nat.pow_succ] at h2; omega)
  rw [this]
  rfl

/-- Both `n` and `n - 1` have the highest bit, unless `n` is a power of two. -/
theorem and_pred {n : Nat} (h : n ≠ 0) (ha : n &&& (n - 1) = 0) : ∃ i, n = 2 ^ i := by
  refine ⟨n.log2, Classical.byContradiction fun hne => ?_⟩
  have h1 : 2 ^ n.log2 ≤ n := Nat.log2_self_le h
  have h2 : n < 2 ^ (n.log2 + 1) := Nat.lt_log2_self
  have b1 := bit_of_between h1 h2
  have b2 := bit_of_between (x := n - 1) (i := n.log2) (by omega) (by omega)
  have := Nat.testBit_and n (n - 1) n.log2
  rw [ha, b1, b2] at this
  simp at this

theorem roundUp_some (n : Nat) (hn : n < 2 ^ 63) : ∃ i, roundUp n = some (2 ^ i) ∧ (n < 2 → 2 ^ i = n + 1) ∧ (2 ≤ n → n ≤ 2 ^ i ∧ ∃ j, i = j + 1 ∧ 2 ^ j < n) := by
  unfold roundUp
  by_cases h : n ≥ 2 ∧ n &&& (n - 1) = 0
  · rw [if_pos h]
    obtain ⟨i, hi⟩ := and_pred (by omega) h.2
    refine ⟨i, by rw [hi], by omega, fun _ => ⟨by omega, ?_⟩⟩
    cases i with
    | zero => simp at hi; omega
    | succ j => exact ⟨j, rfl, by rw [hi]; exact Nat.pow_lt_pow_right (by decide) (by omega)⟩
  · rw [if_neg h]
    obtain ⟨i, g1, g2, g3, g4⟩ := double_some n hn 65 0 rfl (by decide)
    refine ⟨i, g1, fun h2 => ?_, fun h2 => ⟨by omega, ?_⟩⟩
    · rcases g4 with g4 | g4
      · subst g4; simp at g2; subst g2; rfl
      · have hn' : n = 0 ∨ n = 1 := by omega
        cases i with
        | zero => simp at g2; subst g2; rfl
        | succ j =>
          simp only [Nat.add_sub_cancel] at g4
          have : 0 < 2 ^ j := Nat.two_pow_pos j
          have hj : 2 ^ j = 1 := by omega
          rw [Nat.pow_succ, hj] at g2 ⊢
          omega
    · cases i with
      | zero => simp at g2; omega
      | succ j =>
        refine ⟨j, rfl, ?_⟩
        rcases g4 with g4 | g4
        · omega
        · simp only [Nat.add_sub_cancel] at g4
          refine Nat.lt_of_le_of_ne g4 fun e => h ⟨h2, ?_⟩
          rw [← e, Nat.and_two_pow_sub_one_eq_mod, Nat.mod_self]

/-- If there are not more mutexes than buckets, the bucket of a key determines its mutex, and it is the one that `Clear` takes. -/
theorem C138_sizes (buckets mutexes : Nat) (h : mutexes ≤ buckets) (hb : buckets < 2 ^ 63) : ∃ a b, roundUp buckets = some a ∧ roundUp mutexes = some b ∧ buckets ≤ a ∧ ∀ k, idx k b = idx (idx k a) b ∧ idx k a < a := by
  obtain ⟨i, g1, g2, g3⟩ := roundUp_some buckets hb
  obtain ⟨j, f1, f2, f3⟩ := roundUp_some mutexes (by omega)
  have hij : j ≤ i := by
    rcases Nat.lt_or_ge i j with hlt | hge
    · have hp := Nat.pow_lt_pow_right (a := 2) (by decide) hlt
      by_cases hb2 : buckets < 2
      · have := g2 hb2
        have := f2 (by omega)
        omega
      · have h1 := (g3 (by omega)).1
        by_cases hm2 : mutexes < 2
        · have := f2 hm2
          omega
        · obtain ⟨_, j', rfl, h3⟩ := f3 (by omega)
          have : 2 ^ i ≤ 2 ^ j' := Nat.pow_le_pow_right (by decide) (by omega)
          omega
    · exact hge
  refine ⟨2 ^ i, 2 ^ j, g1, f1, ?_, fun k => ⟨?_, ?_⟩⟩
  · by_cases hb2 : buckets < 2
    · have := g2 hb2; omega
    · exact (g3 (by omega)).1
  · unfold idx
    rw [Nat.and_two_pow_sub_one_eq_mod, Nat.and_two_pow_sub_one_eq_mod, Nat.and_two_pow_sub_one_eq_mod, Nat.mod_mod_of_dvd _ (Nat.pow_dvd_pow 2 hij)]
  · unfold idx
    rw [Nat.and_two_pow_sub_one_eq_mod]
    exact Nat.mod_lt _ (Nat.two_pow_pos i)

theorem double_none (n : Nat) : ∀ f, double n f 0 = none := by
  intro f
  induction f with
  | zero => rfl
  | succ f ih => unfold double; rw [if_pos (Nat.zero_le _)]; exact ih

theorem double_none' (n : Nat) (hn : 2 ^ 63 ≤ n) : ∀ f j, j ≤ 63 → double n f (2 ^ j) = none := by
  intro f
  induction f with
  | zero => intro j _; rfl
  | succ f ih =>
    intro j hj
    have hp : 2 ^ j ≤ 2 ^ 63 := Nat.pow_le_pow_right (by decide) hj
    unfold double
    rw [if_pos (by omega)]
    by_cases h : j = 63
    · subst h
      exact double_none n f
    · have e : 2 ^ j * 2 % 2 ^ 64 = 2 ^ (j + 1) := by
        rw [← Nat.pow_succ]
        exact Nat.mod_eq_of_lt (Nat.pow_lt_pow_right (by decide) (by omega))
      rw [e]
      exact ih (j + 1) (by omega)

/-- Rounding up does not end for numbers with no power of two above them. -/
theorem C139_round_partial (n : Nat) (h : 2 ^ 63 < n) (h' : n < 2 ^ 64) : roundUp n = none := by
  unfold roundUp
  rw [if_neg]
  · exact double_none' n (by omega) 65 0 (by decide)
  · rintro ⟨_, h2⟩
    have b1 := bit_of_between (x := n) (i := 63) (by omega) (by omega)
    have b2 := bit_of_between (x := n - 1) (i := 63) (by omega) (by omega)
    have := Nat.testBit_and n (n - 1) 63
    rw [h2, b1, b2] at this
    simp at this

/-! ## Runs -/

inductive Steps (bi mi mb : Nat → Nat) (nb : Nat) (gc cl : Bool) : S → S → Prop
  | refl (s : S) : Steps bi mi mb nb gc cl s s
  | head {s t u : S} (h : Step bi mi mb nb gc cl s t) (hs : Steps bi mi mb nb gc cl t u) : Steps bi mi mb nb gc cl s u

theorem Steps.trans {bi mi mb : Nat → Nat} {nb : Nat} {gc cl : Bool} {s t u : S} (h : Steps bi mi mb nb gc cl s t) (h' : Steps bi mi mb nb gc cl t u) : Steps bi mi mb nb gc cl s u := by
  induction h with
  | refl => exact h'
  | head h _ ih => exact .head h (ih h')

theorem Steps.reach {bi mi mb : Nat → Nat} {nb : Nat} {gc cl : Bool} {s t : S} (hs : Reach bi mi mb nb gc cl s) (h : Steps bi mi mb nb gc cl s t) : Reach bi mi mb nb gc cl t := by
  induction h with
  | refl => exact hs
  | head h _ ih => exact ih (.step hs h)

/-- The thread is somewhere in `Get`, or back from it, and nothing but its hazard pointer and its own state has changed. -/
structure Alone (t : Nat) (s s' : S) : Prop where
  hd : s'.hd = s.hd
  nx : s'.nx = s.nx
  ky : s'.ky = s.ky
  vl : s'.vl = s.vl
  m : s'.m = s.m
  th : ∀ t', t' ≠ t → s'.th t' = s.th t'

theorem Alone.trans {t : Nat} {s s' s'' : S} (h : Alone t s s') (h' : Alone t s' s'') : Alone t s s'' :=
  ⟨h'.hd.trans h.hd, h'.nx.trans h.nx, h'.ky.trans h.ky, h'.vl.trans h.vl, h'.m.trans h.m, fun t' ht => (h'.th t' ht).trans (h.th t' ht)⟩

theorem Alone.t (s : S) (t : Nat) (x : T) : Alone t s (s.t t x) := ⟨rfl, rfl, rfl, rfl, rfl, fun _ ht => upd_ne _ _ ht⟩

theorem Alone.mark (s : S) (t : Nat) (b : Bool) : Alone t s (s.mark b) := ⟨rfl, rfl, rfl, rfl, rfl, fun _ _ => rfl⟩

theorem Alone.setHz (s : S) (t : Nat) (p : Option Nat) : Alone t s (s.setHz t p) := ⟨rfl, rfl, rfl, rfl, rfl, fun _ _ => rfl⟩

theorem mark_bad (s : S) (b : Bool) (t : Nat) (x : T) (h : b = true) : ((s.mark b).t t x).bad = true := by
  show (s.bad || b) = true
  rw [h, Bool.or_true]

theorem t_at (s : S) (t : Nat) (x : T) : (s.t t x).th t = x := upd_same ..

theorem keep_run {bi mi mb : Nat → Nat} {nb : Nat} {gc cl : Bool} (s : S) (t k : Nat) (src : Option Nat) (h : s.th t = .get k src) :
    ∃ s', Steps bi mi mb nb gc cl s s' ∧ s'.th t = .cmp k (s.loc (bi k) src) ∧ Alone t s s' := by
  have loc : ∀ {s s' : S}, Alone t s s' → s'.loc (bi k) src = s.loc (bi k) src := by
    intro s s' ha
    cases src with
    | none => exact congrFun ha.hd _
    | some x => exact congrFun ha.nx _
  have g2 := Step.load (bi := bi) (mi := mi) (mb := mb) (nb := nb) (gc := gc) (cl := cl) t k src h
  have l2 : Alone t s ((s.mark (s.dead src)).t t (.got k src (s.loc (bi k) src))) := (Alone.mark ..).trans (Alone.t ..)
  have t2 := t_at (s.mark (s.dead src)) t (.got k src (s.loc (bi k) src))
  generalize ((s.mark (s.dead src)).t t (.got k src (s.loc (bi k) src))) = s2 at g2 l2 t2
  have g3 := Step.expose (bi := bi) (mi := mi) (mb := mb) (nb := nb) (gc := gc) (cl := cl) t k src _ t2
  have l3 : Alone t s ((s2.setHz t (s.loc (bi k) src)).t t (.exposed k src (s.loc (bi k) src))) := l2.trans ((Alone.setHz ..).trans (Alone.t ..))
  have t3 := t_at (s2.setHz t (s.loc (bi k) src)) t (.exposed k src (s.loc (bi k) src))
  generalize ((s2.setHz t (s.loc (bi k) src)).t t (.exposed k src (s.loc (bi k) src))) = s3 at g3 l3 t3
  have g4 := Step.same (bi := bi) (mi := mi) (mb := mb) (nb := nb) (gc := gc) (cl := cl) t k src _ t3 (loc l3)
  exact ⟨_, .head g2 (.head g3 (.head g4 (.refl _))), t_at .., l3.trans ((Alone.mark ..).trans (Alone.t ..))⟩

theorem cmp_run {bi mi mb : Nat → Nat} {nb : Nat} {gc cl : Bool} (t k : Nat) : ∀ (l : List Nat) (o : Option Nat) (s : S), Path s.nx o l → s.th t = .cmp k o →
    ∃ s', Steps bi mi mb nb gc cl s s' ∧ s'.th t = .gret ((l.find? fun a => s.ky a = k).map s.vl) ∧ Alone t s s' := by
  intro l
  induction l with
  | nil =>
    intro o s hp h
    cases hp
    exact ⟨_, .head (.nil t k h) (.refl _), t_at .., ⟨rfl, rfl, rfl, rfl, rfl, fun t' ht => upd_ne _ _ ht⟩⟩
  | cons a l ih =>
    intro o s hp h
    cases hp with
    | cons hp =>
      rw [List.find?_cons]
      by_cases hk : s.ky a = k
      · rw [decide_eq_true hk]
        exact ⟨_, .head (.hit t k a h hk) (.refl _), t_at .., ⟨rfl, rfl, rfl, rfl, rfl, fun t' ht => upd_ne _ _ ht⟩⟩
      · rw [decide_eq_false hk]
        have g1 := Step.pass (bi := bi) (mi := mi) (mb := mb) (nb := nb) (gc := gc) (cl := cl) t k a h hk
        have l1 : Alone t s ((s.mark (s.fr a)).t t (.get k (some a))) := (Alone.mark ..).trans (Alone.t ..)
        have t1 := t_at (s.mark (s.fr a)) t (.get k (some a))
        generalize ((s.mark (s.fr a)).t t (.get k (some a))) = s1 at g1 l1 t1
        obtain ⟨s2, g2, t2, l2⟩ := keep_run (bi := bi) (mi := mi) (mb := mb) (nb := nb) (gc := gc) (cl := cl) s1 t k (some a) t1
        have l3 := l1.trans l2
        have e : s1.loc (bi k) (some a) = s.nx a := congrFun l1.nx a
        rw [e] at t2
        obtain ⟨s', h1, h2, h3⟩ := ih (s.nx a) s2 (by rw [l3.nx]; exact hp) t2
        rw [l3.ky, l3.vl] at h2
        exact ⟨s', .head g1 (g2.trans h1), h2, l3.trans h3⟩

/-- A `Get` that is alone ends, with the value of the key. -/
theorem C138_alone {bi mi mb : Nat → Nat} {nb : Nat} {gc cl : Bool} (hm : ∀ k, mi k = mb (bi k)) {s : S} (h : Reach bi mi mb nb gc cl s) (t k : Nat) (ht : s.th t = .get k none) :
    ∃ s', Steps bi mi mb nb gc cl s s' ∧ s'.th t = .gret (s.m k) ∧ Alone t s s' := by
  obtain ⟨L, hI⟩ := h.inv hm
  have hM : M bi L s.hd s.nx s.ky s.vl s.nn s.rt s.m := HashMap.I.mem hI
  have hv : ((L (bi k)).find? fun a => s.ky a = k).map s.vl = s.m k := by
    cases hf : (L (bi k)).find? fun a => s.ky a = k with
    | none =>
      cases hk : s.m k with
      | none => rfl
      | some w =>
        obtain ⟨a, ha, hak⟩ := hM.full k (by rw [hk]; nofun)
        exact absurd (decide_eq_true hak) (List.find?_eq_none.1 hf a ha)
    | some a =>
      have h1 := (hM.inb _ a (List.mem_of_find?_eq_some hf)).2.2
      have h2 : s.ky a = k := by simpa using List.find?_some hf
      rw [h2] at h1
      exact h1.symm
  obtain ⟨s2, g2, t2, l2⟩ := keep_run (bi := bi) (mi := mi) (mb := mb) (nb := nb) (gc := gc) (cl := cl) s t k none ht
  obtain ⟨s', h1, h2, h3⟩ := cmp_run (bi := bi) (mi := mi) (mb := mb) (nb := nb) (gc := gc) (cl := cl) t k (L (bi k)) _ s2 (by rw [l2.nx]; exact hM.path _) t2
  rw [l2.ky, l2.vl, hv] at h2
  exact ⟨s', g2.trans h1, h2, l2.trans h3⟩

/-! ## What goes wrong -/

/-- To go on from a node that it keeps, `Get` has its only hazard pointer point to the next one, and then looks at the first one again. Whenever two keys have one bucket, the `Get` of one that is absent can use the node of the other after
it was erased and destroyed. -/
theorem C139_free_partial (bi mi mb : Nat → Nat) (nb k k' : Nat) (hk : k ≠ k') (hb : bi k = bi k') : ∃ s, Reach bi mi mb nb true false s ∧ s.bad = true := by
  have a1 := Reach.step (Reach.init (bi := bi) (mi := mi) (mb := mb) (nb := nb) (gc := true) (cl := false)) (.call 0 .ins k 5 rfl)
  have a2 := a1.step (.lock 0 .ins k 5 rfl rfl)
  have a3 := a2.step (.link 0 .ins k 5 none none rfl nofun)
  have a4 := a3.step (.count 0 k (true, none) 1 rfl)
  have a5 := a4.step (.unlock 0 k (true, none) rfl)
  have a6 := a5.step (.done 0 (true, none) rfl)
  have b1 := a6.step (.get 1 k' rfl)
  have b2 := b1.step (.load 1 k' none rfl)
  have b3 := b2.step (.expose 1 k' none _ rfl)
  have b4 := b3.step (.same 1 k' none _ rfl rfl)
  have e1 : upd (fun _ => none) (bi k) (some 0) (bi k') = some 0 := by rw [← hb]; exact upd_same ..
  have b5 := b4.step (.pass 1 k' 0 (congrArg (T.cmp k') e1) hk)
  have b6 := b5.step (.load 1 k' (some 0) rfl)
  have b7 := b6.step (.expose 1 k' (some 0) none rfl)
  have c1 := b7.step (.call 0 .era k 0 rfl)
  have c2 := c1.step (.lock 0 .era k 0 rfl (upd_same ..))
  have e2 : upd (fun _ => none) (bi k) (some 0) (bi k) = some 0 := upd_same ..
  have c3 := c2.step (.erase 0 k 0 none 0 (some 0) (by rw [← e2]; rfl) rfl)
  have c4 := c3.step (.reclaim 0 rfl rfl fun t => by
    match t with
    | 0 => nofun
    | 1 => nofun
    | n + 2 => nofun)
  exact ⟨_, c4.step (.same 1 k' (some 0) none rfl rfl), mark_bad _ _ _ _ rfl⟩

/-- Whenever two keys have one bucket and two mutexes, one of two insertions may get lost. -/
theorem C139_mutexes_partial (bi mi mb : Nat → Nat) (nb k k' : Nat) (hk : k ≠ k') (hb : bi k = bi k') (hmi : mi k ≠ mi k') :
    ∃ s, Reach bi mi mb nb false false s ∧ s.th 0 = .ret (true, none) ∧ s.m k = some 5 ∧ s.th 2 = .gret none ∧ s.seen 2 = [some 5] := by
  have a1 := Reach.step (Reach.init (bi := bi) (mi := mi) (mb := mb) (nb := nb) (gc := false) (cl := false)) (.call 0 .ins k 5 rfl)
  have a2 := a1.step (.call 1 .ins k' 6 rfl)
  have a3 := a2.step (.lock 0 .ins k 5 rfl rfl)
  have a4 := a3.step (.lock 1 .ins k' 6 rfl (upd_ne _ _ (Ne.symm hmi)))
  have a5 := a4.step (.link 0 .ins k 5 none none rfl nofun)
  have a6 := a5.step (.link 1 .ins k' 6 none none rfl nofun)
  have a7 := a6.step (.count 0 k (true, none) 1 rfl)
  have a8 := a7.step (.unlock 0 k (true, none) rfl)
  have b1 := a8.step (.get 2 k rfl)
  have b2 := b1.step (.load 2 k none rfl)
  have b3 := b2.step (.expose 2 k none _ rfl)
  have b4 := b3.step (.same 2 k none _ rfl rfl)
  have e1 : upd (upd (fun _ => none) (bi k) (some 0)) (bi k') (some 1) (bi k) = some 1 := by rw [hb]; exact upd_same ..
  have b5 := b4.step (.pass 2 k 1 (congrArg (T.cmp k) e1) (Ne.symm hk))
  have b6 := b5.step (.load 2 k (some 1) rfl)
  have b7 := b6.step (.expose 2 k (some 1) none rfl)
  have b8 := b7.step (.same 2 k (some 1) none rfl rfl)
  have e2 : ∀ x, upd (upd (fun _ => none) k (some 5)) k' x k = some 5 := fun x => by rw [upd_ne _ _ hk]; exact upd_same ..
  exact ⟨_, b8.step (.nil 2 k rfl), rfl, e2 _, rfl, congrArg (fun x => [x]) (e2 _)⟩

/-- There are such keys if there are more mutexes than buckets. -/
theorem C139_more_partial (i j : Nat) (h : i < j) : idx 0 (2 ^ i) = idx (2 ^ i) (2 ^ i) ∧ idx 0 (2 ^ j) ≠ idx (2 ^ i) (2 ^ j) := by
  unfold idx
  rw [Nat.and_two_pow_sub_one_eq_mod, Nat.and_two_pow_sub_one_eq_mod, Nat.and_two_pow_sub_one_eq_mod, Nat.and_two_pow_sub_one_eq_mod]
  refine ⟨by rw [Nat.mod_self]; exact Nat.zero_mod _, ?_⟩
  rw [Nat.zero_mod, Nat.mod_eq_of_lt (Nat.pow_lt_pow_right (by decide) h)]
  exact Ne.symm (Nat.pos_iff_ne_zero.1 (Nat.two_pow_pos i))

/-- `Clear` that goes through the buckets of an empty map. -/
theorem clear_run (bi mi mb : Nat → Nat) (nb : Nat) : ∀ n i, i + n = nb → ∀ s, Reach bi mi mb nb false true s → s.cnt = 0 → s.nn = 0 → (∀ b, s.hd b = none) → (∀ x, s.lk x = none) → (∀ k, s.m k = none) → (∀ t, t ≠ 1 → s.th t = .idle) → s.th 1 = .clk i →
    ∃ s', Reach bi mi mb nb false true s' ∧ s'.cnt = 0 ∧ s'.nn = 0 ∧ (∀ b, s'.hd b = none) ∧ (∀ x, s'.lk x = none) ∧ (∀ k, s'.m k = none) ∧ (∀ t, t ≠ 1 → s'.th t = .idle) ∧ s'.th 1 = .clk nb := by
  intro n
  induction n with
  | zero =>
    intro i hi s h h1 h2 h3 h4 h5 h6 h7
    exact ⟨s, h, h1, h2, h3, h4, h5, h6, by rw [h7, ← hi]; rfl⟩
  | succ n ih =>
    intro i hi s h h1 h2 h3 h4 h5 h6 h7
    let s1 := (s.setLk (mb i) (some 1)).t 1 (.clr i)
    let s2 := (s1.wipe bi i).t 1 (.clu i)
    let s3 := (s2.setLk (mb i) none).t 1 (.clk (i + 1))
    have r1 : Reach bi mi mb nb false true s1 := h.step (.clock 1 i h7 (by omega) (h4 _))
    have r2 : Reach bi mi mb nb false true s2 := r1.step (.wipe 1 i (t_at ..))
    have r3 : Reach bi mi mb nb false true s3 := r2.step (.cunlock 1 i (t_at ..))
    refine ih (i + 1) (by omega) s3 r3 h1 h2 ?_ ?_ ?_ ?_ (t_at ..)
    · intro b
      show upd s.hd i none b = none
      rw [upd_apply]
      split
      · rfl
      · exact h3 b
    · intro x
      show upd (upd s.lk (mb i) (some 1)) (mb i) none x = none
      rw [upd_apply, upd_apply]
      split
      · rfl
      · exact h4 x
    · intro k
      show (if bi k = i then none else s.m k) = none
      split
      · rfl
      · exact h5 k
    · intro t ht
      show upd (upd (upd s.th 1 _) 1 _) 1 _ t = .idle
      rw [upd_ne _ _ ht, upd_ne _ _ ht, upd_ne _ _ ht]
      exact h6 t ht

/-- Thread 0 inserts a key into an empty bucket. -/
theorem ins_run (bi mi mb : Nat → Nat) (nb k v : Nat) (s : S) (h : Reach bi mi mb nb false true s) (h0 : s.th 0 = .idle) (hl : s.lk (mi k) = none) (hh : s.hd (bi k) = none) (hk : s.m k = none) :
    ∃ s', Reach bi mi mb nb false true s' ∧ s'.th 0 = .idle ∧ (∀ t, t ≠ 0 → s'.th t = s.th t) ∧ s'.m = upd s.m k (some v) ∧ s'.lk (mi k) = none ∧ s'.hd (bi k) = some s.nn ∧ s'.ky s.nn = k := by
  obtain ⟨s1, r1, a1, b1, c1, d1, e1, f1⟩ : ∃ s1, Reach bi mi mb nb false true s1 ∧ s1.th 0 = .want .ins k v ∧ (∀ t, t ≠ 0 → s1.th t = s.th t) ∧ s1.m = s.m ∧ s1.lk = s.lk ∧ s1.hd = s.hd ∧ s1.nn = s.nn :=
    ⟨_, h.step (.call 0 .ins k v h0), t_at .., fun t ht => upd_ne _ _ ht, rfl, rfl, rfl, rfl⟩
  rw [← c1, ← f1]
  rw [← c1] at hk
  rw [← d1] at hl
  rw [← e1] at hh
  obtain ⟨s2, r2, a2, b2, c2, f2⟩ : ∃ s2, Reach bi mi mb nb false true s2 ∧ s2.th 0 = .hold .ins k v none none none ∧ (∀ t, t ≠ 0 → s2.th t = s1.th t) ∧ s2.m = s1.m ∧ s2.nn = s1.nn := by
    have := r1.step (.lock 0 .ins k v a1 hl)
    rw [hh] at this
    exact ⟨_, this, t_at .., fun t ht => upd_ne _ _ ht, rfl, rfl⟩
  rw [← c2] at hk ⊢
  rw [← f2]
  obtain ⟨s3, r3, a3, b3, c3, d3, e3⟩ : ∃ s3, Reach bi mi mb nb false true s3 ∧ s3.th 0 = .count k (true, none) 1 ∧ (∀ t, t ≠ 0 → s3.th t = s2.th t) ∧ s3.m = upd s2.m k (spec .ins v (s2.m k)).1 ∧ s3.hd (bi k) = some s2.nn ∧ s3.ky s2.nn = k :=
    ⟨_, r2.step (.link 0 .ins k v none none a2 nofun), t_at .., fun t ht => upd_ne _ _ ht, rfl, upd_same s2.hd (bi k) (some s2.nn), upd_same s2.ky s2.nn k⟩
  rw [hk] at c3
  obtain ⟨s4, r4, a4, b4, c4, d4, e4⟩ : ∃ s4, Reach bi mi mb nb false true s4 ∧ s4.th 0 = .unl k (true, none) ∧ (∀ t, t ≠ 0 → s4.th t = s3.th t) ∧ s4.m = s3.m ∧ s4.hd = s3.hd ∧ s4.ky = s3.ky :=
    ⟨_, r3.step (.count 0 k (true, none) 1 a3), t_at .., fun t ht => upd_ne _ _ ht, rfl, rfl, rfl⟩
  obtain ⟨s5, r5, a5, b5, c5, d5, e5, f5⟩ : ∃ s5, Reach bi mi mb nb false true s5 ∧ s5.th 0 = .ret (true, none) ∧ (∀ t, t ≠ 0 → s5.th t = s4.th t) ∧ s5.m = s4.m ∧ s5.hd = s4.hd ∧ s5.ky = s4.ky ∧ s5.lk (mi k) = none :=
    ⟨_, r4.step (.unlock 0 k (true, none) a4), t_at .., fun t ht => upd_ne _ _ ht, rfl, rfl, rfl, upd_same s4.lk (mi k) none⟩
  refine ⟨_, r5.step (.done 0 (true, none) a5), t_at .., fun t ht => ?_, ?_, f5, ?_, ?_⟩
  · rw [← b1 t ht, ← b2 t ht, ← b3 t ht, ← b4 t ht, ← b5 t ht]
    exact upd_ne _ _ ht
  · show s5.m = _
    rw [c5, c4, c3]
    rfl
  · show s5.hd (bi k) = _
    rw [d5, d4, d3]
  · show s5.ky s2.nn = k
    rw [e5, e4, e3]

/-- Thread 0 erases the first key of a bucket. -/
theorem era_run (bi mi mb : Nat → Nat) (nb k n : Nat) (s : S) (h : Reach bi mi mb nb false true s) (h0 : s.th 0 = .idle) (hl : s.lk (mi k) = none) (hh : s.hd (bi k) = some n) (hk : s.ky n = k) (hv : s.m k ≠ none) :
    ∃ s', Reach bi mi mb nb false true s' ∧ s'.th 0 = .idle ∧ (∀ t, t ≠ 0 → s'.th t = s.th t) ∧ s'.m = upd s.m k none ∧ s'.cnt = s.cnt + -1 := by
  obtain ⟨s1, r1, a1, b1, c1, d1, e1, f1, g1⟩ : ∃ s1, Reach bi mi mb nb false true s1 ∧ s1.th 0 = .want .era k 0 ∧ (∀ t, t ≠ 0 → s1.th t = s.th t) ∧ s1.m = s.m ∧ s1.lk = s.lk ∧ s1.hd = s.hd ∧ s1.ky = s.ky ∧ s1.cnt = s.cnt :=
    ⟨_, h.step (.call 0 .era k 0 h0), t_at .., fun t ht => upd_ne _ _ ht, rfl, rfl, rfl, rfl, rfl⟩
  rw [← d1] at hl
  rw [← e1] at hh
  rw [← f1] at hk
  rw [← c1, ← g1]
  rw [← c1] at hv
  obtain ⟨s2, r2, a2, b2, c2, f2, g2⟩ : ∃ s2, Reach bi mi mb nb false true s2 ∧ s2.th 0 = .hold .era k 0 none (some n) (some n) ∧ (∀ t, t ≠ 0 → s2.th t = s1.th t) ∧ s2.m = s1.m ∧ s2.ky = s1.ky ∧ s2.cnt = s1.cnt := by
    have := r1.step (.lock 0 .era k 0 a1 hl)
    rw [hh] at this
    exact ⟨_, this, t_at .., fun t ht => upd_ne _ _ ht, rfl, rfl, rfl⟩
  rw [← f2] at hk
  rw [← c2] at hv ⊢
  rw [← g2]
  obtain ⟨s3, r3, a3, b3, c3, g3⟩ : ∃ s3, Reach bi mi mb nb false true s3 ∧ s3.th 0 = .count k (true, none) (-1) ∧ (∀ t, t ≠ 0 → s3.th t = s2.th t) ∧ s3.m = upd s2.m k (spec .era 0 (s2.m k)).1 ∧ s3.cnt = s2.cnt :=
    ⟨_, r2.step (.erase 0 k 0 none n (some n) a2 hk), t_at .., fun t ht => upd_ne _ _ ht, rfl, rfl⟩
  obtain ⟨s4, r4, a4, b4, c4, g4⟩ : ∃ s4, Reach bi mi mb nb false true s4 ∧ s4.th 0 = .unl k (true, none) ∧ (∀ t, t ≠ 0 → s4.th t = s3.th t) ∧ s4.m = s3.m ∧ s4.cnt = s3.cnt + -1 :=
    ⟨_, r3.step (.count 0 k (true, none) (-1) a3), t_at .., fun t ht => upd_ne _ _ ht, rfl, rfl⟩
  obtain ⟨s5, r5, a5, b5, c5, g5⟩ : ∃ s5, Reach bi mi mb nb false true s5 ∧ s5.th 0 = .ret (true, none) ∧ (∀ t, t ≠ 0 → s5.th t = s4.th t) ∧ s5.m = s4.m ∧ s5.cnt = s4.cnt :=
    ⟨_, r4.step (.unlock 0 k (true, none) a4), t_at .., fun t ht => upd_ne _ _ ht, rfl, rfl⟩
  refine ⟨_, r5.step (.done 0 (true, none) a5), t_at .., fun t ht => ?_, ?_, ?_⟩
  · rw [← b1 t ht, ← b2 t ht, ← b3 t ht, ← b4 t ht, ← b5 t ht]
    exact upd_ne _ _ ht
  · show s5.m = _
    rw [c5, c4, c3]
    cases hs : s2.m k with
    | none => exact absurd hs hv
    | some w => rfl
  · show s5.cnt = _
    rw [g5, g4, g3]

/-- `Clear` sets the number of keys to zero after it has unlocked all buckets: a key inserted before that is not counted, and after it is erased, `Size` is the largest number there is. -/
theorem C139_size_partial (bi mi mb : Nat → Nat) (nb k v : Nat) :
    (∃ s, Reach bi mi mb nb false true s ∧ (∀ t, s.th t = .idle) ∧ s.m k = some v ∧ s.size = 0) ∧ ∃ s, Reach bi mi mb nb false true s ∧ (∀ t, s.th t = .idle) ∧ (∀ k, s.m k = none) ∧ s.size = 2 ^ 64 - 1 := by
  have a1 := Reach.step (Reach.init (bi := bi) (mi := mi) (mb := mb) (nb := nb) (gc := false) (cl := true)) (.clear 1 rfl rfl)
  obtain ⟨s, h, h1, h2, h3, h4, h5, h6, h7⟩ := clear_run bi mi mb nb nb 0 (Nat.zero_add _) _ a1 rfl rfl (fun _ => rfl) (fun _ => rfl) (fun _ => rfl) (fun t ht => upd_ne _ _ ht) (t_at ..)
  obtain ⟨s2, r2, i0, i1, i2, i3, i4, i5⟩ := ins_run bi mi mb nb k v (s.t 1 .clz) (h.step (.cend 1 nb h7 (Nat.le_refl _))) (h6 0 (by decide)) (h4 _) (h3 _) (h5 _)
  have i6 : s2.th 1 = .clz := (i1 1 (by decide)).trans (t_at ..)
  obtain ⟨s3, r3, t3, m3, c3, l3, d3, k3⟩ : ∃ s3, Reach bi mi mb nb false true s3 ∧ (∀ t, s3.th t = .idle) ∧ s3.m = s2.m ∧ s3.cnt = 0 ∧ s3.lk = s2.lk ∧ s3.hd = s2.hd ∧ s3.ky = s2.ky := by
    refine ⟨_, r2.step (.zero 1 i6), fun t => ?_, rfl, Int.add_right_neg s2.cnt, rfl, rfl, rfl⟩
    show upd s2.th 1 .idle t = .idle
    rw [upd_apply]
    split
    · rfl
    · rename_i e
      by_cases e0 : t = 0
      · rw [e0]; exact i0
      · rw [i1 t e0]
        exact (upd_ne _ _ e).trans (h6 t e)
  have hm3 : s3.m k = some v := by rw [m3, i2]; exact upd_same ..
  refine ⟨⟨s3, r3, t3, hm3, by unfold S.size; rw [c3]; rfl⟩, ?_⟩
  obtain ⟨s4, r4, j0, j1, j2, j3⟩ := era_run bi mi mb nb k s.nn s3 r3 (t3 0) (by rw [l3]; exact i3) (by rw [d3]; exact i4) (by rw [k3]; exact i5) (by rw [hm3]; nofun)
  refine ⟨s4, r4, fun t => ?_, fun k' => ?_, by unfold S.size; rw [j3, c3]; rfl⟩
  · by_cases e0 : t = 0
    · rw [e0]; exact j0
    · rw [j1 t e0]; exact t3 t
  · rw [j2, m3, i2, upd_apply]
    split
    · rfl
    · rename_i e
      rw [upd_ne _ _ e]
      exact h5 k'

/-! ## The theorems say something -/

/-- A `Get` that runs while the key gets another value returns the older one. -/
example : ∃ s, Reach id id id 4 true false s ∧ s.th 1 = .gret (some 5) ∧ s.m 0 = some 6 ∧ s.seen 1 = [some 6, some 5] ∧ s.rt 0 = true := by
  have a1 := Reach.step (Reach.init (bi := id) (mi := id) (mb := id) (nb := 4) (gc := true) (cl := false)) (.call 0 .ins 0 5 rfl)
  have a2 := a1.step (.lock 0 .ins 0 5 rfl rfl)
  have a3 := a2.step (.link 0 .ins 0 5 none none rfl nofun)
  have a4 := a3.step (.count 0 0 (true, none) 1 rfl)
  have a5 := a4.step (.unlock 0 0 (true, none) rfl)
  have a6 := a5.step (.done 0 (true, none) rfl)
  have b1 := a6.step (.get 1 0 rfl)
  have b2 := b1.step (.load 1 0 none rfl)
  have b3 := b2.step (.expose 1 0 none _ rfl)
  have b4 := b3.step (.same 1 0 none _ rfl rfl)
  have c1 := b4.step (.call 0 .asg 0 6 rfl)
  have c2 := c1.step (.lock 0 .asg 0 6 rfl rfl)
  have c3 := c2.step (.assign 0 0 6 none 0 (some 0) rfl rfl)
  exact ⟨_, c3.step (.hit 1 0 0 rfl rfl), rfl, rfl, rfl, rfl⟩

/-- Sizes as they are by default, and a rounding. -/
example : roundUp 1024 = some 1024 ∧ roundUp 1000 = some 1024 ∧ roundUp 1 = some 2 := by decide +kernel

end Verif.Sync.HashMap
