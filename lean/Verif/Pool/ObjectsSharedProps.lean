import Verif.Pool.ObjectsSharedInv

/-!
# C158, C159: the object pool with one pool for each thread
-/

namespace Verif.Pool.ObjectsShared

theorem nodup_of_cu {l : List (Blk × Nat)} (h : ∀ b, cu b l ≤ 1) : (l.map (·.1)).Nodup := by
  rw [List.nodup_iff_count]
  intro b
  have := h b
  rw [List.count_eq_countP, List.countP_map]
  exact this

theorem Inv.le1 {p : P} {s : S} (v : Inv p s) (i c k : Nat) : cu (.slot i c k) s.user + cp (.slot i c k) s.pend + fb (.slot i c k) (s.own i) ≤ 1 := by
  have := v.one i c k
  split at this <;> omega

/-- **C158.** No object is handed out again before it was given back, not even by another thread. -/
theorem C158_once {ex oom : Bool} {p : P} (hcs : 0 < p.cs) {s : S} (h : Reach ex oom p s) : (s.user.map (·.1)).Nodup := by
  have v := h.inv hcs
  apply nodup_of_cu
  intro b
  cases b with
  | slot i c k => have := v.le1 i c k; omega
  | sys n => have := v.sys n; split at this <;> omega

/-- **C158.** An object that somebody has is in no free list, and nobody is giving it back. -/
theorem C158_apart {ex oom : Bool} {p : P} (hcs : 0 < p.cs) {s : S} (h : Reach ex oom p s) {b : Blk} {i : Nat} (hb : (b, i) ∈ s.user) :
    (∀ j, b ∉ (s.own j).free ∧ b ∉ (s.own j).back ∧ b ∉ (s.own j).xcpu) ∧ ∀ x ∈ s.pend, x.1 ≠ b := by
  have v := h.inv hcs
  have h1 := cu_pos hb
  simp only at h1
  have key : ∀ j, fb b (s.own j) = 0 := by
    intro j
    refine Nat.eq_zero_of_not_pos fun hp => ?_
    obtain ⟨c, k, rfl⟩ := v.own j b hp
    have := v.le1 j c k
    omega
  refine ⟨fun j => ?_, fun x hx e => ?_⟩
  · have := key j
    unfold fb at this
    exact ⟨List.count_eq_zero.mp (by omega), List.count_eq_zero.mp (by omega), List.count_eq_zero.mp (by omega)⟩
  · obtain ⟨c, k, hx2⟩ := v.pend x hx
    have h2 : 0 < cp x.1 s.pend := List.countP_pos_iff.2 ⟨x, hx, by simp⟩
    rw [hx2] at h2 e
    subst e
    have := v.le1 x.2.1 c k
    omega

/-- **C158.** No object gets lost: each one of the chunks of a thread is with somebody, on its way back, or in the lists of that thread. -/
theorem C158_kept {ex oom : Bool} {p : P} (hcs : 0 < p.cs) {s : S} (h : Reach ex oom p s) {i c k : Nat} (hc : 1 ≤ c ∧ c ≤ (s.own i).cid) (hk : k < p.cs) :
    (Blk.slot i c k, i) ∈ s.user ∨ (∃ old, (Blk.slot i c k, i, old) ∈ s.pend) ∨ Blk.slot i c k ∈ (s.own i).free ∨ Blk.slot i c k ∈ (s.own i).back ∨ Blk.slot i c k ∈ (s.own i).xcpu := by
  have v := h.inv hcs
  have h1 := v.one i c k
  rw [if_pos ⟨hc.1, hc.2, hk⟩] at h1
  by_cases hu : 0 < cu (.slot i c k) s.user
  · obtain ⟨x, hx, e⟩ := List.countP_pos_iff.mp hu
    have e : x.1 = .slot i c k := by simpa using e
    have := v.user x hx i c k e
    exact .inl (by rw [← e]; rw [show (x.1, i) = x from by rw [← this]]; exact hx)
  by_cases hp : 0 < cp (.slot i c k) s.pend
  · obtain ⟨x, hx, e⟩ := List.countP_pos_iff.mp hp
    have e : x.1 = .slot i c k := by simpa using e
    obtain ⟨d, m, e2⟩ := v.pend x hx
    rw [e] at e2
    have : i = x.2.1 := by simpa using (Blk.slot.inj e2).1
    exact .inr (.inl ⟨x.2.2, by rw [← e]; rw [show (x.1, i, x.2.2) = x from by rw [this]]; exact hx⟩)
  have h2 : 0 < fb (.slot i c k) (s.own i) := by omega
  unfold fb at h2
  by_cases hf : 0 < (s.own i).free.count (.slot i c k)
  · exact .inr (.inr (.inl (List.count_pos_iff.mp hf)))
  by_cases hbk : 0 < (s.own i).back.count (.slot i c k)
  · exact .inr (.inr (.inr (.inl (List.count_pos_iff.mp hbk))))
  · exact .inr (.inr (.inr (.inr (List.count_pos_iff.mp (by omega)))))

/-- **C158.** Objects go back to the thread that made them: the lists of a thread have objects of its own chunks only, and a thread hands out only these, or memory of the system. -/
theorem C158_owner {ex oom : Bool} {p : P} (hcs : 0 < p.cs) {s : S} (h : Reach ex oom p s) (i : Nat) :
    (∀ b, b ∈ (s.own i).free ∨ b ∈ (s.own i).back ∨ b ∈ (s.own i).xcpu → ∃ c k, b = .slot i c k ∧ 1 ≤ c ∧ c ≤ (s.own i).cid ∧ k < p.cs) ∧
      ∀ b, (b, i) ∈ s.user → (∃ n, b = .sys n) ∨ ∃ c k, b = .slot i c k ∧ 1 ≤ c ∧ c ≤ (s.own i).cid ∧ k < p.cs := by
  have v := h.inv hcs
  refine ⟨fun b hb => ?_, fun b hb => ?_⟩
  · have h1 : 0 < fb b (s.own i) := by
      unfold fb
      rcases hb with hb | hb | hb <;> have := List.count_pos_iff.2 hb <;> omega
    obtain ⟨c, k, rfl⟩ := v.own i b h1
    have h2 := v.one i c k
    split at h2
    · rename_i hh; exact ⟨c, k, rfl, hh⟩
    · omega
  · cases b with
    | sys n => exact .inl ⟨n, rfl⟩
    | slot j c k =>
      obtain ⟨rfl, hh⟩ := v.userB hb
      exact .inr ⟨c, k, rfl, hh⟩

/-- **C158.** Memory is given back to the system only after its thread has ended, and nobody has an object in it or is giving one back. -/
theorem C158_freed {ex oom : Bool} {p : P} (hcs : 0 < p.cs) {s : S} (h : Reach ex oom p s) {i c : Nat} (hf : (i, c) ∈ s.freed) :
    s.gone i = true ∧ ∀ k, (∀ j, (Blk.slot i c k, j) ∉ s.user) ∧ ∀ x ∈ s.pend, x.1 ≠ .slot i c k := by
  have v := h.inv hcs
  obtain ⟨h1, h2⟩ := v.freed _ hf
  refine ⟨h1, fun k => ⟨fun j hu => ?_, fun x hx e => ?_⟩⟩
  · obtain ⟨rfl, _, _, hk⟩ := v.userB hu
    exact ((C158_apart hcs h hu).1 i).2.1 (h2 k hk)
  · have hp : 0 < cp (.slot i c k) s.pend := List.countP_pos_iff.2 ⟨x, hx, by simp [e]⟩
    have h3 := v.one i c k
    have hk : k < p.cs := by
      split at h3
      · rename_i hh; exact hh.2.2
      · omega
    have h4 := List.count_pos_iff.2 (h2 k hk)
    have h5 := v.le1 i c k
    unfold fb at h5
    simp only at h4
    omega

theorem nodup_append_map {f r : List Nat} {l : List (Nat × Nat)} {i : Nat} (hr : r = f) (h1 : f.Nodup) (h2 : l.Nodup) (h3 : ∀ x ∈ l, x.1 ≠ i) : (r.map (fun c => (i, c)) ++ l).Nodup := by
  subst hr
  rw [List.nodup_append]
  refine ⟨?_, h2, ?_⟩
  · rw [List.nodup_iff_pairwise_ne, List.pairwise_map]
    exact List.Pairwise.imp (fun h e => h (by simpa using e)) (List.nodup_iff_pairwise_ne.mp h1)
  · intro a ha b hb e
    obtain ⟨c, _, rfl⟩ := List.mem_map.mp ha
    exact h3 b hb (by rw [← e])

/-- **C158.** No memory is given back twice. -/
theorem C158_twice {ex oom : Bool} {p : P} (hcs : 0 < p.cs) {s : S} (h : Reach ex oom p s) : s.freed.Nodup := by
  induction h with
  | init => simp [S.init]
  | @step s s' h hc hs ih =>
    have v := h.inv hcs
    cases hs with
    | exit i hg he =>
      split
      · exact ih
      · refine nodup_append_map rfl ?_ ih (fun x hx e => ?_)
        · exact (linked_trim _ _ (v.link i)).1.filter _
        · have := (v.freed x hx).1
          rw [e, hg] at this; cases this
    | free i j c k o hg hu ho => split <;> exact ih
    | cross i j c k hu => split <;> exact ih
    | _ => exact ih

theorem free_trim : ∀ (n : Nat) (o : O), (o.trim n).free = o.free.drop n := by
  intro n
  induction n with
  | zero => intro o; rfl
  | succ n ih =>
    intro o
    rw [O.trim]
    split
    · rename_i h; simp [h]
    · rename_i b r h
      rw [ih, h]; rfl

/-- **C158.** When a thread ends, all its chunks are given back of which no object is with somebody or in the list of objects given back by others. -/
theorem C158_end {ex oom : Bool} {p : P} (hcs : 0 < p.cs) {s : S} (h : Reach ex oom p s) (hc : s.crash = false) {i : Nat} (hg : s.gone i = false) (he : ex = true) :
    ∃ s', Reach ex oom p s' ∧ s'.crash = false ∧ s'.gone = upd s.gone i true ∧ s'.user = s.user ∧ s'.pend = s.pend ∧
      ∀ c, 1 ≤ c → c ≤ (s.own i).cid → (∀ k, k < p.cs → (Blk.slot i c k, i) ∉ s.user ∧ (∀ x ∈ s.pend, x.1 ≠ .slot i c k) ∧ .slot i c k ∉ (s.own i).xcpu) → (i, c) ∈ s'.freed := by
  have v := h.inv hcs
  have hb : (s.own i).bad (s.own i).free.length = false := not_bad fun b hb => v.bounds (fb_pos_of_mem hb)
  have hs := Step.exit (oom := oom) (p := p) (s := s) i hg he
  rw [if_neg (by rw [hb]; simp)] at hs
  have hr := Reach.step h hc hs
  refine ⟨_, hr, hc, rfl, rfl, rfl, fun c h1 h2 hk => ?_⟩
  refine List.mem_append_left _ (List.mem_map.2 ⟨c, List.mem_filter.2 ?_, rfl⟩)
  have hfb : ∀ b, fb b (s.own i).final = fb b (s.own i) := fun b => fb_trim b _ _
  have hfree : (s.own i).final.free = [] := by
    rw [O.final, free_trim]; simp
  have hx : (s.own i).final.xcpu = (s.own i).xcpu := (cid_trim _ _).2
  have hcount : ∀ k, k < p.cs → (s.own i).final.back.count (.slot i c k) = 1 := by
    intro k hkk
    obtain ⟨a1, a2, a3⟩ := hk k hkk
    have e1 : cu (.slot i c k) s.user = 0 := by
      refine List.countP_eq_zero.2 fun x hx e => ?_
      have e : x.1 = .slot i c k := by simpa using e
      have := v.user x hx i c k e
      exact a1 (by rw [← e]; rw [show (x.1, i) = x from by rw [← this]]; exact hx)
    have e2 : cp (.slot i c k) s.pend = 0 := List.countP_eq_zero.2 fun x hx e => a2 x hx (by simpa using e)
    have e3 := v.one i c k
    rw [if_pos ⟨h1, h2, hkk⟩, ← hfb] at e3
    unfold fb at e3
    rw [hfree, hx, List.count_eq_zero.mpr a3, List.count_nil] at e3
    omega
  have hperm : ((s.own i).final.back.filter fun b => b.ch == c).Perm (blocks p.cs i c) := by
    rw [List.perm_iff_count]
    intro b
    by_cases hbc : b.ch = c
    · rw [List.count_filter (by simpa using hbc)]
      cases b with
      | sys n => simp [Blk.ch] at hbc; omega
      | slot j d k =>
        simp only [Blk.ch] at hbc
        subst hbc
        rw [count_blocks]
        by_cases hh : j = i ∧ d = d ∧ k < p.cs
        · rw [if_pos hh]
          obtain ⟨rfl, _, hkk⟩ := hh
          exact hcount k hkk
        · rw [if_neg hh]
          refine Nat.eq_zero_of_not_pos fun hp => hh ?_
          have hp2 : 0 < fb (.slot j d k) (s.own i) := by
            rw [← hfb]; unfold fb; omega
          obtain ⟨d', k', e⟩ := v.own i _ hp2
          obtain ⟨rfl, rfl, rfl⟩ := Blk.slot.inj e
          have := v.one j d k
          split at this
          · rename_i q; exact ⟨rfl, rfl, q.2.2⟩
          · omega
    · rw [List.count_eq_zero_of_not_mem fun hm => hbc (by simpa using (List.mem_filter.mp hm).2)]
      cases b with
      | sys n => rw [count_blocks_sys]
      | slot j d k =>
        rw [count_blocks, if_neg fun hh => hbc hh.2.1]
  refine ⟨((linked_trim _ _ (v.link i)).2 c).2 ⟨.slot i c 0, List.count_pos_iff.1 ?_, rfl⟩, ?_⟩
  · have := hcount 0 hcs
    simp only [O.final] at this
    omega
  · rw [hperm.length_eq]; simp [blocks]

/-- **C158.** After `Delete` a thread has at most `max_free_num_` objects at hand. -/
theorem C158_bound {p : P} (hp : p.goal ≤ p.maxf) (o : O) : (o.trim (o.over p)).free.length ≤ p.maxf := by
  rw [free_trim, List.length_drop]
  unfold O.over
  split <;> omega

/-- **C158.** `New` takes the free objects of the chunks, whole chunks at a time, until it has `goal_num_` or there are no more. -/
theorem C158_refill (g : Nat) {o : O} (hl : Linked o) : g ≤ (o.gather g o.front).free.length ∨ (o.gather g o.front).back = [] := by
  have key : ∀ (l : List Nat) (o : O), o.front = l → g ≤ (o.gather g l).free.length ∨ (o.gather g l).front = [] := by
    intro l
    induction l with
    | nil => intro o e; exact .inr e
    | cons c f ih =>
      intro o e
      rw [O.gather]
      split
      · exact ih _ rfl
      · exact .inl (by omega)
  rcases key o.front o rfl with h | h
  · exact .inl h
  · right
    have := linked_gather g o.front o rfl hl
    rw [List.eq_nil_iff_forall_not_mem]
    intro b hb
    have := (this.2 b.ch).2 ⟨b, hb, rfl⟩
    rw [h] at this
    cases this

theorem Reach.gone {ex oom : Bool} {p : P} {s : S} (h : Reach ex oom p s) (he : ex = false) (i : Nat) : s.gone i = false := by
  induction h with
  | init => rfl
  | step _ _ hs ih =>
    cases hs with
    | exit j hg hx => rw [he] at hx; cases hx
    | free i j c k o hg hu ho => split <;> exact ih
    | cross i j c k hu => split <;> exact ih
    | _ => exact ih

/-- **C158.** The pools never do anything undefined, as long as there is memory and no thread has ended. -/
theorem C158_safe {ex oom : Bool} {p : P} (hcs : 0 < p.cs) {s : S} (h : Reach ex oom p s) (hc : s.crash = true) : oom = true ∨ ex = true ∧ ∃ i, s.gone i = true := by
  have hex : (∃ i, s.gone i = true) → ex = true := by
    rintro ⟨i, hi⟩
    cases he : ex with
    | true => rfl
    | false => rw [h.gone he i] at hi; cases hi
  suffices oom = true ∨ ∃ i, s.gone i = true by
    rcases this with h | h
    · exact .inl h
    · exact .inr ⟨hex h, h⟩
  clear hex
  cases h with
  | init => cases hc
  | @step s0 _ h hc0 hs =>
    have v := h.inv hcs
    cases hs with
    | none i hg hf ho => exact .inl ho
    | late b i old hm hg => exact .inr ⟨i, hg⟩
    | cross i j c k hu =>
      split at hc
      · rename_i hg; rw [if_pos hg]; exact .inr ⟨i, hg⟩
      · rw [hc0] at hc; cases hc
    | free i j c k o hg hu ho =>
      obtain ⟨rfl, h1, h2, h3⟩ := v.userB hu
      have hb : o.bad (o.over p) = false := by
        subst ho
        refine not_bad fun b hb => ?_
        rcases List.mem_cons.mp hb with rfl | hb
        · exact ⟨h1, h2⟩
        · exact v.bounds (fb_pos_of_mem hb)
      rw [if_neg (by rw [hb]; simp)] at hc
      exact absurd (hc0.symm.trans hc) (by simp)
    | exit i hg he =>
      have hb : (s0.own i).bad (s0.own i).free.length = false := not_bad fun b hb => v.bounds (fb_pos_of_mem hb)
      rw [if_neg (by rw [hb]; simp)] at hc
      exact absurd (hc0.symm.trans hc) (by simp)
    | _ => exact absurd (hc0.symm.trans hc) (by simp)

/-- **C159.** If a thread ends while another one has an object of its pool, giving it back uses the pool of that thread, which is no more. -/
theorem C159_late_partial {oom : Bool} {p : P} (hcs : 0 < p.cs) {s : S} (h : Reach true oom p s) (hc : s.crash = false) {i j c k : Nat} (hu : (Blk.slot j c k, i) ∈ s.user) (hg : s.gone i = false) :
    ∃ s1 s2, Reach true oom p s1 ∧ s1.crash = false ∧ s1.gone i = true ∧ s1.user = s.user ∧ Step true oom p s1 s2 ∧ s2.crash = true := by
  obtain ⟨s1, h1, h2, h3, h4, _, _⟩ := C158_end hcs h hc hg rfl
  have hg1 : s1.gone i = true := by rw [h3]; simp
  have hs := Step.cross (ex := true) (oom := oom) (p := p) (s := s1) i j c k (by rw [h4]; exact hu)
  rw [if_pos hg1] at hs
  exact ⟨s1, _, h1, h2, hg1, h4, hs, rfl⟩

/-- **C159.** If the system has no memory, `New` follows a null pointer. -/
theorem C159_null_partial {ex : Bool} {p : P} {s : S} {i : Nat} (hg : s.gone i = false) (hf : (s.own i).free = []) : ∃ s', Step ex true p s s' ∧ s'.crash = true :=
  ⟨_, .none i hg hf rfl, rfl⟩

/-- A new chunk, and one of its objects handed out. -/
theorem reach_one (ex oom : Bool) (p : P) (hcs : 0 < p.cs) (hgoal : 0 < p.goal) (i : Nat) : ∃ s k, Reach ex oom p s ∧ s.crash = false ∧ s.gone i = false ∧ k < p.cs ∧ (Blk.slot i 1 k, i) ∈ s.user := by
  have r1 := Reach.step (Reach.init (ex := ex) (oom := oom) (p := p)) rfl (.chunk i rfl (by simpa [S.init] using hgoal))
  have hne : (blocks p.cs i 1) ≠ [] := by
    intro e
    have := congrArg List.length e
    simp [blocks] at this
    omega
  obtain ⟨b, r, hb⟩ := List.exists_cons_of_ne_nil hne
  have hf : (((S.init.at i ((S.init.own i).chunk p.cs i)).own i).free) = b :: r := by
    simp [S.at, S.init, O.chunk, hb]
  have hm : b ∈ blocks p.cs i 1 := by rw [hb]; simp
  simp only [blocks, List.mem_reverse, List.mem_map, List.mem_range] at hm
  obtain ⟨k, hk, rfl⟩ := hm
  exact ⟨_, k, .step r1 rfl (.take i _ r rfl hf), rfl, rfl, hk, List.mem_cons_self⟩

/-- There are such runs: a thread ends, and the object that another one gives back is in memory that was not given back. -/
example : ∃ s, Reach true false ⟨4, 48, 64⟩ s ∧ s.crash = true := by
  obtain ⟨s, k, h, hc, hg, _, hu⟩ := reach_one true false ⟨4, 48, 64⟩ (by decide) (by decide) 0
  obtain ⟨s1, s2, h1, h2, _, _, hs, h3⟩ := C159_late_partial (by decide) h hc hu hg
  exact ⟨s2, .step h1 h2 hs, h3⟩

/-- There are runs in which an object is handed out. -/
example : ∃ s, Reach false false ⟨4, 48, 64⟩ s ∧ s.crash = false ∧ s.user ≠ [] := by
  obtain ⟨s, k, h, hc, _, _, hu⟩ := reach_one false false ⟨4, 48, 64⟩ (by decide) (by decide) 0
  exact ⟨s, h, hc, List.ne_nil_of_mem hu⟩

/-- There are runs in which memory is given back to the system. -/
example : ∃ s, Reach true false ⟨2, 48, 64⟩ s ∧ (0, 1) ∈ s.freed := by
  have r1 := Reach.step (Reach.init (ex := true) (oom := false) (p := ⟨2, 48, 64⟩)) rfl (.chunk 0 rfl (by decide))
  obtain ⟨s', h1, _, _, _, _, h2⟩ := C158_end (by decide) r1 rfl (i := 0) rfl rfl
  exact ⟨s', h1, h2 1 (by decide) (by decide) (fun k _ => ⟨by simp [S.at, S.init], by simp [S.at, S.init], by simp [S.at, S.init, O.chunk]⟩)⟩

end Verif.Pool.ObjectsShared
