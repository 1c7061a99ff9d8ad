import Verif.Pool.SharedProps

/-!
# C122, C123: threads that end, and blocks that other threads give back
-/

namespace Verif.Pool.Shared

def L.out (t : L) : Prop := t.pc = .x ∨ t.pc = .dead

/-- Where the blocks are if each thread gives back its own blocks only. -/
structure Own (s : S) : Prop where
  lists : ∀ i t, s.th[i]? = some t → ∀ b, lc b t ≠ 0 → ∃ c k, b = Blk.pool i c k
  user : ∀ j c k o, (Blk.pool j c k, o) ∈ s.user → o = j
  rel : ∀ i c, (i, c) ∈ s.freed → ∃ t, s.th[i]? = some t ∧ t.out ∧ ∀ k, k < 32 → Blk.pool i c k ∈ t.back
  done : ∀ i t, s.th[i]? = some t → t.out → ∀ b ∈ t.back, b.ch ∈ t.front ∨ (i, b.ch) ∈ s.freed ∨ (t.back.filter (fun a => a.ch == b.ch)).length ≠ 32

theorem get_set {th : List L} {i j : Nat} {t t' a : L} (h : th[i]? = some t) (ha : (th.set i t')[j]? = some a) : (j = i ∧ a = t') ∨ (j ≠ i ∧ th[j]? = some a) := by
  have hi : i < th.length := by obtain ⟨hi, _⟩ := List.getElem?_eq_some_iff.1 h; exact hi
  rw [List.getElem?_set] at ha
  split at ha
  · rename_i e
    exact .inl ⟨e.symm, by simpa using ha.symm⟩
  · rename_i e
    exact .inr ⟨fun e' => e e'.symm, ha⟩

theorem Own.move {s : S} (v : Own s) {i : Nat} {t t' : L} (h : s.th[i]? = some t) {n m : Nat} {u : List (Blk × Nat)} {fr : List (Nat × Nat)}
    (hl : ∀ b, lc b t' ≠ 0 → ∃ c k, b = Blk.pool i c k) (hu : ∀ j c k o, (Blk.pool j c k, o) ∈ u → o = j) (hout : t.out → t'.out ∧ t'.back = t.back)
    (hd : t'.out → ∀ b ∈ t'.back, b.ch ∈ t'.front ∨ (i, b.ch) ∈ fr ∨ (t'.back.filter (fun a => a.ch == b.ch)).length ≠ 32)
    (hfr : ∀ p ∈ s.freed, p ∈ fr) (hnew : ∀ j c, (j, c) ∈ fr → (j, c) ∈ s.freed ∨ (j = i ∧ t'.out ∧ ∀ k, k < 32 → Blk.pool i c k ∈ t'.back)) :
    Own { (s.at i t') with user := u, n := n, freed := fr, nsys := m } := by
  have hi : i < s.th.length := by obtain ⟨hi, _⟩ := List.getElem?_eq_some_iff.1 h; exact hi
  have self : (s.th.set i t')[i]? = some t' := by simp [hi]
  refine ⟨?_, hu, ?_, ?_⟩
  · intro j a ha b hb
    rcases get_set h ha with ⟨rfl, rfl⟩ | ⟨_, ha⟩
    · exact hl b hb
    · exact v.lists j a ha b hb
  · intro j c hj
    rcases hnew j c hj with hj | ⟨rfl, h1, h2⟩
    · obtain ⟨a, ha, ho, hb⟩ := v.rel j c hj
      by_cases e : j = i
      · subst e
        rw [h] at ha
        cases ha
        obtain ⟨h1, h2⟩ := hout ho
        exact ⟨t', self, h1, fun k hk => by rw [h2]; exact hb k hk⟩
      · exact ⟨a, by simp only [S.at]; rw [List.getElem?_set, if_neg (fun e' => e e'.symm)]; exact ha, ho, hb⟩
    · exact ⟨t', self, h1, h2⟩
  · intro j a ha ho b hb
    rcases get_set h ha with ⟨rfl, rfl⟩ | ⟨_, ha⟩
    · exact hd ho b hb
    · rcases v.done j a ha ho b hb with h1 | h1 | h1
      · exact .inl h1
      · exact .inr (.inl (hfr _ h1))
      · exact .inr (.inr h1)

theorem nodup_full {i c : Nat} {l : List Blk} (h : l.Nodup) (hl : ∀ b ∈ l, ∃ k, b = Blk.pool i c k ∧ k < 32) (h32 : l.length = 32) {k : Nat} (hk : k < 32) : Blk.pool i c k ∈ l := by
  by_cases hm : Blk.pool i c k ∈ l
  · exact hm
  · exfalso
    have := List.Nodup.length_le_of_subset (l₂ := ((List.range 32).map (fun k => Blk.pool i c k)).erase (Blk.pool i c k)) h (fun b hb => by
      obtain ⟨m, rfl, hm'⟩ := hl b hb
      have hne : m ≠ k := fun e => hm (e ▸ hb)
      rw [List.mem_erase_of_ne (by simp [hne])]
      exact List.mem_map.2 ⟨m, List.mem_range.2 hm', rfl⟩)
    rw [List.length_erase_of_mem (List.mem_map.2 ⟨k, List.mem_range.2 hk, rfl⟩)] at this
    simp at this
    omega

/-- The free blocks of a chunk are different ones. -/
theorem back_nodup {ex : Bool} {s : S} (v : Inv ex s) {t : L} (ht : t ∈ s.th) : t.back.Nodup := by
  rw [List.nodup_iff_count]
  intro b
  have h0 : t.back.count b ≤ lc b t := by unfold lc; omega
  cases b with
  | sys n => have := (v.th t ht).sys n; omega
  | pool i c k =>
    have h1 := v.one i c k
    have h2 := mine_le s.th i c k
    obtain ⟨j, hj⟩ := List.getElem?_of_mem ht
    have h4 := wsum_mem (f := lc (.pool i c k)) hj
    omega

theorem range_of {ex : Bool} {s : S} (v : Inv ex s) {t : L} (ht : t ∈ s.th) {i c k : Nat} (h : lc (.pool i c k) t ≠ 0) : 1 ≤ c ∧ c ≤ cidOf s.th i ∧ k < 32 := by
  have h1 := v.one i c k
  obtain ⟨j, hj⟩ := List.getElem?_of_mem ht
  have h4 := wsum_mem (f := lc (.pool i c k)) hj
  have h5 : mine s.th i c k ≠ 0 := by omega
  unfold mine at h5
  split at h5
  · assumption
  · exact absurd rfl h5

theorem Step.own {ex oom : Bool} {s s' : S} (hs : Step false ex oom s s') (hc : s'.crash = false) (w : Inv ex s) (v : Own s) : Own s' := by
  have idle : ∀ {t : L}, t.pc ≠ .x → t.pc ≠ .dead → ¬ t.out := fun h1 h2 h => by rcases h with h | h <;> contradiction
  have umem : ∀ {p : Blk × Nat}, ∀ j c k o, (Blk.pool j c k, o) ∈ s.user.erase p → o = j := fun j c k o h => v.user j c k o (List.mem_of_mem_erase h)
  cases hs with
  | spawn =>
    split
    · refine ⟨?_, v.user, ?_, ?_⟩
      · intro i t ht b hb
        simp only [List.getElem?_append] at ht
        split at ht
        · exact v.lists i t ht b hb
        · have := List.mem_of_getElem? ht
          simp at this
          subst this
          simp [lc] at hb
      · intro i c hi
        obtain ⟨t, ht, h1, h2⟩ := v.rel i c hi
        refine ⟨t, ?_, h1, h2⟩
        obtain ⟨hi, _⟩ := List.getElem?_eq_some_iff.1 ht
        simp only [List.getElem?_append, hi, if_true]
        exact ht
      · intro i t ht
        simp only [List.getElem?_append] at ht
        split at ht
        · exact v.done i t ht
        · have := List.mem_of_getElem? ht
          simp at this
          subst this
          intro h; rcases h with h | h <;> cases h
    · rename_i h; rw [if_neg h] at hc; cases hc
  | take i t b r h hp hs hf =>
    have hi := v.lists i t h
    have hb := hi b (by rw [← lc_find, lc_pos, hf]; simp)
    refine v.move h (n := s.n) (m := s.nsys) (t' := t.find.hand r) ?_ ?_ (fun ho => absurd ho (idle (by simp [hp]) (by simp [hp]))) (fun ho => absurd ho (idle (by simp [L.hand]) (by simp [L.hand]))) (fun _ h => h) (fun _ _ h => .inl h)
    · intro a ha
      refine hi a ?_
      have := take_lc hf a
      rw [lc_find] at this; omega
    · intro j c k o ho
      simp only [List.mem_cons] at ho
      rcases ho with ho | ho
      · obtain ⟨c', k', e⟩ := hb
        rw [e] at ho
        simp at ho
        rw [ho.2, ho.1.1]
      · exact v.user j c k o ho
  | look i t h hp hs =>
    refine v.move h (n := s.n) (m := s.nsys) (u := s.user) (fr := s.freed) (t' := t.find.to .need) ?_ v.user (fun ho => absurd ho (idle (by simp [hp]) (by simp [hp]))) (fun ho => absurd ho (idle (by simp [L.to]) (by simp [L.to]))) (fun _ h => h) (fun _ _ h => .inl h)
    intro b hb
    refine v.lists i t h b ?_
    rw [← lc_find]; exact hb
  | below i t h hp hn =>
    exact v.move h (n := s.n) (m := s.nsys) (u := s.user) (fr := s.freed) (t' := t.to .grow) (v.lists i t h) v.user (fun ho => absurd ho (idle (by simp [hp]) (by simp [hp]))) (fun ho => absurd ho (idle (by simp [L.to]) (by simp [L.to]))) (fun _ h => h) (fun _ _ h => .inl h)
  | full i t h hp hn =>
    split
    · exact v.move h (n := s.n) (m := s.nsys) (u := s.user) (fr := s.freed) (t' := t.to .sys) (v.lists i t h) v.user (fun ho => absurd ho (idle (by simp [hp]) (by simp [hp]))) (fun ho => absurd ho (idle (by simp [L.to]) (by simp [L.to]))) (fun _ h => h) (fun _ _ h => .inl h)
    · rename_i b r hf
      have hi := v.lists i t h
      have hb := hi b (by rw [lc_pos, hf]; simp)
      refine v.move h (n := s.n) (m := s.nsys) (t' := t.hand r) ?_ ?_ (fun ho => absurd ho (idle (by simp [hp]) (by simp [hp]))) (fun ho => absurd ho (idle (by simp [L.hand]) (by simp [L.hand]))) (fun _ h => h) (fun _ _ h => .inl h)
      · intro a ha
        refine hi a ?_
        have := take_lc hf a
        omega
      · intro j c k o ho
        simp only [List.mem_cons] at ho
        rcases ho with ho | ho
        · obtain ⟨c', k', e⟩ := hb
          rw [e] at ho
          simp at ho
          rw [ho.2, ho.1.1]
        · exact v.user j c k o ho
  | grow i t b r h hp hf =>
    have hi : ∀ a, lc a (t.chunk i) ≠ 0 → ∃ c k, a = Blk.pool i c k := by
      intro a ha
      rw [lc_pos] at ha
      simp only [L.chunk, List.mem_append] at ha
      rcases ha with (ha | ha) | ha | ha
      · simp [blocks] at ha
        obtain ⟨k, _, rfl⟩ := ha
        exact ⟨_, k, rfl⟩
      · exact v.lists i t h a (lc_pos.2 (.inl ha))
      · exact v.lists i t h a (lc_pos.2 (.inr (.inl ha)))
      · exact v.lists i t h a (lc_pos.2 (.inr (.inr ha)))
    have hb := hi b (by rw [lc_pos, hf]; simp)
    refine v.move h (n := s.n + 1) (m := s.nsys) (u := (b, i) :: s.user) (fr := s.freed) (t' := (t.chunk i).hand r) ?_ ?_ (fun ho => absurd ho (idle (by simp [hp]) (by simp [hp]))) (fun ho => absurd ho (idle (by simp [L.hand]) (by simp [L.hand]))) (fun _ h => h) (fun _ _ h => .inl h)
    · intro a ha
      refine hi a ?_
      have := take_lc hf a
      omega
    · intro j c k o ho
      simp only [List.mem_cons] at ho
      rcases ho with ho | ho
      · obtain ⟨c', k', e⟩ := hb
        rw [e] at ho
        simp at ho
        rw [ho.2, ho.1.1]
      · exact v.user j c k o ho
  | system i t h hp =>
    refine v.move h (n := s.n) (m := s.nsys + 1) (t' := t.to .idle) (v.lists i t h) ?_ (fun ho => absurd ho (idle (by simp [hp]) (by simp [hp]))) (fun ho => absurd ho (idle (by simp [L.to]) (by simp [L.to]))) (fun _ h => h) (fun _ _ h => .inl h)
    intro j c k o ho
    simp at ho
    exact v.user j c k o ho
  | none => cases hc
  | freeSys => exact ⟨v.lists, umem, v.rel, v.done⟩
  | free i j c k t t' h hp hu ht =>
    split
    · rename_i hb; rw [if_pos hb] at hc; cases hc
    · have hj := v.user _ _ _ _ hu
      subst hj
      have hpc := (same_trim (t'.free.length - 24) t').2.2
      refine v.move h (n := s.n) (m := s.nsys) ?_ umem (fun ho => absurd ho (idle (by simp [hp]) (by simp [hp]))) (fun ho => absurd ho (idle (by rw [hpc, ht]; simp [hp]) (by rw [hpc, ht]; simp [hp]))) (fun _ h => h) (fun _ _ h => .inl h)
      intro b hb
      rw [lc_trim, ht] at hb
      by_cases e : b = .pool i c k
      · exact ⟨c, k, e⟩
      · refine v.lists i t h b ?_
        have h0 : eq1 (.pool i c k) b = 0 := by unfold eq1; rw [if_neg (fun e' => e e'.symm)]
        unfold lc at hb ⊢
        simp only [count_cons', h0] at hb
        exact hb
  | cross i j c k o t h hp hu ho hx => cases hx
  | exit i t h hp he =>
    split
    · rename_i hb; rw [if_pos hb] at hc; cases hc
    · refine v.move h (n := s.n) (m := s.nsys) (u := s.user) (fr := s.freed) ?_ v.user (fun ho => absurd ho (idle (by simp [hp]) (by simp [hp]))) ?_ (fun _ h => h) (fun _ _ h => .inl h)
      · intro b hb
        refine v.lists i t h b ?_
        rw [← lc_drain, ← lc_trim b t.drain.free.length]; exact hb
      · intro _ b hb
        have ok := w.th t (List.mem_of_getElem? h)
        have hfr : Fr t.drain := ok.fr (by simp [hp]) (by simp [hp])
        exact .inl (Fr.trim t.drain.free.length hfr b hb)
  | release i c f t h hp hf =>
    have mem := List.mem_of_getElem? h
    split
    · rename_i h32
      refine v.move h (n := s.n - 1) (m := s.nsys) (u := s.user) (t' := { t with front := f }) (v.lists i t h) v.user (fun ho => ⟨ho, rfl⟩) ?_ (fun p hp => List.mem_cons_of_mem _ hp) ?_
      · intro ho b hb
        by_cases e : b.ch = c
        · exact .inr (.inl (by rw [e]; exact List.mem_cons_self))
        · rcases v.done i t h ho b hb with h1 | h1 | h1
          · rw [hf] at h1
            simp only [List.mem_cons] at h1
            exact .inl (h1.resolve_left e)
          · exact .inr (.inl (List.mem_cons_of_mem _ h1))
          · exact .inr (.inr h1)
      · intro j d hj
        simp only [List.mem_cons, Prod.mk.injEq] at hj
        rcases hj with ⟨rfl, rfl⟩ | hj
        · right
          refine ⟨rfl, .inl hp, fun k hk => ?_⟩
          have := nodup_full (i := j) (c := d) (l := t.back.filter (fun b => b.ch == d)) ((back_nodup w mem).filter _) (fun b hb => by
            simp only [List.mem_filter, beq_iff_eq] at hb
            have hl := lc_pos.2 (.inr (.inr hb.1))
            obtain ⟨c', k', rfl⟩ := v.lists j t h b hl
            have := hb.2
            simp only [Blk.ch] at this
            subst this
            exact ⟨k', rfl, (range_of w mem hl).2.2⟩) h32 hk
          exact (List.mem_filter.1 this).1
        · exact .inl hj
    · rename_i h32
      refine v.move h (n := s.n) (m := s.nsys) (u := s.user) (fr := s.freed) (t' := { t with front := f }) (v.lists i t h) v.user (fun ho => ⟨ho, rfl⟩) ?_ (fun _ h => h) (fun _ _ h => .inl h)
      intro ho b hb
      by_cases e : b.ch = c
      · exact .inr (.inr (by rw [e]; exact h32))
      · rcases v.done i t h ho b hb with h1 | h1 | h1
        · rw [hf] at h1
          simp only [List.mem_cons] at h1
          exact .inl (h1.resolve_left e)
        · exact .inr (.inl h1)
        · exact .inr (.inr h1)
  | gone i t h hp hf =>
    refine v.move h (n := s.n) (m := s.nsys) (u := s.user) (fr := s.freed) (t' := t.to .dead) (v.lists i t h) v.user (fun ho => ⟨.inr rfl, rfl⟩) ?_ (fun _ h => h) (fun _ _ h => .inl h)
    intro _ b hb
    exact v.done i t h (.inl hp) b hb

theorem Reach.own {ex oom : Bool} {thr cm : Nat} {s : S} (h : Reach false ex oom thr cm s) (hc : s.crash = false) : Own s := by
  induction h with
  | init => exact ⟨fun i t ht => by simp [S.init] at ht, fun j c k o h => by simp [S.init] at h, fun i c h => by simp [S.init] at h, fun i t ht => by simp [S.init] at ht⟩
  | step h hc' hs ih => exact hs.own hc (h.inv hc') (ih hc')

/-- **C122.** If each thread gives back its own blocks only, a chunk that is given back to the system has no block that is still handed out, even when threads end. -/
theorem C122_exit {ex oom : Bool} {thr cm : Nat} {s : S} (h : Reach false ex oom thr cm s) (hc : s.crash = false) {i c k o : Nat} (hu : (Blk.pool i c k, o) ∈ s.user) : (i, c) ∉ s.freed := by
  intro hf
  obtain ⟨t, ht, _, hb⟩ := (h.own hc).rel i c hf
  have w := h.inv hc
  have hk : k < 32 := by
    have h1 := w.one i c k
    have h2 := uc_pos.2 ⟨o, hu⟩
    have h5 : mine s.th i c k ≠ 0 := by omega
    unfold mine at h5
    split at h5
    · rename_i h; exact h.2.2
    · exact absurd rfl h5
  exact (C122_apart h hc hu t (List.mem_of_getElem? ht)).2.2 (hb k hk)

/-- **C122.** And after a thread ended, each of its chunks was given back to the system, unless somebody still has one of its blocks. -/
theorem C122_noleak {ex oom : Bool} {thr cm : Nat} {s : S} (h : Reach false ex oom thr cm s) (hc : s.crash = false) {i c : Nat} {t : L} (ht : s.th[i]? = some t) (hp : t.pc = .dead) (h1 : 1 ≤ c) (h2 : c ≤ t.cid) :
    (i, c) ∈ s.freed ∨ ∃ k o, (Blk.pool i c k, o) ∈ s.user := by
  by_cases hu : ∃ k o, (Blk.pool i c k, o) ∈ s.user
  · exact .inr hu
  · left
    have w := h.inv hc
    have v := h.own hc
    have mem := List.mem_of_getElem? ht
    have ok := w.th t mem
    have hb : ∀ k, k < 32 → Blk.pool i c k ∈ t.back := by
      intro k hk
      rcases C122_kept h hc ht h1 h2 hk with ⟨o, ho⟩ | ⟨t', ht', hl⟩
      · exact absurd ⟨k, o, ho⟩ hu
      · obtain ⟨j, hj⟩ := List.getElem?_of_mem ht'
        obtain ⟨c', k', e⟩ := v.lists j t' hj _ (lc_pos.2 hl)
        simp only [Blk.pool.injEq] at e
        obtain ⟨rfl, _, _⟩ := e
        rw [ht] at hj
        cases hj
        obtain ⟨e1, e2⟩ := ok.out (.inr hp)
        rw [e1, e2] at hl
        simpa using hl
    have h32 : (t.back.filter (fun a => a.ch == c)).length = 32 := by
      have le := List.Nodup.length_le_of_subset (l₂ := (List.range 32).map (fun k => Blk.pool i c k)) ((back_nodup w mem).filter (fun a => a.ch == c)) (fun b hb' => by
        simp only [List.mem_filter, beq_iff_eq] at hb'
        have hl := lc_pos.2 (.inr (.inr hb'.1))
        obtain ⟨c', k', rfl⟩ := v.lists i t ht b hl
        have := hb'.2
        simp only [Blk.ch] at this
        subst this
        exact List.mem_map.2 ⟨k', List.mem_range.2 (range_of w mem hl).2.2, rfl⟩)
      have ge := List.Nodup.length_le_of_subset (l₁ := (List.range 32).map (fun k => Blk.pool i c k)) (l₂ := t.back.filter (fun a => a.ch == c)) (by
        have : (blocks i c).Nodup := by
          rw [List.nodup_iff_count]
          intro b
          cases b with
          | sys n => rw [count_blocks_sys]; omega
          | pool j d k => rw [count_blocks]; split <;> omega
        unfold blocks at this
        rw [List.nodup_iff_count] at this ⊢
        intro b
        rw [← List.count_reverse]
        exact this b) (fun b hb' => by
        obtain ⟨k, hk, rfl⟩ := List.mem_map.1 hb'
        exact List.mem_filter.2 ⟨hb k (List.mem_range.1 hk), by simp [Blk.ch]⟩)
      simp only [List.length_map, List.length_range] at le ge
      omega
    have := v.done i t ht (.inr hp) (.pool i c 0) (hb 0 (by omega))
    rw [ok.dead hp] at this
    simp only [Blk.ch] at this
    rcases this with h | h | h
    · cases h
    · exact h
    · exact absurd h32 h

/-- **C122.** If the system has memory and less than 1024 threads used the pool, nothing goes wrong as long as each thread gives back its own blocks only, or no thread made 200 chunks. -/
theorem C122_safe {x ex : Bool} {thr cm : Nat} {s : S} (h : Reach x ex false thr cm s) (h1 : s.th.length < 1024) (h2 : x = false ∨ ∀ t ∈ s.th, t.cid < 200) : s.crash = false := by
  cases h with
  | init => rfl
  | @step s _ h hc hs =>
    have w := h.inv hc
    have good : ∀ {i : Nat} {t : L} {t' : L} (n : Nat), s.th[i]? = some t → t'.size = t.size → (∀ b ∈ t'.free, (∃ t ∈ s.th, lc b t ≠ 0) ∨ ∃ o, (b, o) ∈ s.user) → (x = false → ∀ b ∈ t'.free, ∃ c k, b = Blk.pool i c k) → (∀ n, Blk.sys n ∉ t'.free) →
        (x = false ∨ ∀ t ∈ s.th, t.cid < 200) → ¬ t'.bad n = true := by
      intro i t t' n ht hsz hin hx hsys h2 hbad
      unfold L.bad at hbad
      simp only [List.any_eq_true, decide_eq_true_eq] at hbad
      obtain ⟨b, hb, hle⟩ := hbad
      have hb := List.mem_of_mem_take hb
      have ok := (w.th t (List.mem_of_getElem? ht)).size
      cases b with
      | sys m => exact hsys m hb
      | pool j c k =>
        have hr : 1 ≤ c ∧ c ≤ cidOf s.th j ∧ k < 32 := by
          rcases hin _ hb with ⟨a, ha, hl⟩ | ⟨o, ho⟩
          · exact range_of w ha hl
          · have h1 := w.one j c k
            have h2 := uc_pos.2 ⟨o, ho⟩
            have h5 : mine s.th j c k ≠ 0 := by omega
            unfold mine at h5
            split at h5
            · assumption
            · exact absurd rfl h5
        simp only [Blk.ch] at hle
        rw [hsz] at hle
        rcases h2 with h2 | h2
        · obtain ⟨c', k', e⟩ := hx h2 _ hb
          simp only [Blk.pool.injEq] at e
          obtain ⟨rfl, _, _⟩ := e
          have := hr.2.1
          simp only [cidOf, ht, Option.map_some, Option.getD_some] at this
          omega
        · have := hr.2.1
          unfold cidOf at this
          cases e : s.th[j]? with
          | none => rw [e] at this; simp at this; omega
          | some a =>
            rw [e] at this
            have := h2 a (List.mem_of_getElem? e)
            simp at *
            omega
    cases hs with
    | spawn =>
      split
      · exact hc
      · rename_i h; rw [if_neg h] at h1; exact absurd h1 h
    | full i t h hp hn => split <;> exact hc
    | none i t h hp ho => cases ho
    | free i j c k t t' h' hp hu ht =>
      have hsys : ∀ n, Blk.sys n ∉ t'.free := by
        intro n hn
        rw [ht] at hn
        simp at hn
        have := (w.th t (List.mem_of_getElem? h')).sys n
        exact absurd this (lc_pos.2 (.inl hn))
      have hb : ¬ t'.bad (t'.free.length - 24) = true := by
        intro hbad
        refine good (t' := t') (t'.free.length - 24) h' (by rw [ht]) ?_ ?_ hsys ?_ hbad
        · intro b hb
          rw [ht] at hb
          simp only [List.mem_cons] at hb
          rcases hb with rfl | hb
          · exact .inr ⟨i, hu⟩
          · exact .inl ⟨t, List.mem_of_getElem? h', lc_pos.2 (.inl hb)⟩
        · intro hx b hb
          subst hx
          have v := h.own hc
          rw [ht] at hb
          simp only [List.mem_cons] at hb
          rcases hb with rfl | hb
          · have := v.user _ _ _ _ hu; subst this; exact ⟨c, k, rfl⟩
          · exact v.lists i t h' b (lc_pos.2 (.inl hb))
        · rw [if_pos hbad] at h2; exact h2
      rw [if_neg hb]; exact hc
    | exit i t h' hp he =>
      have ok := w.th t (List.mem_of_getElem? h')
      have hl : ∀ b ∈ t.drain.free, lc b t ≠ 0 := fun b hb => by rw [← lc_drain, lc_pos]; exact .inl hb
      have hb : ¬ t.drain.bad t.drain.free.length = true := by
        intro hbad
        refine good (t' := t.drain) t.drain.free.length h' rfl ?_ ?_ ?_ ?_ hbad
        · exact fun b hb => .inl ⟨t, List.mem_of_getElem? h', hl b hb⟩
        · intro hx b hb
          subst hx
          exact (h.own hc).lists i t h' b (hl b hb)
        · exact fun n hn => hl _ hn (ok.sys n)
        · rw [if_pos hbad] at h2; exact h2
      rw [if_neg hb]; exact hc
    | release i c f t h' hp hf => split <;> exact hc
    | _ => exact hc

end Verif.Pool.Shared
