import Verif.Pool.SharedInv

/-!
# C122: blocks of the pool with one pool for each thread
-/

namespace Verif.Pool.Shared

theorem mine_le (th : List L) (i c k : Nat) : mine th i c k ≤ 1 := by unfold mine; split <;> omega

/-- **C122.** No block is handed out again before it was given back. -/
theorem C122_once {x ex oom : Bool} {thr cm : Nat} {s : S} (h : Reach x ex oom thr cm s) (hc : s.crash = false) : (s.user.map Prod.fst).Nodup := by
  have v := h.inv hc
  rw [List.nodup_iff_count]
  intro b
  show uc b s.user ≤ 1
  cases b with
  | pool i c k => have := v.one i c k; have := mine_le s.th i c k; omega
  | sys n => have := v.sys n; split at this <;> omega

theorem lc_pos {b : Blk} {t : L} : lc b t ≠ 0 ↔ b ∈ t.free ∨ b ∈ t.xcpu ∨ b ∈ t.back := by
  have h1 := @List.count_pos_iff _ _ _ b t.free
  have h2 := @List.count_pos_iff _ _ _ b t.xcpu
  have h3 := @List.count_pos_iff _ _ _ b t.back
  unfold lc
  rw [← h1, ← h2, ← h3]
  omega

theorem uc_pos {b : Blk} {u : List (Blk × Nat)} : uc b u ≠ 0 ↔ ∃ o, (b, o) ∈ u := by
  have h1 := @List.count_pos_iff _ _ _ b (u.map Prod.fst)
  unfold uc
  rw [← Nat.pos_iff_ne_zero, h1]
  simp

/-- **C122.** A block that somebody has is in no list. -/
theorem C122_apart {x ex oom : Bool} {thr cm : Nat} {s : S} (h : Reach x ex oom thr cm s) (hc : s.crash = false) {b : Blk} {o : Nat} (hb : (b, o) ∈ s.user) : ∀ t ∈ s.th, b ∉ t.free ∧ b ∉ t.xcpu ∧ b ∉ t.back := by
  intro t ht
  have v := h.inv hc
  have : lc b t = 0 := by
    cases b with
    | sys n => exact (v.th t ht).sys n
    | pool i c k =>
      have h1 := v.one i c k
      have h2 := mine_le s.th i c k
      have h3 := uc_pos.2 ⟨o, hb⟩
      obtain ⟨j, hj⟩ := List.getElem?_of_mem ht
      have h4 := wsum_mem (f := lc (.pool i c k)) hj
      omega
  have := mt lc_pos.2 (by omega : ¬ lc b t ≠ 0)
  exact ⟨fun h => this (.inl h), fun h => this (.inr (.inl h)), fun h => this (.inr (.inr h))⟩

/-- **C122.** No block gets lost: each block of a chunk is with somebody or in a list of some thread. -/
theorem C122_kept {x ex oom : Bool} {thr cm : Nat} {s : S} (h : Reach x ex oom thr cm s) (hc : s.crash = false) {i c k : Nat} {t : L} (ht : s.th[i]? = some t) (h1 : 1 ≤ c) (h2 : c ≤ t.cid) (h3 : k < 32) :
    (∃ o, (Blk.pool i c k, o) ∈ s.user) ∨ ∃ t ∈ s.th, Blk.pool i c k ∈ t.free ∨ Blk.pool i c k ∈ t.xcpu ∨ Blk.pool i c k ∈ t.back := by
  have v := (h.inv hc).one i c k
  rw [mine, if_pos ⟨h1, by simp [cidOf, ht, h2], h3⟩] at v
  by_cases hu : uc (.pool i c k) s.user = 0
  · right
    obtain ⟨j, t, hj, hp⟩ := wsum_pos (f := lc (.pool i c k)) (l := s.th) (by omega)
    exact ⟨t, List.mem_of_getElem? hj, lc_pos.1 (by omega)⟩
  · exact .inl (uc_pos.1 hu)

/-- **C122.** A thread asks for more memory only when less than 24 of the blocks that it was given back are left, and then they are all in its list. -/
theorem C122_reuse {x ex oom : Bool} {thr cm : Nat} {s : S} (h : Reach x ex oom thr cm s) (hc : s.crash = false) {i : Nat} {t : L} (ht : s.th[i]? = some t) (hp : t.pc = .idle) (hs : t.short) :
    t.find.free.length < 24 ∧ t.find.xcpu = [] ∧ t.find.back = [] := by
  have ok := (h.inv hc).th t (List.mem_of_getElem? ht)
  have hfr : Fr t.drain := ok.fr (by simp [hp]) (by simp [hp])
  obtain ⟨h1, h2⟩ := hs
  have e : t.find = t.drain.gather t.drain.front := by unfold L.find; rw [if_pos h1]
  have hx : ∀ (f : List Nat) (t : L), (t.gather f).xcpu = t.xcpu := by
    intro f
    induction f with
    | nil => intro t; rfl
    | cons c f ih => intro t; unfold L.gather; split
                     · rw [ih]
                     · rfl
  refine ⟨h2, ?_, ?_⟩
  · rw [e, hx]; rfl
  · rw [e] at h2 ⊢
    exact gather_short _ rfl hfr h2

/-! ## The size of the pool -/

def gr (t : L) : Nat := if t.pc = .grow then 1 else 0

theorem gr_le (l : List L) : wsum gr l ≤ l.length := by
  rw [← wsum_one (l := l)]
  exact wsum_le (fun t => by unfold gr; split <;> omega)

structure Small (thr cm : Nat) (s : S) : Prop where
  cfg : s.thr = thr ∧ s.cm = cm
  few : s.th.length ≤ 1024
  le : (s.n + wsum gr s.th) * cm < thr + (s.th.length) * cm + 1

theorem Small.move {thr cm : Nat} {s : S} (v : Small thr cm s) {i : Nat} {t t' : L} (h : s.th[i]? = some t) {n : Nat} {u : List (Blk × Nat)} {fr : List (Nat × Nat)} (hg : n + gr t' ≤ s.n + gr t) :
    Small thr cm { (s.at i t') with user := u, n := n, freed := fr } := by
  refine ⟨v.cfg, by simpa [S.at] using v.few, ?_⟩
  have h1 := wsum_set (f := gr) (b := t') h
  have h2 : (n + wsum gr (s.th.set i t')) * cm ≤ (s.n + wsum gr s.th) * cm := Nat.mul_le_mul_right _ (by omega)
  have := v.le
  simp only [S.at, List.length_set]
  omega

theorem gr_idle {t : L} (h : t.pc ≠ .grow) : gr t = 0 := by unfold gr; rw [if_neg h]

theorem Step.small {x ex oom : Bool} {thr cm : Nat} {s s' : S} (hw : thr + 1024 * cm < 2 ^ 32) (hs : Step x ex oom s s') (v : Small thr cm s) : Small thr cm s' := by
  cases hs with
  | spawn =>
    split
    · rename_i h
      refine ⟨v.cfg, by simp; omega, ?_⟩
      have := v.le
      have e : wsum gr (s.th ++ [({} : L)]) = wsum gr s.th := by simp [wsum, gr]
      simp only [e, List.length_append, List.length_singleton, Nat.add_mul]
      simp only [Nat.add_mul] at this
      omega
    · exact ⟨v.cfg, v.few, v.le⟩
  | take i t b r h hp hs hf => exact v.move h (n := s.n) (by rw [gr_idle (t := t.find.hand r) (by simp [L.hand])]; omega)
  | look i t h hp hs => exact v.move h (n := s.n) (u := s.user) (fr := s.freed) (by rw [gr_idle (t := t.find.to .need) (by simp [L.to])]; omega)
  | below i t h hp hn =>
    refine ⟨v.cfg, by simpa [S.at] using v.few, ?_⟩
    have h1 := wsum_set (f := gr) (b := t.to .grow) h
    have h2 : gr (t.to .grow) = 1 := rfl
    have h3 := gr_idle (t := t) (by simp [hp])
    have h4 := gr_le (s.th.set i (t.to .grow))
    rw [List.length_set] at h4
    have h5 := v.le
    have h6 := v.few
    have hn : s.n * cm < thr := by
      unfold S.full at hn
      rw [v.cfg.1, v.cfg.2] at hn
      have h7 : s.n * cm ≤ (s.n + wsum gr s.th) * cm := Nat.mul_le_mul_right _ (by omega)
      have h8 : s.th.length * cm ≤ 1024 * cm := Nat.mul_le_mul_right _ h6
      rw [Nat.mod_eq_of_lt (by omega)] at hn
      omega
    have h9 : wsum gr (s.th.set i (t.to .grow)) * cm ≤ s.th.length * cm := Nat.mul_le_mul_right _ h4
    simp only [S.at, List.length_set]
    rw [Nat.add_mul]
    omega
  | full i t h hp hn =>
    split
    · exact v.move h (n := s.n) (u := s.user) (fr := s.freed) (by rw [gr_idle (t := t.to .sys) (by simp [L.to])]; omega)
    · rename_i b r hf
      exact v.move h (n := s.n) (by rw [gr_idle (t := t.hand r) (by simp [L.hand])]; omega)
  | grow i t b r h hp hf =>
    refine v.move h (n := s.n + 1) ?_
    rw [gr_idle (t := (t.chunk i).hand r) (by simp [L.hand])]
    unfold gr; rw [if_pos hp]; omega
  | system i t h hp =>
    have := v.move h (t' := t.to .idle) (n := s.n) (u := (.sys s.nsys, i) :: s.user) (fr := s.freed) (by rw [gr_idle (t := t.to .idle) (by simp [L.to])]; omega)
    exact ⟨this.cfg, this.few, this.le⟩
  | none => exact ⟨v.cfg, v.few, v.le⟩
  | freeSys => exact ⟨v.cfg, v.few, v.le⟩
  | free i j c k t t' h hp hu ht =>
    split
    · exact ⟨v.cfg, v.few, v.le⟩
    · refine v.move h (n := s.n) ?_
      rw [gr_idle (by rw [(same_trim _ t').2.2, ht]; simp [hp])]; omega
  | cross i j c k o t h hp hu ho hx =>
    refine v.move h (n := s.n) ?_
    rw [gr_idle (by simp [hp])]; omega
  | exit i t h hp he =>
    split
    · exact ⟨v.cfg, v.few, v.le⟩
    · refine v.move h (n := s.n) (u := s.user) (fr := s.freed) ?_
      rw [gr_idle (by simp [L.to])]; omega
  | release i c f t h hp hf =>
    have e : gr { t with front := f } = gr t := rfl
    split
    · exact v.move h (n := s.n - 1) (u := s.user) (by omega)
    · exact v.move h (n := s.n) (u := s.user) (fr := s.freed) (by omega)
  | gone i t h hp hf =>
    refine v.move h (n := s.n) (u := s.user) (fr := s.freed) ?_
    rw [gr_idle (by simp [L.to])]; omega

/-- **C122.** The pool exceeds its limit by at most one chunk for each thread (if 32 bits are enough for that). -/
theorem C122_bound {x ex oom : Bool} {thr cm : Nat} (hw : thr + 1024 * cm < 2 ^ 32) {s : S} (h : Reach x ex oom thr cm s) : s.n * cm ≤ thr + s.th.length * cm := by
  have v : Small thr cm s := by
    induction h with
    | init => exact ⟨⟨rfl, rfl⟩, by simp [S.init], by simp [S.init, wsum]⟩
    | step h hc hs ih => exact hs.small hw ih
  have := v.le
  rw [Nat.add_mul] at this
  omega

/-- **C122.** No chunk is given back to the system while threads run. -/
theorem C122_running {x oom : Bool} {thr cm : Nat} {s : S} (h : Reach x false oom thr cm s) (hc : s.crash = false) : s.freed = [] := (h.inv hc).freed rfl

end Verif.Pool.Shared
