import Verif.Container.FixedPool

/-!
# C168, C169: blocks of the fixed-size pool
-/

namespace Verif.Container.FixedPool

/-- The free blocks, from the head -/
def Chain (word : Nat → Nat) : Nat → List Nat → Prop
  | _, [] => True
  | h, x :: l => h = x ∧ Chain word (word x) l

theorem chain_congr {w w' : Nat → Nat} : ∀ {l : List Nat} {h : Nat}, Chain w h l → (∀ x ∈ l, w' x = w x) → Chain w' h l := by
  intro l
  induction l with
  | nil => intros; trivial
  | cons x l ih =>
    intro h hc hx
    refine ⟨hc.1, ?_⟩
    rw [hx x (by simp)]
    exact ih hc.2 (fun y hy => hx y (List.mem_cons_of_mem _ hy))

theorem chain_range (k : Nat) : ∀ a, Chain (fun i => i + 1) a (List.range' a k) := by
  induction k with
  | zero => intro a; trivial
  | succ k ih => intro a; rw [List.range'_succ]; exact ⟨rfl, ih (a + 1)⟩

theorem blockSize_spec (size : Nat) : size ≤ blockSize size ∧ 8 ≤ blockSize size ∧ blockSize size % 8 = 0 ∧ blockSize size < max size 8 + 8 := by
  unfold blockSize
  simp only
  split <;> omega

structure Inv (base n size : Nat) (u : List Nat) (p : P) (f is : List Nat) : Prop where
  hbase : p.base = base
  sz : p.sz = blockSize size
  hn : p.n = n
  used : u = is.map (fun i => base + i * blockSize size)
  chain : Chain p.word p.head f
  avail : p.avail = f.length
  nodup : (f ++ is).Nodup
  below : ∀ i ∈ f ++ is, i < n
  all : f.length + is.length = n

theorem idx {base size i : Nat} : (base + i * blockSize size - base) / blockSize size = i := by
  have := (blockSize_spec size).2.1
  rw [Nat.add_sub_cancel_left, Nat.mul_div_cancel _ (by omega)]

theorem addr_inj {base size i j : Nat} (h : base + i * blockSize size = base + j * blockSize size) : i = j := by
  have h1 := idx (base := base) (size := size) (i := i)
  rw [h, idx] at h1
  exact h1.symm

theorem erase_map {base size : Nat} {i : Nat} : ∀ {is : List Nat}, (is.map (fun i => base + i * blockSize size)).erase (base + i * blockSize size) = (is.erase i).map (fun i => base + i * blockSize size) := by
  intro is
  induction is with
  | nil => rfl
  | cons x l ih =>
    simp only [List.map_cons, List.erase_cons]
    by_cases h : x = i
    · subst h; simp
    · have : base + x * blockSize size ≠ base + i * blockSize size := fun e => h (addr_inj e)
      rw [if_neg (by simpa using this), if_neg (by simpa using h), ih]; rfl

/-- What `Deallocate` does with a block that is held. -/
theorem free_used {base n size u p f is} (w : Inv base n size u p f is) {i : Nat} (hi : i ∈ is) :
    p.free (base + i * blockSize size) = .yes { p with word := upd p.word i p.head, head := i, avail := p.avail + 1 } := by
  have hlt : i < n := w.below i (List.mem_append_right _ hi)
  have h1 : i * blockSize size ≤ blockSize size * n := by
    rw [Nat.mul_comm]; exact Nat.mul_le_mul_left _ (Nat.le_of_lt hlt)
  have h2 := List.length_pos_of_mem hi
  have h3 := w.all
  have h4 := w.avail
  unfold P.free
  rw [w.hbase, w.sz, w.hn, if_neg (by omega), if_neg (by omega)]
  simp only [idx]
  rw [if_neg (by omega)]

theorem inv {base n size u p} (r : Run base n size u p) : ∃ f is, Inv base n size u p f is := by
  induction r with
  | init =>
    refine ⟨List.range' 0 n, [], rfl, rfl, rfl, rfl, chain_range n 0, by simp [P.init], by simp [List.nodup_range'], ?_, by simp⟩
    intro i hi
    simp only [List.append_nil, List.mem_range'_1] at hi
    omega
  | @alloc u p a p' r e ih =>
    obtain ⟨f, is, w⟩ := ih
    have hav := w.avail
    have hn := w.nodup
    have hb := w.below
    have ha := w.all
    cases f with
    | nil => simp [P.alloc, hav] at e
    | cons x f =>
      have h0 : p.avail ≠ 0 := by rw [hav]; simp
      obtain ⟨hx, hc⟩ := w.chain
      simp only [P.alloc, h0, if_false, hx, Option.some.injEq, Prod.mk.injEq] at e
      obtain ⟨rfl, rfl⟩ := e
      refine ⟨f, x :: is, w.hbase, w.sz, w.hn, ?_, ?_, ?_, ?_, ?_, ?_⟩
      · rw [w.used, w.hbase, w.sz]; rfl
      · refine chain_congr hc (fun y hy => upd_ne _ _ (fun e => ?_))
        rw [e] at hy
        simp only [List.cons_append, List.nodup_cons] at hn
        exact hn.1 (List.mem_append_left _ hy)
      · simp only [hav, List.length_cons]; omega
      · exact (List.perm_middle.nodup_iff).mpr hn
      · intro i hi; exact hb i ((List.perm_middle.mem_iff).mp hi)
      · simp only [List.length_cons] at ha ⊢; omega
  | @free u p a p' r hm e ih =>
    obtain ⟨f, is, w⟩ := ih
    rw [w.used] at hm
    obtain ⟨i, hi, rfl⟩ := List.mem_map.mp hm
    rw [free_used w hi] at e
    cases e
    have hp : (f ++ is).Perm (i :: f ++ is.erase i) :=
      ((List.perm_cons_erase hi).append_left f).trans List.perm_middle
    have hlen := hp.length_eq
    have ha := w.all
    refine ⟨i :: f, is.erase i, w.hbase, w.sz, w.hn, ?_, ?_, ?_, hp.nodup_iff.mp w.nodup, ?_, ?_⟩
    · rw [w.used]; exact erase_map
    · refine ⟨rfl, ?_⟩
      simp only [upd_same]
      refine chain_congr w.chain (fun y hy => upd_ne _ _ (fun e => ?_))
      exact (List.nodup_append.mp w.nodup).2.2 y hy i hi e
    · simp [w.avail]
    · intro j hj; exact w.below j (hp.mem_iff.mpr hj)
    · simp only [List.length_append] at hlen; omega
  | @write u p a v r hm ih =>
    obtain ⟨f, is, w⟩ := ih
    have hm' := hm
    rw [w.used] at hm'
    obtain ⟨i, hi, rfl⟩ := List.mem_map.mp hm'
    refine ⟨f, is, w.hbase, w.sz, w.hn, w.used, ?_, w.avail, w.nodup, w.below, w.all⟩
    simp only [P.write, w.hbase, w.sz, idx]
    refine chain_congr w.chain (fun y hy => upd_ne _ _ (fun e => ?_))
    exact (List.nodup_append.mp w.nodup).2.2 y hy i hi e

/-- **C168.** `Allocate` returns false if and only if all blocks are held. -/
theorem C168_full {base n size u p} (r : Run base n size u p) : (p.alloc = none ↔ u.length = n) ∧ u.length ≤ n := by
  obtain ⟨f, is, w⟩ := inv r
  have h1 := w.avail
  have h2 := w.all
  have h3 : u.length = is.length := by rw [w.used]; simp
  refine ⟨?_, by omega⟩
  unfold P.alloc
  by_cases h0 : p.avail = 0
  · simp only [h0, if_true, true_iff]; omega
  · simp only [h0, if_false, reduceCtorEq, false_iff]; omega

/-- **C168.** Blocks that are held lie in the memory of the pool, have at least the size asked for, are aligned as its beginning is (to 8), and do not overlap. -/
theorem C168_apart {base n size u p} (r : Run base n size u p) :
    (∀ a ∈ u, base ≤ a ∧ a + size ≤ base + blockSize size * n ∧ (a - base) % 8 = 0) ∧ u.Pairwise (fun a b => a + size ≤ b ∨ b + size ≤ a) := by
  obtain ⟨f, is, w⟩ := inv r
  obtain ⟨s1, s2, s3, _⟩ := blockSize_spec size
  have step : ∀ i j, i < j → i * blockSize size + blockSize size ≤ j * blockSize size := by
    intro i j h
    have := Nat.mul_le_mul_right (blockSize size) (show i + 1 ≤ j from h)
    rw [Nat.succ_mul] at this; exact this
  constructor
  · intro a ha
    rw [w.used] at ha
    obtain ⟨i, hi, rfl⟩ := List.mem_map.mp ha
    have := step i n (w.below i (List.mem_append_right _ hi))
    rw [Nat.mul_comm (blockSize size) n]
    refine ⟨by omega, by omega, ?_⟩
    rw [Nat.add_sub_cancel_left, Nat.mul_mod, s3]; simp
  · rw [w.used]
    refine List.pairwise_map.mpr ((List.nodup_append.mp w.nodup).2.1.imp ?_)
    intro i j hne
    rcases Nat.lt_or_gt_of_ne hne with h | h
    · have := step i j h; left; omega
    · have := step j i h; right; omega

/-- **C168.** A block that is held can be released, and one outside of the memory of the pool (and not right behind it) is refused. -/
theorem C168_free {base n size u p} (r : Run base n size u p) (a : Nat) : (a ∈ u → ∃ p', p.free a = .yes p') ∧ (a < base ∨ a > base + blockSize size * n → p.free a = .no) := by
  obtain ⟨f, is, w⟩ := inv r
  refine ⟨fun ha => ?_, fun ha => ?_⟩
  · rw [w.used] at ha
    obtain ⟨i, hi, rfl⟩ := List.mem_map.mp ha
    exact ⟨_, free_used w hi⟩
  · unfold P.free; rw [w.hbase, w.sz, w.hn, if_pos ha]

/-- **C168.** A new block has its first word set to zero. -/
theorem C168_zero {base n size u p a p'} (r : Run base n size u p) (h : p.alloc = some (a, p')) : p'.word ((a - base) / blockSize size) = 0 := by
  obtain ⟨f, is, w⟩ := inv r
  unfold P.alloc at h
  split at h
  · cases h
  · simp only [Option.some.injEq, Prod.mk.injEq] at h
    obtain ⟨rfl, rfl⟩ := h
    simp only [w.hbase, w.sz, idx, upd_same]

/-- **C169.** The address right behind the pool is taken for one of the pool, if any block is held: `Deallocate` writes there. -/
theorem C169_behind_partial {base n size u p} (r : Run base n size u p) (hu : u ≠ []) : p.free (base + blockSize size * n) = .outside := by
  obtain ⟨f, is, w⟩ := inv r
  have h1 := w.avail
  have h2 := w.all
  have h3 : u.length = is.length := by rw [w.used]; simp
  have h4 := List.length_pos_iff.mpr hu
  have h5 := (blockSize_spec size).2.1
  unfold P.free
  rw [w.hbase, w.sz, w.hn, if_neg (by omega), if_neg (by omega)]
  simp only [Nat.add_sub_cancel_left]
  rw [Nat.mul_div_cancel_left _ (by omega), if_pos (Nat.le_refl _)]

/-- A pool of two blocks for 12 bytes at address 64: both are taken, one is overwritten and released, and taken again. -/
example : ∃ p, Run 64 2 12 [80, 64] p ∧ p.alloc = none := by
  have r1 := Run.alloc (Run.init (base := 64) (n := 2) (size := 12)) (a := 64) rfl
  have r2 := Run.alloc r1 (a := 80) rfl
  have r3 := Run.write (a := 80) 1000 r2 (by decide)
  have r4 := Run.free r3 (a := 80) (by decide) rfl
  have r5 := Run.alloc r4 (a := 80) rfl
  exact ⟨_, r5, rfl⟩

end Verif.Container.FixedPool
