import Verif.Pool.ObjectsShared

/-!
# Every object of the shared-nothing pool is in one place
-/

namespace Verif.Pool.ObjectsShared

/-- How often an object is in the pool of a thread. -/
def fb (b : Blk) (o : O) : Nat := o.free.count b + o.back.count b + o.xcpu.count b

def cu (b : Blk) (l : List (Blk × Nat)) : Nat := l.countP (·.1 == b)
def cp (b : Blk) (l : List (Blk × Nat × Option Blk)) : Nat := l.countP (·.1 == b)

/-- The chunks with free slots are in the list, once. -/
def Linked (o : O) : Prop := o.front.Nodup ∧ ∀ c, c ∈ o.front ↔ ∃ b ∈ o.back, b.ch = c

theorem countP_erase {α : Type} [BEq α] [LawfulBEq α] {l : List α} {a : α} (h : a ∈ l) (f : α → Bool) : (l.erase a).countP f + (if f a then 1 else 0) = l.countP f := by
  have := (List.perm_cons_erase h).countP_eq f
  rw [this, List.countP_cons]

theorem fb_drain (b : Blk) (o : O) : fb b o.drain = fb b o := by
  simp [fb, O.drain, List.count_append]; omega

theorem fb_put {o : O} {x : Blk} {r : List Blk} (h : o.free = x :: r) (b : Blk) : fb b (O.put { o with free := r } x) = fb b o := by
  simp only [fb, O.put, h, List.count_append, List.count_cons, List.count_nil]; omega

theorem fb_take {o : O} {x : Blk} {r : List Blk} (h : o.free = x :: r) (b : Blk) : fb b { o with free := r } + (if x = b then 1 else 0) = fb b o := by
  simp only [fb, h, List.count_cons, beq_iff_eq]; omega

theorem fb_push (o : O) (x b : Blk) : fb b { o with free := x :: o.free } = fb b o + if x = b then 1 else 0 := by
  simp only [fb, List.count_cons, beq_iff_eq]; omega

theorem fb_cross (o : O) (x b : Blk) : fb b { o with xcpu := x :: o.xcpu } = fb b o + if x = b then 1 else 0 := by
  simp only [fb, List.count_cons, beq_iff_eq]; omega

theorem cid_chunk (o : O) (cs i : Nat) : (o.chunk cs i).cid = o.cid + 1 := rfl

theorem fb_trim (b : Blk) : ∀ (n : Nat) (o : O), fb b (o.trim n) = fb b o := by
  intro n
  induction n with
  | zero => intro o; rfl
  | succ n ih =>
    intro o
    rw [O.trim]
    split
    · rfl
    · rename_i x r h
      rw [ih, fb_put h]

theorem count_split (l : List Blk) (c : Nat) (b : Blk) : (l.filter fun x => x.ch == c).count b + (l.filter fun x => x.ch != c).count b = l.count b := by
  induction l with
  | nil => rfl
  | cons x l ih =>
    by_cases h : x.ch = c
    · simp [List.filter_cons, h, List.count_cons] at ih ⊢; omega
    · simp [List.filter_cons, h, List.count_cons] at ih ⊢; omega

theorem fb_gather (b : Blk) (g : Nat) : ∀ (l : List Nat) (o : O), fb b (o.gather g l) = fb b o := by
  intro l
  induction l with
  | nil => intro o; rfl
  | cons c f ih =>
    intro o
    rw [O.gather]
    split
    · rw [ih]
      have := count_split o.back c b
      simp only [fb, List.count_append]
      omega
    · rfl

theorem cid_trim : ∀ (n : Nat) (o : O), (o.trim n).cid = o.cid ∧ (o.trim n).xcpu = o.xcpu := by
  intro n
  induction n with
  | zero => intro o; exact ⟨rfl, rfl⟩
  | succ n ih =>
    intro o
    rw [O.trim]
    split
    · exact ⟨rfl, rfl⟩
    · exact ih _

theorem cid_gather (g : Nat) : ∀ (l : List Nat) (o : O), (o.gather g l).cid = o.cid := by
  intro l
  induction l with
  | nil => intro o; rfl
  | cons c f ih =>
    intro o
    rw [O.gather]
    split
    · rw [ih]
    · rfl

theorem linked_put {o : O} (h : Linked o) (x : Blk) (r : List Blk) : Linked (O.put { o with free := r } x) := by
  obtain ⟨h1, h2⟩ := h
  unfold O.put Linked
  simp only [List.mem_append, List.mem_singleton]
  by_cases ha : o.back.any (fun a => a.ch == x.ch) = true
  · rw [if_pos ha]
    obtain ⟨y, hy, e⟩ := List.any_eq_true.mp ha
    have e : y.ch = x.ch := by simpa using e
    refine ⟨h1, fun c => ?_⟩
    rw [h2]
    constructor
    · rintro ⟨b, hb, hc⟩; exact ⟨b, Or.inl hb, hc⟩
    · rintro ⟨b, hb | hb, hc⟩
      · exact ⟨b, hb, hc⟩
      · exact ⟨y, hy, by rw [e, ← hb]; exact hc⟩
  · rw [if_neg ha]
    have hn : ∀ y ∈ o.back, y.ch ≠ x.ch := by
      intro y hy e
      exact ha (List.any_eq_true.mpr ⟨y, hy, by simpa using e⟩)
    refine ⟨List.nodup_cons.mpr ⟨fun hm => ?_, h1⟩, fun c => ?_⟩
    · obtain ⟨b, hb, hc⟩ := (h2 _).mp hm
      exact hn b hb hc
    · rw [List.mem_cons, h2]
      constructor
      · rintro (rfl | ⟨b, hb, hc⟩)
        · exact ⟨x, Or.inr rfl, rfl⟩
        · exact ⟨b, Or.inl hb, hc⟩
      · rintro ⟨b, hb | hb, hc⟩
        · exact Or.inr ⟨b, hb, hc⟩
        · exact Or.inl (by rw [← hc, hb])

theorem linked_trim : ∀ (n : Nat) (o : O), Linked o → Linked (o.trim n) := by
  intro n
  induction n with
  | zero => intro o h; exact h
  | succ n ih =>
    intro o h
    rw [O.trim]
    split
    · exact h
    · exact ih _ (linked_put h _ _)

theorem linked_gather (g : Nat) : ∀ (l : List Nat) (o : O), o.front = l → Linked o → Linked (o.gather g l) := by
  intro l
  induction l with
  | nil => intro o _ h; exact h
  | cons c f ih =>
    intro o e h
    rw [O.gather]
    split
    · apply ih _ rfl
      obtain ⟨h1, h2⟩ := h
      rw [e] at h1 h2
      have hc := List.nodup_cons.mp h1
      refine ⟨hc.2, fun x => ?_⟩
      simp only [List.mem_filter, bne_iff_ne, ne_eq]
      constructor
      · intro hx
        obtain ⟨b, hb, hb2⟩ := (h2 x).mp (List.mem_cons_of_mem _ hx)
        exact ⟨b, ⟨hb, fun e => hc.1 (by rw [← e, hb2]; exact hx)⟩, hb2⟩
      · rintro ⟨b, ⟨hb, hne⟩, hb2⟩
        rcases List.mem_cons.mp ((h2 x).mpr ⟨b, hb, hb2⟩) with h | h
        · exact absurd (hb2.trans h) hne
        · exact h
    · exact h

theorem count_blocks (cs i c j d k : Nat) : (blocks cs i c).count (.slot j d k) = if j = i ∧ d = c ∧ k < cs then 1 else 0 := by
  unfold blocks
  rw [List.count_reverse]
  by_cases h : j = i ∧ d = c
  · obtain ⟨rfl, rfl⟩ := h
    have hinj : Function.Injective (fun k => Blk.slot j d k) := fun a b e => by simpa using e
    have : ((List.range cs).map fun k => Blk.slot j d k).Nodup := by
      rw [List.nodup_iff_pairwise_ne, List.pairwise_map]
      exact List.Pairwise.imp (fun h e => h (hinj e)) (List.nodup_iff_pairwise_ne.mp List.nodup_range)
    by_cases hk : k < cs
    · rw [if_pos ⟨rfl, rfl, hk⟩]
      have h1 := List.nodup_iff_count.mp this (.slot j d k)
      have h2 : 0 < ((List.range cs).map fun k => Blk.slot j d k).count (.slot j d k) := List.count_pos_iff.2 (List.mem_map.2 ⟨k, List.mem_range.2 hk, rfl⟩)
      omega
    · rw [if_neg fun h => hk h.2.2]
      apply List.count_eq_zero_of_not_mem
      simp only [List.mem_map, List.mem_range, not_exists, not_and]
      intro x hx e
      simp at e
      omega
  · rw [if_neg fun h' => h ⟨h'.1, h'.2.1⟩]
    apply List.count_eq_zero_of_not_mem
    simp only [List.mem_map, List.mem_range, not_exists, not_and]
    intro x hx e
    simp at e
    exact h ⟨e.1.symm, e.2.1.symm⟩

theorem count_blocks_sys (cs i c n : Nat) : (blocks cs i c).count (.sys n) = 0 := by
  apply List.count_eq_zero_of_not_mem
  simp [blocks]

structure Inv (p : P) (s : S) : Prop where
  one : ∀ i c k, cu (.slot i c k) s.user + cp (.slot i c k) s.pend + fb (.slot i c k) (s.own i) = if 1 ≤ c ∧ c ≤ (s.own i).cid ∧ k < p.cs then 1 else 0
  own : ∀ i b, 0 < fb b (s.own i) → ∃ c k, b = .slot i c k
  user : ∀ x ∈ s.user, ∀ i c k, x.1 = .slot i c k → x.2 = i
  pend : ∀ x ∈ s.pend, ∃ c k, x.1 = .slot x.2.1 c k
  link : ∀ i, Linked (s.own i)
  sys : ∀ n, cu (.sys n) s.user ≤ if n < s.nsys then 1 else 0
  freed : ∀ x ∈ s.freed, s.gone x.1 = true ∧ ∀ k, k < p.cs → .slot x.1 x.2 k ∈ (s.own x.1).back

/-- A change of one pool. -/
theorem Inv.move {p : P} {s s' : S} {i : Nat} {o : O} (v : Inv p s) (hg : s.gone i = false) (hown : s'.own = upd s.own i o) (hgone : s'.gone = s.gone) (hfreed : s'.freed = s.freed)
    (one : ∀ j c k, cu (.slot j c k) s'.user + cp (.slot j c k) s'.pend + (if j = i then fb (.slot j c k) o else 0) + (if j = i ∧ 1 ≤ c ∧ c ≤ (s.own i).cid ∧ k < p.cs then 1 else 0)
      = cu (.slot j c k) s.user + cp (.slot j c k) s.pend + (if j = i then fb (.slot j c k) (s.own i) else 0) + (if j = i ∧ 1 ≤ c ∧ c ≤ o.cid ∧ k < p.cs then 1 else 0))
    (own : ∀ b, 0 < fb b o → ∃ c k, b = .slot i c k) (user : ∀ x ∈ s'.user, ∀ i c k, x.1 = .slot i c k → x.2 = i) (pend : ∀ x ∈ s'.pend, ∃ c k, x.1 = .slot x.2.1 c k)
    (link : Linked o) (sys : ∀ n, cu (.sys n) s'.user ≤ if n < s'.nsys then 1 else 0) : Inv p s' := by
  refine ⟨fun j c k => ?_, fun j b hb => ?_, user, pend, fun j => ?_, sys, fun x hx => ?_⟩
  · have h1 := v.one j c k
    have h2 := one j c k
    rw [hown]
    by_cases e : j = i
    · subst e
      rw [upd_same]
      simp only [if_true, true_and] at h2
      omega
    · rw [upd_ne _ _ e]
      simp only [e, if_false, false_and] at h2
      omega
  · rw [hown] at hb
    by_cases e : j = i
    · subst e; rw [upd_same] at hb; exact own b hb
    · rw [upd_ne _ _ e] at hb; exact v.own j b hb
  · rw [hown]
    by_cases e : j = i
    · subst e; rw [upd_same]; exact link
    · rw [upd_ne _ _ e]; exact v.link j
  · rw [hfreed] at hx
    obtain ⟨h1, h2⟩ := v.freed x hx
    rw [hgone]
    refine ⟨h1, ?_⟩
    have : x.1 ≠ i := fun e => by rw [e, hg] at h1; cases h1
    rw [hown, upd_ne _ _ this]
    exact h2

theorem fb_pos_of_mem {b : Blk} {o : O} (h : b ∈ o.free) : 0 < fb b o := by
  have := List.count_pos_iff.2 h
  unfold fb; omega

theorem cu_pos {l : List (Blk × Nat)} {x : Blk × Nat} (h : x ∈ l) : 0 < cu x.1 l := List.countP_pos_iff.2 ⟨x, h, by simp⟩

theorem cu_cons (b : Blk) (x : Blk × Nat) (l : List (Blk × Nat)) : cu b (x :: l) = cu b l + if x.1 = b then 1 else 0 := by
  simp [cu, List.countP_cons]

theorem cp_cons (b : Blk) (x : Blk × Nat × Option Blk) (l : List (Blk × Nat × Option Blk)) : cp b (x :: l) = cp b l + if x.1 = b then 1 else 0 := by
  simp [cp, List.countP_cons]

theorem cu_erase {l : List (Blk × Nat)} {x : Blk × Nat} (h : x ∈ l) (b : Blk) : cu b (l.erase x) + (if x.1 = b then 1 else 0) = cu b l := by
  have := countP_erase h (·.1 == b)
  simpa [cu] using this

theorem cp_erase {l : List (Blk × Nat × Option Blk)} {x : Blk × Nat × Option Blk} (h : x ∈ l) (b : Blk) : cp b (l.erase x) + (if x.1 = b then 1 else 0) = cp b l := by
  have := countP_erase h (·.1 == b)
  simpa [cp] using this

/-- Free slots of a thread belong to its chunks. -/
theorem Inv.bounds {p : P} {s : S} (v : Inv p s) {i : Nat} {b : Blk} (h : 0 < fb b (s.own i)) : 1 ≤ b.ch ∧ b.ch ≤ (s.own i).cid := by
  obtain ⟨c, k, rfl⟩ := v.own i b h
  have h1 := v.one i c k
  split at h1
  · rename_i hh; exact ⟨hh.1, hh.2.1⟩
  · omega

theorem not_bad {o : O} {n : Nat} (h : ∀ b ∈ o.free, 1 ≤ b.ch ∧ b.ch ≤ o.cid) : o.bad n = false := by
  unfold O.bad
  rw [List.any_eq_false]
  intro b hb
  have := h b (List.mem_of_mem_take hb)
  simp
  omega

theorem Inv.userB {p : P} {s : S} (v : Inv p s) {j c k i : Nat} (hu : (Blk.slot j c k, i) ∈ s.user) : j = i ∧ 1 ≤ c ∧ c ≤ (s.own i).cid ∧ k < p.cs := by
  have h1 := v.user _ hu j c k rfl
  simp only at h1
  subst h1
  have h2 := v.one i c k
  have h3 := cu_pos hu
  simp only at h3
  refine ⟨rfl, ?_⟩
  split at h2
  · assumption
  · omega

/-- All slots of a chunk are in `back`, if there are as many. -/
theorem whole_mem {p : P} {s : S} (v : Inv p s) {i c : Nat} {o : O} (ho : ∀ b, fb b o = fb b (s.own i)) (hc : ((o.back.filter fun b => b.ch == c).length == p.cs) = true) (hcs : 0 < p.cs) (k : Nat) (hk : k < p.cs) : Blk.slot i c k ∈ o.back := by
  have hlen : (o.back.filter fun b => b.ch == c).length = p.cs := by simpa using hc
  have hle : ∀ b, (o.back.filter fun b => b.ch == c).count b ≤ fb b o := by
    intro b
    have := count_split o.back c b
    unfold fb; omega
  have hnd : (o.back.filter fun b => b.ch == c).Nodup := by
    rw [List.nodup_iff_count]
    intro b
    by_cases hb : 0 < (o.back.filter fun b => b.ch == c).count b
    · have h1 := hle b
      rw [ho] at h1
      obtain ⟨d, m, rfl⟩ := v.own i b (by omega)
      have h2 := v.one i d m
      split at h2 <;> omega
    · omega
  have hsub : ∀ b ∈ (o.back.filter fun b => b.ch == c), ∃ m, m < p.cs ∧ b = Blk.slot i c m := by
    intro b hb
    have h1 := hle b
    rw [ho] at h1
    have h3 := List.count_pos_iff.2 hb
    obtain ⟨d, m, rfl⟩ := v.own i b (by omega)
    have h2 := v.one i d m
    have h4 : d = c := by
      have := (List.mem_filter.mp hb).2
      simpa [Blk.ch] using this
    subst h4
    split at h2
    · rename_i hh; exact ⟨m, hh.2.2, rfl⟩
    · omega
  refine Classical.byContradiction fun hno => ?_
  have hsub2 : ∀ b ∈ (o.back.filter fun b => b.ch == c), b ∈ (((List.range p.cs).erase k).map fun m => Blk.slot i c m) := by
    intro b hb
    obtain ⟨m, hm, rfl⟩ := hsub b hb
    refine List.mem_map.2 ⟨m, ?_, rfl⟩
    rw [List.nodup_range.mem_erase_iff]
    refine ⟨fun e => hno ?_, List.mem_range.2 hm⟩
    rw [← e]
    exact (List.mem_filter.mp hb).1
  have := List.Nodup.length_le_of_subset hnd hsub2
  rw [List.length_map, List.length_erase_of_mem (List.mem_range.2 hk), List.length_range, hlen] at this
  omega

theorem cid_step {ex oom : Bool} {p : P} (hcs : 0 < p.cs) {s s' : S} (v : Inv p s) (hs : Step ex oom p s s') : Inv p s' := by
  cases hs with
  | drain i hg =>
    refine v.move hg rfl rfl rfl (fun j c k => ?_) (fun b hb => v.own i b (by rw [← fb_drain]; exact hb)) v.user v.pend ?_ v.sys
    · simp only [S.at, fb_drain]; rfl
    · exact v.link i
  | refill i hg hf =>
    refine v.move hg rfl rfl rfl (fun j c k => ?_) (fun b hb => v.own i b (by rw [← fb_gather b p.goal (s.own i).front]; exact hb)) v.user v.pend (linked_gather _ _ _ rfl (v.link i)) v.sys
    simp only [S.at, fb_gather, cid_gather]
  | chunk i hg hl =>
    have hfb : ∀ b, fb b ((s.own i).chunk p.cs i) = fb b (s.own i) + (blocks p.cs i ((s.own i).cid + 1)).count b := by
      intro b
      simp only [fb, O.chunk, List.count_append]; omega
    refine v.move hg rfl rfl rfl (fun j c k => ?_) (fun b hb => ?_) v.user v.pend (v.link i) v.sys
    · simp only [S.at, hfb, count_blocks, cid_chunk]
      by_cases e : j = i
      · subst e
        simp only [if_true, true_and]
        by_cases h1 : c = (s.own j).cid + 1 ∧ k < p.cs
        · rw [if_pos h1, if_neg (by omega), if_pos (by omega)]
          omega
        · rw [if_neg h1]
          by_cases h2 : 1 ≤ c ∧ c ≤ (s.own j).cid ∧ k < p.cs
          · rw [if_pos h2, if_pos (by omega)]; omega
          · rw [if_neg h2, if_neg (by omega)]; omega
      · simp [e]
    · rw [hfb] at hb
      cases b with
      | sys n =>
        rw [count_blocks_sys] at hb
        obtain ⟨c, k, e⟩ := v.own i (.sys n) (by omega)
        cases e
      | slot j c k =>
        by_cases h : 0 < fb (.slot j c k) (s.own i)
        · exact v.own i _ h
        · rw [count_blocks] at hb
          split at hb
          · rename_i hh; exact ⟨c, k, by rw [hh.1]⟩
          · omega
  | take i b r hg hf =>
    have hpos : 0 < fb b (s.own i) := fb_pos_of_mem (by rw [hf]; simp)
    obtain ⟨c, k, rfl⟩ := v.own i b hpos
    have hfb := fb_take hf
    refine v.move hg rfl rfl rfl (fun j d m => ?_) (fun b hb => v.own i b (by have := hfb b; omega)) ?_ v.pend (v.link i) (fun n => ?_)
    · simp only [S.at, cu_cons]
      have := hfb (.slot j d m)
      by_cases e : j = i
      · subst e; simp only [if_true]; omega
      · have hne : ¬ Blk.slot i c k = Blk.slot j d m := fun h => e (by simp at h; exact h.1.symm)
        simp only [e, hne, if_false, false_and]; omega
    · intro x hx j d m e
      rcases List.mem_cons.mp hx with rfl | hx
      · simp at e; exact e.1
      · exact v.user x hx j d m e
    · have := v.sys n
      simp only [S.at, cu_cons]
      rw [if_neg (by simp)]
      exact this
  | system i hg hf =>
    refine ⟨fun j c k => ?_, v.own, fun x hx j d m e => ?_, v.pend, v.link, fun n => ?_, v.freed⟩
    · simp only [cu_cons]
      rw [if_neg (by simp)]
      exact v.one j c k
    · rcases List.mem_cons.mp hx with rfl | hx
      · cases e
      · exact v.user x hx j d m e
    · have := v.sys n
      simp only [cu_cons, Blk.sys.injEq]
      by_cases e : s.nsys = n
      · subst e; simp at this ⊢; omega
      · rw [if_neg e]
        split at this <;> split <;> omega
  | none i hg hf ho => exact ⟨v.one, v.own, v.user, v.pend, v.link, v.sys, v.freed⟩
  | freeSys i n hu =>
    refine ⟨fun j c k => ?_, v.own, fun x hx => v.user x (List.mem_of_mem_erase hx), v.pend, v.link, fun m => ?_, v.freed⟩
    · have := cu_erase hu (.slot j c k)
      rw [if_neg (by simp)] at this
      have h2 := v.one j c k
      simp only at this ⊢; omega
    · have := cu_erase hu (.sys m)
      have h2 := v.sys m
      simp only at this ⊢; omega
  | free i j c k o hg hu ho =>
    obtain ⟨rfl, h1, h2, h3⟩ := v.userB hu
    subst ho
    split
    · exact ⟨v.one, v.own, v.user, v.pend, v.link, v.sys, v.freed⟩
    · have hfb := fb_push (s.own j) (.slot j c k)
      refine v.move hg rfl rfl rfl (fun i' d m => ?_) (fun b hb => ?_) (fun x hx => v.user x (List.mem_of_mem_erase hx)) v.pend (linked_trim _ _ (v.link j)) (fun m => ?_)
      · simp only [S.at, fb_trim, hfb, (cid_trim _ _).1]
        have := cu_erase hu (.slot i' d m)
        simp only at this
        by_cases e : i' = j
        · subst e; simp only [if_true]; omega
        · have hne : ¬ Blk.slot j c k = Blk.slot i' d m := fun h => e (by simp at h; exact h.1.symm)
          simp only [hne, if_false] at this
          simp only [e, if_false, false_and]; omega
      · rw [fb_trim, hfb] at hb
        by_cases h : Blk.slot j c k = b
        · exact ⟨c, k, h.symm⟩
        · rw [if_neg h] at hb; exact v.own j b hb
      · have := cu_erase hu (.sys m)
        have h2 := v.sys m
        exact Nat.le_trans (by simp only at this; simp only [S.at]; omega) h2
  | cross i j c k hu =>
    obtain ⟨rfl, h1, h2, h3⟩ := v.userB hu
    split
    · exact ⟨v.one, v.own, v.user, v.pend, v.link, v.sys, v.freed⟩
    · refine ⟨fun i' d m => ?_, v.own, fun x hx => v.user x (List.mem_of_mem_erase hx), fun x hx => ?_, v.link, fun m => ?_, v.freed⟩
      · have := cu_erase hu (.slot i' d m)
        have h := v.one i' d m
        simp only [cp_cons] at this ⊢; omega
      · rcases List.mem_cons.mp hx with rfl | hx
        · exact ⟨c, k, rfl⟩
        · exact v.pend x hx
      · have := cu_erase hu (.sys m)
        have h2 := v.sys m
        simp only at this ⊢; omega
  | swap b i old hm hg hh =>
    obtain ⟨c, k, hb⟩ := v.pend _ hm
    simp only at hb
    subst hb
    have hfb := fb_cross (s.own i) (.slot i c k)
    refine v.move hg rfl rfl rfl (fun i' d m => ?_) (fun b hb => ?_) v.user (fun x hx => v.pend x (List.mem_of_mem_erase hx)) (v.link i) v.sys
    · simp only [S.at, hfb]
      have := cp_erase hm (.slot i' d m)
      simp only at this
      by_cases e : i' = i
      · subst e; simp only [if_true]; omega
      · have hne : ¬ Blk.slot i c k = Blk.slot i' d m := fun h => e (by simp at h; exact h.1.symm)
        simp only [hne, if_false] at this
        simp only [e, if_false, false_and]; omega
    · rw [hfb] at hb
      by_cases h : Blk.slot i c k = b
      · exact ⟨c, k, h.symm⟩
      · rw [if_neg h] at hb; exact v.own i b hb
  | retry b i old hm hg =>
    refine ⟨fun i' d m => ?_, v.own, v.user, fun x hx => ?_, v.link, v.sys, v.freed⟩
    · have := cp_erase hm (.slot i' d m)
      have h := v.one i' d m
      simp only [cp_cons] at this ⊢; omega
    · rcases List.mem_cons.mp hx with rfl | hx
      · exact v.pend (b, i, old) hm
      · exact v.pend x (List.mem_of_mem_erase hx)
  | late b i old hm hg => exact ⟨v.one, v.own, v.user, v.pend, v.link, v.sys, v.freed⟩
  | exit i hg he =>
    split
    · exact ⟨v.one, v.own, v.user, v.pend, v.link, v.sys, v.freed⟩
    · have hfb : ∀ b, fb b (s.own i).final = fb b (s.own i) := fun b => fb_trim b _ _
      have v' : Inv p (s.at i (s.own i).final) := by
        refine v.move hg rfl rfl rfl (fun j c k => ?_) (fun b hb => v.own i b (by rw [← hfb]; exact hb)) v.user v.pend (linked_trim _ _ (v.link i)) v.sys
        simp only [S.at, hfb, O.final, (cid_trim _ _).1]
        simp only [fb_trim]
      refine ⟨v'.one, v'.own, v'.user, v'.pend, v'.link, v'.sys, fun x hx => ?_⟩
      rcases List.mem_append.mp hx with hx | hx
      · obtain ⟨c, hc, rfl⟩ := List.mem_map.mp hx
        refine ⟨by simp, fun k hk => ?_⟩
        simp only [S.at, upd_same]
        exact whole_mem v hfb (List.mem_filter.mp hc).2 hcs k hk
      · obtain ⟨h1, h2⟩ := v'.freed x hx
        refine ⟨?_, h2⟩
        simp only [S.at] at h1
        by_cases e : x.1 = i
        · rw [e]; simp
        · simp only; rw [upd_ne _ _ e]; exact h1

theorem Reach.inv {ex oom : Bool} {p : P} (hcs : 0 < p.cs) {s : S} (h : Reach ex oom p s) : Inv p s := by
  induction h with
  | init => exact ⟨by intro i c k; simp [S.init, cu, cp, fb]; omega, by simp [S.init, fb], by simp [S.init], by simp [S.init], fun i => ⟨by simp [S.init], by simp [S.init]⟩, by simp [S.init, cu], by simp [S.init]⟩
  | step _ _ hs ih => exact cid_step hcs ih hs

end Verif.Pool.ObjectsShared
