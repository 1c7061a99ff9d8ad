import Verif.Pool.Shared

/-!
# Where the blocks are: the invariant for C122
-/

namespace Verif.Pool.Shared

/-- How often a block is in the lists of a thread. -/
def lc (b : Blk) (t : L) : Nat := t.free.count b + t.xcpu.count b + t.back.count b

/-- How often it is handed out. -/
def uc (b : Blk) (u : List (Blk × Nat)) : Nat := (u.map Prod.fst).count b

def eq1 (a b : Blk) : Nat := if a = b then 1 else 0

theorem count_cons' (a b : Blk) (l : List Blk) : (a :: l).count b = l.count b + eq1 a b := by
  rw [List.count_cons]; unfold eq1
  simp only [beq_iff_eq]

theorem uc_cons (b a : Blk) (i : Nat) (u : List (Blk × Nat)) : uc b ((a, i) :: u) = uc b u + eq1 a b := by
  unfold uc; rw [List.map_cons, count_cons']

theorem uc_erase (b a : Blk) {i : Nat} {u : List (Blk × Nat)} (h : (a, i) ∈ u) : uc b (u.erase (a, i)) + eq1 a b = uc b u := by
  rw [← uc_cons b a i]
  exact ((List.perm_cons_erase h).symm.map Prod.fst).count_eq b

theorem lc_drain (b : Blk) (t : L) : lc b t.drain = lc b t := by
  unfold lc L.drain; simp [List.count_reverse]; omega

theorem lc_put (b a : Blk) (t : L) : lc b (t.put a) = lc b t + eq1 a b := by
  have : ([a] : List Blk).count b = eq1 a b := by rw [count_cons']; simp
  unfold lc L.put; simp only [List.count_append, this]; omega

theorem lc_trim (b : Blk) (n : Nat) : ∀ t : L, lc b (t.trim n) = lc b t := by
  induction n with
  | zero => intro t; rfl
  | succ n ih =>
    intro t
    unfold L.trim
    split
    · rfl
    · rename_i a r e
      rw [ih, lc_put]
      unfold lc; rw [e, count_cons']; simp only; omega

theorem count_split (b : Blk) (c : Nat) (l : List Blk) : (l.filter (fun a => a.ch == c)).count b + (l.filter (fun a => a.ch != c)).count b = l.count b := by
  induction l with
  | nil => rfl
  | cons a l ih =>
    simp only [List.filter_cons]
    by_cases h : a.ch = c
    · simp only [h, beq_self_eq_true, if_true, bne_self_eq_false, Bool.false_eq_true, if_false, count_cons']; omega
    · have h1 : (a.ch == c) = false := by simp [h]
      have h2 : (a.ch != c) = true := by simp [h]
      simp only [h1, h2, if_true, Bool.false_eq_true, if_false, count_cons']; omega

theorem lc_gather (b : Blk) (f : List Nat) : ∀ t : L, lc b (t.gather f) = lc b t := by
  induction f with
  | nil => intro t; rfl
  | cons c f ih =>
    intro t
    unfold L.gather
    split
    · rw [ih]
      have := count_split b c t.back
      unfold lc; simp only [List.count_append]; omega
    · rfl

theorem lc_find (b : Blk) (t : L) : lc b t.find = lc b t := by
  unfold L.find; split
  · rw [lc_gather, lc_drain]
  · rw [lc_drain]

/-- What stays. -/
def Same (t t' : L) : Prop := t'.cid = t.cid ∧ t'.size = t.size ∧ t'.pc = t.pc

theorem same_trim (n : Nat) : ∀ t : L, Same t (t.trim n) := by
  induction n with
  | zero => intro t; exact ⟨rfl, rfl, rfl⟩
  | succ n ih =>
    intro t
    unfold L.trim
    split
    · exact ⟨rfl, rfl, rfl⟩
    · exact ih _

theorem same_gather (f : List Nat) : ∀ t : L, Same t (t.gather f) := by
  induction f with
  | nil => intro t; exact ⟨rfl, rfl, rfl⟩
  | cons c f ih =>
    intro t
    unfold L.gather
    split
    · exact ih _
    · exact ⟨rfl, rfl, rfl⟩

theorem same_find (t : L) : Same t t.find := by
  unfold L.find; split
  · exact same_gather _ _
  · exact ⟨rfl, rfl, rfl⟩

/-- Chunks with free blocks are linked. -/
def Fr (t : L) : Prop := ∀ b ∈ t.back, b.ch ∈ t.front

theorem Fr.put {t : L} (h : Fr t) (a : Blk) : Fr (t.put a) := by
  intro b hb
  unfold L.put at hb ⊢
  simp only [List.mem_append, List.mem_singleton] at hb ⊢
  split
  · rename_i hany
    rcases hb with hb | rfl
    · exact h b hb
    · simp only [List.any_eq_true, beq_iff_eq] at hany
      obtain ⟨a, ha, e⟩ := hany
      rw [← e]; exact h a ha
  · rcases hb with hb | rfl
    · exact List.mem_cons_of_mem _ (h b hb)
    · exact List.mem_cons_self

theorem Fr.trim (n : Nat) : ∀ {t : L}, Fr t → Fr (t.trim n) := by
  induction n with
  | zero => intro t h; exact h
  | succ n ih =>
    intro t h
    unfold L.trim
    split
    · exact h
    · exact ih (Fr.put (t := { t with free := _ }) h _)

theorem Fr.gather : ∀ (f : List Nat) {t : L}, t.front = f → Fr t → Fr (t.gather f) := by
  intro f
  induction f with
  | nil => intro t _ h; exact h
  | cons c f ih =>
    intro t e h
    unfold L.gather
    split
    · refine ih rfl ?_
      intro b hb
      simp only [List.mem_filter, bne_iff_ne, ne_eq] at hb
      have := h b hb.1
      rw [e] at this
      simp only [List.mem_cons] at this
      exact this.resolve_left hb.2
    · exact h

theorem gather_short : ∀ (f : List Nat) {t : L}, t.front = f → Fr t → (t.gather f).free.length < 24 → (t.gather f).back = [] := by
  intro f
  induction f with
  | nil =>
    intro t e h _
    cases hb : t.back with
    | nil => exact hb
    | cons b r => have := h b (by rw [hb]; simp); rw [e] at this; cases this
  | cons c f ih =>
    intro t e h hl
    unfold L.gather at hl ⊢
    split at hl
    · rename_i h24
      rw [if_pos h24]
      refine ih rfl ?_ hl
      intro b hb
      simp only [List.mem_filter, bne_iff_ne, ne_eq] at hb
      have := h b hb.1
      rw [e] at this
      simp only [List.mem_cons] at this
      exact this.resolve_left hb.2
    · rename_i h24; exact absurd hl h24

theorem Fr.find {t : L} (h : Fr t) : Fr t.find := by
  unfold L.find; split
  · exact Fr.gather _ rfl h
  · exact h

/-- The chunks of a thread. -/
def cidOf (th : List L) (i : Nat) : Nat := (th[i]?.map L.cid).getD 0

def mine (th : List L) (i c k : Nat) : Nat := if 1 ≤ c ∧ c ≤ cidOf th i ∧ k < 32 then 1 else 0

theorem cidOf_set {th : List L} {i : Nat} {t t' : L} (h : th[i]? = some t) (hc : t'.cid = t.cid) (j : Nat) : cidOf (th.set i t') j = cidOf th j := by
  unfold cidOf
  rw [List.getElem?_set]
  have hi : i < th.length := by obtain ⟨hi, _⟩ := List.getElem?_eq_some_iff.1 h; exact hi
  split
  · rename_i e
    subst e
    rw [h]; simp [hc]
  · rfl

theorem mine_set {th : List L} {i : Nat} {t t' : L} (h : th[i]? = some t) (hc : t'.cid = t.cid) (j c k : Nat) : mine (th.set i t') j c k = mine th j c k := by
  unfold mine; rw [cidOf_set h hc]

theorem mine_append {th : List L} {t : L} (ht : t.cid = 0) (j c k : Nat) : mine (th ++ [t]) j c k = mine th j c k := by
  have : cidOf (th ++ [t]) j = cidOf th j := by
    unfold cidOf
    rw [List.getElem?_append]
    split
    · rfl
    · rename_i hj
      rw [List.getElem?_eq_none (l := th) (by omega)]
      by_cases e : j - th.length = 0
      · rw [e]; simp [ht]
      · rw [List.getElem?_eq_none (by simp; omega)]
  unfold mine; rw [this]

structure ThOk (ex : Bool) (t : L) : Prop where
  size : t.cid < t.size ∧ 200 ≤ t.size
  fr : t.pc ≠ .x → t.pc ≠ .dead → Fr t
  sys : ∀ n, lc (.sys n) t = 0
  ex : ex = false → t.pc ≠ .x ∧ t.pc ≠ .dead
  out : t.pc = .x ∨ t.pc = .dead → t.free = [] ∧ t.xcpu = []
  dead : t.pc = .dead → t.front = []

structure Inv (ex : Bool) (s : S) : Prop where
  one : ∀ i c k, uc (.pool i c k) s.user + wsum (lc (.pool i c k)) s.th = mine s.th i c k
  sys : ∀ n, uc (.sys n) s.user ≤ if n < s.nsys then 1 else 0
  th : ∀ t ∈ s.th, ThOk ex t
  freed : ex = false → s.freed = []

theorem mem_set {α : Type} {l : List α} {i : Nat} {a b : α} (h : a ∈ l.set i b) : a ∈ l ∨ a = b := List.mem_or_eq_of_mem_set h

/-- A thread moves; blocks go to it or come from it. -/
theorem Inv.move {ex : Bool} {s : S} (v : Inv ex s) {i : Nat} {t t' : L} (h : s.th[i]? = some t) {u : List (Blk × Nat)} {n : Nat} {fr : List (Nat × Nat)} (hcid : t'.cid = t.cid) (hok : ThOk ex t')
    (hpool : ∀ i c k, uc (.pool i c k) u + lc (.pool i c k) t' = uc (.pool i c k) s.user + lc (.pool i c k) t) (hsys : ∀ n, uc (.sys n) u ≤ uc (.sys n) s.user) (hf : ex = false → fr = s.freed) :
    Inv ex { (s.at i t') with user := u, n := n, freed := fr } := by
  refine ⟨?_, ?_, ?_, ?_⟩
  · intro j c k
    have h1 := wsum_set (f := lc (.pool j c k)) (b := t') h
    have h2 := v.one j c k
    have h3 := hpool j c k
    simp only [S.at]
    rw [mine_set h hcid]
    omega
  · intro m
    exact Nat.le_trans (hsys m) (v.sys m)
  · intro a ha
    rcases mem_set ha with ha | rfl
    · exact v.th a ha
    · exact hok
  · intro he
    have := v.freed he
    rw [hf he]; exact this

theorem take_lc {t : L} {b : Blk} {r : List Blk} (hf : t.free = b :: r) (a : Blk) : lc a (t.hand r) + eq1 b a = lc a t := by
  unfold lc L.hand; rw [hf, count_cons']; simp only; omega

theorem eq1_sys {b : Blk} {n : Nat} {t : L} (h : ∀ n, lc (.sys n) t = 0) {r : List Blk} (hf : t.free = b :: r) : eq1 b (.sys n) = 0 := by
  have := h n
  unfold lc at this
  rw [hf, count_cons'] at this
  omega

theorem trim_out (n : Nat) : ∀ t : L, t.free.length ≤ n → (t.trim n).free = [] ∧ (t.trim n).xcpu = t.xcpu := by
  induction n with
  | zero => intro t h; exact ⟨List.length_eq_zero_iff.1 (Nat.le_zero.1 h), rfl⟩
  | succ n ih =>
    intro t h
    unfold L.trim
    split
    · rename_i e; exact ⟨e, rfl⟩
    · rename_i b r e
      rw [e] at h
      simp only [List.length_cons] at h
      exact ih _ (by simp only [L.put]; omega)

theorem count_blocks (i c j d k : Nat) : (blocks i c).count (.pool j d k) = if j = i ∧ d = c ∧ k < 32 then 1 else 0 := by
  unfold blocks
  rw [List.count_reverse]
  have gen : ∀ m, ((List.range m).map (fun k => Blk.pool i c k)).count (.pool j d k) = if j = i ∧ d = c ∧ k < m then 1 else 0 := by
    intro m
    induction m with
    | zero => simp
    | succ m ih =>
      rw [List.range_succ, List.map_append, List.count_append, ih, List.map_singleton, count_cons']
      unfold eq1
      simp only [Blk.pool.injEq, List.count_nil]
      by_cases h1 : j = i ∧ d = c
      · obtain ⟨rfl, rfl⟩ := h1
        simp only [true_and]
        split <;> split <;> split <;> omega
      · have : ¬ (i = j ∧ c = d ∧ m = k) := fun h => h1 ⟨h.1.symm, h.2.1.symm⟩
        rw [if_neg this, if_neg (fun h => h1 ⟨h.1, h.2.1⟩), if_neg (fun h => h1 ⟨h.1, h.2.1⟩)]
  exact gen 32

theorem count_blocks_sys (i c n : Nat) : (blocks i c).count (.sys n) = 0 := by
  rw [List.count_eq_zero]
  intro h
  simp [blocks] at h

theorem resize_lt {size : Nat} (h : 200 ≤ size) (c : Nat) : c < resize size c ∧ 200 ≤ resize size c := by
  unfold resize; split <;> omega

theorem init_ok (ex : Bool) : ThOk ex ({} : L) where
  size := by simp
  fr := fun _ _ b hb => by cases hb
  sys := fun n => rfl
  ex := fun _ => ⟨by simp, by simp⟩
  out := fun h => by simp at h
  dead := fun h => by simp at h

theorem ThOk.running {ex : Bool} {t' : L} (hsize : t'.cid < t'.size ∧ 200 ≤ t'.size) (hfr : Fr t') (hsys : ∀ n, lc (.sys n) t' = 0) (h1 : t'.pc ≠ .x) (h2 : t'.pc ≠ .dead) : ThOk ex t' :=
  ⟨hsize, fun _ _ => hfr, hsys, fun _ => ⟨h1, h2⟩, fun h => by rcases h with h | h <;> contradiction, fun h => absurd h h2⟩

theorem Step.inv {x ex oom : Bool} {s s' : S} (hs : Step x ex oom s s') (hc : s'.crash = false) (v : Inv ex s) : Inv ex s' := by
  cases hs with
  | spawn =>
    split
    · refine ⟨?_, v.sys, ?_, v.freed⟩
      · intro i c k
        have := v.one i c k
        simp only
        rw [mine_append rfl]
        have e : wsum (lc (.pool i c k)) (s.th ++ [({} : L)]) = wsum (lc (.pool i c k)) s.th := by
          simp [wsum, lc]
        omega
      · intro t ht
        simp only [List.mem_append, List.mem_singleton] at ht
        rcases ht with ht | rfl
        · exact v.th t ht
        · exact init_ok ex
    · rename_i h; rw [if_neg h] at hc; cases hc
  | take i t b r h hp hs hf =>
    have ok := v.th t (List.mem_of_getElem? h)
    have hsm := same_find t
    have hl : ∀ n, lc (.sys n) t.find = 0 := fun n => by rw [lc_find]; exact ok.sys n
    refine v.move h (t' := t.find.hand r) (n := s.n) (fr := s.freed) hsm.1 ?_ ?_ ?_ (fun _ => rfl)
    · refine ThOk.running ?_ ?_ ?_ (by simp [L.hand, L.to]) (by simp [L.hand, L.to])
      · have := ok.size; simp only [L.hand, L.to, hsm.1, hsm.2.1]; exact this
      · exact (ok.fr (by simp [hp]) (by simp [hp])).find
      · intro n; have := take_lc hf (.sys n); have := hl n; omega
    · intro j c k
      have := take_lc hf (.pool j c k)
      rw [uc_cons, ← lc_find (.pool j c k) t]; omega
    · intro n
      rw [uc_cons, eq1_sys hl hf]; omega
  | look i t h hp hs =>
    have ok := v.th t (List.mem_of_getElem? h)
    have hsm := same_find t
    have e : ∀ b, lc b (t.find.to .need) = lc b t := fun b => by rw [← lc_find b t]; rfl
    refine v.move h (t' := (t.find.to .need)) (u := s.user) (n := s.n) (fr := s.freed) hsm.1 ?_ ?_ (fun _ => Nat.le_refl _) (fun _ => rfl)
    · refine ThOk.running ?_ ?_ ?_ (by simp [L.hand, L.to]) (by simp [L.hand, L.to])
      · have := ok.size; simp only [L.hand, L.to, hsm.1, hsm.2.1]; exact this
      · exact (ok.fr (by simp [hp]) (by simp [hp])).find
      · intro n; rw [e]; exact ok.sys n
    · intro j c k; rw [e]
  | below i t h hp hn =>
    have ok := v.th t (List.mem_of_getElem? h)
    refine v.move h (t' := t.to .grow) (u := s.user) (n := s.n) (fr := s.freed) rfl ?_ (fun _ _ _ => rfl) (fun _ => Nat.le_refl _) (fun _ => rfl)
    exact ThOk.running ok.size (ok.fr (by simp [hp]) (by simp [hp])) ok.sys (by simp [L.hand, L.to]) (by simp [L.hand, L.to])
  | full i t h hp hn =>
    have ok := v.th t (List.mem_of_getElem? h)
    have hfr := ok.fr (by simp [hp]) (by simp [hp])
    split
    · refine v.move h (t' := t.to .sys) (u := s.user) (n := s.n) (fr := s.freed) rfl ?_ (fun _ _ _ => rfl) (fun _ => Nat.le_refl _) (fun _ => rfl)
      exact ThOk.running ok.size hfr ok.sys (by simp [L.hand, L.to]) (by simp [L.hand, L.to])
    · rename_i b r hf
      refine v.move h (t' := t.hand r) (n := s.n) (fr := s.freed) rfl ?_ ?_ ?_ (fun _ => rfl)
      · refine ThOk.running ok.size hfr ?_ (by simp [L.hand, L.to]) (by simp [L.hand, L.to])
        intro n; have := take_lc hf (.sys n); have := ok.sys n; omega
      · intro j c k
        have := take_lc hf (.pool j c k)
        rw [uc_cons]; omega
      · intro n
        rw [uc_cons, eq1_sys ok.sys hf]; omega
  | grow i t b r h hp hf =>
    have ok := v.th t (List.mem_of_getElem? h)
    have hfr := ok.fr (by simp [hp]) (by simp [hp])
    have hsys : ∀ n, lc (.sys n) (t.chunk i) = 0 := by
      intro n
      have := ok.sys n
      unfold lc at this ⊢
      simp only [L.chunk, List.count_append, count_blocks_sys]; omega
    refine ⟨?_, ?_, ?_, v.freed⟩
    · intro j c k
      have h1 := wsum_set (f := lc (.pool j c k)) (b := (t.chunk i).hand r) h
      have h2 := v.one j c k
      have h3 := take_lc hf (.pool j c k)
      have h4 : lc (.pool j c k) (t.chunk i) = lc (.pool j c k) t + if j = i ∧ c = t.cid + 1 ∧ k < 32 then 1 else 0 := by
        rw [← count_blocks]; unfold lc; simp only [L.chunk, List.count_append]; omega
      have h5 : mine (s.th.set i ((t.chunk i).hand r)) j c k = mine s.th j c k + if j = i ∧ c = t.cid + 1 ∧ k < 32 then 1 else 0 := by
        have hi : i < s.th.length := by obtain ⟨hi, _⟩ := List.getElem?_eq_some_iff.1 h; exact hi
        unfold mine cidOf
        rw [List.getElem?_set]
        by_cases e : i = j
        · subst e
          simp only [hi, if_true, Option.map_some, Option.getD_some, h, L.chunk, L.hand, true_and]
          clear h1 h2 h3 h4
          split <;> split <;> split <;> omega
        · rw [if_neg e, if_neg (c := j = i ∧ c = t.cid + 1 ∧ k < 32) (fun h => e h.1.symm)]; rfl
      simp only [S.give, S.at]
      rw [h5, uc_cons]
      generalize (if j = i ∧ c = t.cid + 1 ∧ k < 32 then 1 else 0) = z at *
      omega
    · intro n
      simp only [S.give, S.at]
      rw [uc_cons, eq1_sys hsys hf]
      exact v.sys n
    · intro a ha
      rcases mem_set ha with ha | rfl
      · exact v.th a ha
      · refine ThOk.running (resize_lt ok.size.2 _) hfr ?_ (by simp [L.hand, L.to]) (by simp [L.hand, L.to])
        intro n; have := take_lc hf (.sys n); have := hsys n; omega
  | system i t h hp =>
    have ok := v.th t (List.mem_of_getElem? h)
    refine ⟨?_, ?_, ?_, v.freed⟩
    · intro j c k
      have h1 := wsum_set (f := lc (.pool j c k)) (b := t.to .idle) h
      have h2 := v.one j c k
      simp only [S.at]
      rw [mine_set (t' := t.to .idle) h rfl, uc_cons]
      have : lc (.pool j c k) (t.to .idle) = lc (.pool j c k) t := rfl
      have : eq1 (.sys s.nsys) (.pool j c k) = 0 := by simp [eq1]
      omega
    · intro n
      have := v.sys n
      simp only [S.at]
      rw [uc_cons]
      unfold eq1
      simp only [Blk.sys.injEq]
      split at this <;> split <;> split <;> omega
    · intro a ha
      rcases mem_set ha with ha | rfl
      · exact v.th a ha
      · exact ThOk.running ok.size (ok.fr (by simp [hp]) (by simp [hp])) ok.sys (by simp [L.hand, L.to]) (by simp [L.hand, L.to])
  | none => cases hc
  | freeSys i j n t h hp hu hx =>
    refine ⟨?_, ?_, v.th, v.freed⟩
    · intro j' c k
      have h1 := uc_erase (.pool j' c k) _ hu
      have h2 := v.one j' c k
      have : eq1 (.sys n) (.pool j' c k) = 0 := by simp [eq1]
      simp only
      omega
    · intro m
      have h1 := uc_erase (.sys m) _ hu
      have := v.sys m
      simp only
      omega
  | free i j c k t t' h hp hu ht =>
    have ok := v.th t (List.mem_of_getElem? h)
    have hfr := ok.fr (by simp [hp]) (by simp [hp])
    split
    · rename_i hb; rw [if_pos hb] at hc; cases hc
    · have hl : ∀ b, lc b (t'.trim (t'.free.length - 24)) = lc b t + eq1 (.pool j c k) b := by
        intro b
        rw [lc_trim, ht]
        unfold lc; simp only [count_cons']; omega
      have hsm := same_trim (t'.free.length - 24) t'
      refine v.move h (n := s.n) (fr := s.freed) ?_ ?_ ?_ ?_ (fun _ => rfl)
      · rw [hsm.1, ht]
      · refine ThOk.running ?_ ?_ ?_ ?_ ?_
        · rw [hsm.1, hsm.2.1, ht]; exact ok.size
        · refine Fr.trim _ ?_; rw [ht]; exact hfr
        · intro n; rw [hl, ok.sys]; simp [eq1]
        · rw [hsm.2.2, ht]; simp [hp]
        · rw [hsm.2.2, ht]; simp [hp]
      · intro j' c' k'
        have := uc_erase (.pool j' c' k') _ hu
        rw [hl]; omega
      · intro n
        have := uc_erase (.sys n) _ hu
        omega
  | cross i j c k o t h hp hu ho hx =>
    have ok := v.th t (List.mem_of_getElem? h)
    have hl : ∀ b, lc b { t with xcpu := .pool j c k :: t.xcpu } = lc b t + eq1 (.pool j c k) b := by
      intro b
      unfold lc; simp only [count_cons']; omega
    refine v.move h (n := s.n) (fr := s.freed) rfl ?_ ?_ ?_ (fun _ => rfl)
    · refine ThOk.running ok.size (ok.fr (by simp [hp]) (by simp [hp])) ?_ (by simp [hp]) (by simp [hp])
      intro n; rw [hl, ok.sys]; simp [eq1]
    · intro j' c' k'
      have := uc_erase (.pool j' c' k') _ hu
      rw [hl]; omega
    · intro n
      have := uc_erase (.sys n) _ hu
      omega
  | exit i t h hp he =>
    have ok := v.th t (List.mem_of_getElem? h)
    split
    · rename_i hb; rw [if_pos hb] at hc; cases hc
    · have hl : ∀ b, lc b ((t.drain.trim t.drain.free.length).to .x) = lc b t := by
        intro b
        rw [← lc_drain b t, ← lc_trim b t.drain.free.length t.drain]; rfl
      have hsm := same_trim t.drain.free.length t.drain
      have hout := trim_out _ t.drain (Nat.le_refl _)
      refine v.move h (u := s.user) (n := s.n) (fr := s.freed) hsm.1 ?_ ?_ (fun _ => Nat.le_refl _) (fun _ => rfl)
      · refine ⟨?_, fun h => absurd rfl h, ?_, fun h => (by rw [he] at h; cases h), ?_, fun h => (by cases h)⟩
        · have := ok.size; simp only [L.hand, L.to, hsm.1, hsm.2.1]; exact this
        · intro n; rw [hl]; exact ok.sys n
        · intro _; exact ⟨hout.1, hout.2⟩
      · intro j c k; rw [hl]
  | release i c f t h hp hf =>
    have ok := v.th t (List.mem_of_getElem? h)
    have hex : ex ≠ false := fun e => (ok.ex e).1 hp
    have ok' : ThOk ex { t with front := f } := ⟨ok.size, fun h => absurd hp h, ok.sys, fun e => absurd e hex, fun _ => ok.out (.inl hp), fun h => by simp [hp] at h⟩
    split
    · exact v.move h (t' := { t with front := f }) (u := s.user) (n := s.n - 1) (fr := (i, c) :: s.freed) rfl ok' (fun _ _ _ => rfl) (fun _ => Nat.le_refl _) (fun e => absurd e hex)
    · exact v.move h (t' := { t with front := f }) (u := s.user) (n := s.n) (fr := s.freed) rfl ok' (fun _ _ _ => rfl) (fun _ => Nat.le_refl _) (fun _ => rfl)
  | gone i t h hp hf =>
    have ok := v.th t (List.mem_of_getElem? h)
    have hex : ex ≠ false := fun e => (ok.ex e).1 hp
    refine v.move h (t' := t.to .dead) (u := s.user) (n := s.n) (fr := s.freed) rfl ?_ (fun _ _ _ => rfl) (fun _ => Nat.le_refl _) (fun _ => rfl)
    exact ⟨ok.size, fun _ h => absurd rfl h, ok.sys, fun e => absurd e hex, fun _ => ok.out (.inl hp), fun _ => hf⟩

theorem Reach.inv {x ex oom : Bool} {thr cm : Nat} {s : S} (h : Reach x ex oom thr cm s) (hc : s.crash = false) : Inv ex s := by
  induction h with
  | init => exact ⟨fun i c k => by simp [S.init, uc, wsum, mine, cidOf]; omega, fun n => by simp [S.init, uc], fun t ht => by simp [S.init] at ht, fun _ => rfl⟩
  | step h hc' hs ih => exact hs.inv hc (ih hc')

end Verif.Pool.Shared
