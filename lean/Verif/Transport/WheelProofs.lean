import Verif.Transport.Wheel

/-!
# The timeout queue: invariants
-/

namespace Verif.Transport.Wheel

/-! ## What the log means -/

/-- The entry of a key after these events: its message and the time for which it was filed. -/
def after (f : Nat → Option (Nat × Nat)) : Ev → Nat → Option (Nat × Nat)
  | .push key msg expire last busy => fun k => if k = key then some (msg, aim last expire busy) else f k
  | .pop key _ => fun k => if k = key then none else f k
  | .fire key _ _ => fun k => if k = key then none else f k

def live (l : List Ev) : Nat → Option (Nat × Nat) := l.foldl after fun _ => none

theorem live_snoc (l : List Ev) (e : Ev) : live (l ++ [e]) = after (live l) e := by simp [live]

/-- An event is as it should be after these: pushes for a free key, pops the message of the key, fires the entry at its time. -/
def Right (l : List Ev) : Ev → Prop
  | .push key _ _ _ _ => live l key = none
  | .pop key msg => ∃ t, live l key = some (msg, t)
  | .fire key msg time => live l key = some (msg, time)

def Fits (l : List Ev) : Prop := ∀ l1 e l2, l = l1 ++ e :: l2 → Right l1 e

theorem Fits.snoc {l : List Ev} {e : Ev} (h : Fits l) (he : Right l e) : Fits (l ++ [e]) := by
  intro l1 e' l2 heq
  rcases List.eq_nil_or_concat l2 with rfl | ⟨l3, e3, rfl⟩
  · have := List.append_inj_right' heq (by simp)
    have h2 := List.append_inj_left' heq (by simp)
    simp at this
    subst this; subst h2
    exact he
  · have heq' : l ++ [e] = (l1 ++ e' :: l3) ++ [e3] := by simpa using heq
    have h2 := List.append_inj_left' heq' (by simp)
    exact h l1 e' l3 h2

/-! ## Where a node is filed -/

def Filed (L : Nat) (x : Nat × Nat × Node) : Prop :=
  x.1 < 5 ∧ x.2.1 = x.2.2.t / low x.1 % size x.1 ∧ L ≤ low x.1 * (x.2.2.t / low x.1) ∧ x.2.2.t < L + low x.1 * size x.1 ∧
    (x.1 ≠ 0 → x.2.2.expire % 2 ^ 32 = x.2.2.t % 2 ^ 32)

def Ahead (L : Nat) (x : Nat × Nat × Node) : Prop := x.1 ≠ 0 → L < low x.1 * (x.2.2.t / low x.1)

theorem toInt_range (x : Int) : -2 ^ 31 ≤ toInt x ∧ toInt x < 2 ^ 31 ∧ (toInt x - x) % 2 ^ 32 = 0 := by
  unfold toInt
  split <;> omega

/-- A node with time `t`, not in the past, is put where it belongs. -/
theorem place_filed {L : Nat} (n : Node) (hle : L ≤ n.t) (h : (n.t : Int) - L = toInt ((n.expire : Int) - L)) :
    Filed L ((place L n.expire).1, (place L n.expire).2, n) ∧ Ahead L ((place L n.expire).1, (place L n.expire).2, n) := by
  have ⟨h1, h2, h3⟩ := toInt_range ((n.expire : Int) - L)
  unfold place Filed Ahead
  generalize toInt ((n.expire : Int) - L) = d at *
  have hneg : ¬d < 0 := by omega
  simp only [if_neg hneg]
  have hm : n.expire % 2 ^ 32 = n.t % 2 ^ 32 := by omega
  split
  · simp only [low, size]; omega
  split
  · simp only [low, size]; omega
  split
  · simp only [low, size]; omega
  split
  · simp only [low, size]; omega
  · simp only [low, size]; omega

theorem toInt_same {a b : Int} (h : (a - b) % 2 ^ 32 = 0) (h1 : 0 ≤ a) (h2 : a < 2 ^ 31) : a = toInt b := by
  unfold toInt
  split <;> omega

theorem Filed.up {L : Nat} {x : Nat × Nat × Node} (h : Filed L x) (ha : Ahead L x) (h0 : x.1 = 0 → x.2.2.t ≠ L) : Filed (L + 1) x := by
  obtain ⟨h1, h2, h3, h4, h5⟩ := h
  refine ⟨h1, h2, ?_, by omega, h5⟩
  by_cases hk : x.1 = 0
  · have := h0 hk
    rw [hk] at h3 ⊢
    simp only [low] at h3 ⊢
    omega
  · exact ha hk

/-- A new node is put where it belongs. -/
theorem new_filed {last e : Nat} (busy : Bool) (n : Node) (he : n.expire = e) (ht : n.t = aim last e busy) :
    Filed (if busy then last + 1 else last) ((place last e).1, (place last e).2, n) ∧
      (if busy then last + 1 else last) ≤ n.t := by
  subst he
  have ⟨h1, h2, h3⟩ := toInt_range ((n.expire : Int) - last)
  by_cases hd : 0 < toInt ((n.expire : Int) - last)
  · have hT : n.t = last + (toInt ((n.expire : Int) - last)).toNat := by
      rw [ht]; unfold aim
      have : ¬toInt ((n.expire : Int) - last) ≤ 0 := by omega
      simp [this]
    have hp := place_filed (L := last) n (by omega) (by omega)
    cases busy
    · exact ⟨hp.1, by simp; omega⟩
    · exact ⟨hp.1.up hp.2 (by intro _; show n.t ≠ last; omega), by simp; omega⟩
  · unfold aim at ht
    unfold place Filed
    generalize toInt ((n.expire : Int) - last) = d at *
    have hle : d ≤ 0 := by omega
    cases busy
    · have hT : n.t = last := by simpa [show d.toNat = 0 by omega] using ht
      by_cases hneg : d < 0
      · simp only [if_pos hneg, low, size, hT]; simp
      · have : d = 0 := by omega
        subst this
        simp [low, size, hT]; omega
    · have hT : n.t = last + 2 ^ 10 := by simpa [hle] using ht
      by_cases hneg : d < 0
      · simp only [if_pos hneg, low, size, hT]; simp
      · have : d = 0 := by omega
        subst this
        simp [low, size, hT]; omega

/-! ## The cascades -/

theorem part_perm {α : Type} (p : α → Bool) (l : List α) : (l.filter (fun x => !p x) ++ l.filter p).Perm l := by
  induction l with
  | nil => simp
  | cons a l ih =>
    by_cases h : p a = true
    · simp only [List.filter_cons, h, Bool.not_true, if_true]
      exact List.perm_middle.trans (ih.cons a)
    · simp only [List.filter_cons, h]
      exact ih.cons a

def Q.held (q : Q) : List Node := q.nodes.map (·.2.2)

theorem cascade_perm (q : Q) (k : Nat) : (q.cascade k).held.Perm q.held := by
  unfold Q.held Q.cascade
  simp only [List.map_append, List.map_map]
  have := (part_perm (here k (q.slot k)) q.nodes).map (·.2.2)
  simpa [List.map_append, Function.comp_def] using this

theorem here_iff {k i : Nat} {x : Nat × Nat × Node} : here k i x = true ↔ x.1 = k ∧ x.2.1 = i := by
  simp [here]

theorem cascade_filed (q : Q) (k : Nat) (hk : 0 < k) (hk5 : k < 5) (hL : q.last % low k = 0)
    (h : ∀ x ∈ q.nodes, Filed q.last x ∧ (x.1 < k → Ahead q.last x)) :
    ∀ x ∈ (q.cascade k).nodes, Filed q.last x ∧ (x.1 < k + 1 → Ahead q.last x) := by
  intro x hx
  simp only [Q.cascade, List.mem_append, List.mem_filter, List.mem_map] at hx
  rcases hx with ⟨hx, hne⟩ | ⟨y, ⟨hy, hhere⟩, rfl⟩
  · obtain ⟨hf, ha⟩ := h x hx
    refine ⟨hf, fun hlt => ?_⟩
    by_cases hxk : x.1 = k
    · intro _
      obtain ⟨h1, h2, h3, h4, h5⟩ := hf
      have hsl : x.2.1 ≠ q.slot k := by
        intro he
        have : here k (q.slot k) x = true := here_iff.2 ⟨hxk, he⟩
        simp [this] at hne
      rw [hxk] at h2 h3 ⊢
      rcases Nat.lt_or_eq_of_le h3 with hlt | heq
      · exact hlt
      · exfalso
        apply hsl
        rw [h2, Q.slot, heq]
        have hpos : 0 < low k := by
          unfold low; split <;> omega
        rw [Nat.mul_div_cancel_left _ hpos]
    · exact ha (by omega)
  · obtain ⟨hyk, hys⟩ := here_iff.1 hhere
    obtain ⟨⟨h1, h2, h3, h4, h5⟩, -⟩ := h y hy
    have h5 := h5 (by omega)
    rw [hyk] at h2 h3 h4
    have hge : q.last ≤ y.2.2.t := by
      have := Nat.mul_div_le y.2.2.t (low k)
      omega
    have hlt : y.2.2.t < q.last + 2 ^ 31 := by
      have hs : y.2.1 = q.last / low k % size k := hys
      have : k = 1 ∨ k = 2 ∨ k = 3 ∨ k = 4 := by omega
      rcases this with rfl | rfl | rfl | rfl <;> simp only [low, size] at * <;> omega
    have := place_filed (L := q.last) y.2.2 hge (toInt_same (by omega) (by omega) (by omega))
    exact ⟨this.1, fun _ => this.2⟩

theorem cascades_perm (q : Q) : q.cascades.held.Perm q.held := by
  unfold Q.cascades
  split
  · exact .refl _
  dsimp only
  split
  · exact cascade_perm q 1
  split
  · exact (cascade_perm _ 2).trans (cascade_perm q 1)
  split
  · exact (cascade_perm _ 3).trans ((cascade_perm _ 2).trans (cascade_perm q 1))
  · exact (cascade_perm _ 4).trans ((cascade_perm _ 3).trans ((cascade_perm _ 2).trans (cascade_perm q 1)))

theorem ahead_of {L k : Nat} {x : Nat × Nat × Node} (h : Filed L x) (hk : x.1 = k) (hL : L % low k ≠ 0) : Ahead L x := by
  intro _
  obtain ⟨-, -, h3, -, -⟩ := h
  rw [hk] at h3 ⊢
  rcases Nat.lt_or_eq_of_le h3 with hlt | heq
  · exact hlt
  · rw [heq, Nat.mul_mod_right] at hL
    exact absurd rfl hL

/-- After the cascades of a millisecond all nodes of the higher levels are for later. -/
theorem cascades_filed (q : Q) (h : ∀ x ∈ q.nodes, Filed q.last x) : ∀ x ∈ q.cascades.nodes, Filed q.last x ∧ Ahead q.last x := by
  have h0 : ∀ x ∈ q.nodes, Filed q.last x ∧ (x.1 < 1 → Ahead q.last x) := fun x hx => ⟨h x hx, fun hlt hne => absurd hlt (by omega)⟩
  have fin : ∀ {k : Nat} {q' : Q}, (∀ x ∈ q'.nodes, Filed q.last x ∧ (x.1 < k → Ahead q.last x)) →
      (∀ j, k ≤ j → j < 5 → q.last % low j ≠ 0) → ∀ x ∈ q'.nodes, Filed q.last x ∧ Ahead q.last x := by
    intro k q' h1 h2 x hx
    obtain ⟨hf, ha⟩ := h1 x hx
    refine ⟨hf, ?_⟩
    by_cases hlt : x.1 < k
    · exact ha hlt
    · exact ahead_of hf rfl (h2 _ (by omega) hf.1)
  have cases4 : ∀ {P : Nat → Prop} {k : Nat}, (k ≤ 1 → P 1) → (k ≤ 2 → P 2) → (k ≤ 3 → P 3) → (k ≤ 4 → P 4) → 0 < k → ∀ j, k ≤ j → j < 5 → P j := by
    intro P k h1 h2 h3 h4 hk j hj hj5
    have : j = 1 ∨ j = 2 ∨ j = 3 ∨ j = 4 := by omega
    rcases this with rfl | rfl | rfl | rfl
    · exact h1 hj
    · exact h2 hj
    · exact h3 hj
    · exact h4 hj
  unfold Q.cascades
  split
  · rename_i hn
    refine fin (q' := q) h0 (cases4 ?_ ?_ ?_ ?_ (by omega)) <;> intro _ <;> simp only [low] <;> omega
  rename_i h1
  have hL1 : q.last % low 1 = 0 := by simp only [low]; omega
  have c1 := cascade_filed q 1 (by omega) (by omega) hL1 h0
  dsimp only
  split
  · rename_i hn
    simp only [Q.slot, low, size] at hn
    refine fin c1 (cases4 ?_ ?_ ?_ ?_ (by omega)) <;> intro _ <;> simp only [low] <;> omega
  rename_i h2
  simp only [Q.slot, low, size] at h2
  have hL2 : q.last % low 2 = 0 := by simp only [low] at hL1 ⊢; omega
  have c2 := cascade_filed (q.cascade 1) 2 (by omega) (by omega) hL2 c1
  split
  · rename_i hn
    simp only [Q.slot, low, size] at hn
    refine fin c2 (cases4 ?_ ?_ ?_ ?_ (by omega)) <;> intro _ <;> simp only [low] <;> omega
  rename_i h3
  simp only [Q.slot, low, size] at h3
  have hL3 : q.last % low 3 = 0 := by simp only [low] at hL2 ⊢; omega
  have c3 := cascade_filed ((q.cascade 1).cascade 2) 3 (by omega) (by omega) hL3 c2
  split
  · rename_i hn
    simp only [Q.slot, low, size] at hn
    refine fin c3 (cases4 ?_ ?_ ?_ ?_ (by omega)) <;> intro _ <;> simp only [low] <;> omega
  rename_i h4
  simp only [Q.slot, low, size] at h4
  have hL4 : q.last % low 4 = 0 := by simp only [low] at hL3 ⊢; omega
  have c4 := cascade_filed (((q.cascade 1).cascade 2).cascade 3) 4 (by omega) (by omega) hL4 c3
  exact fin (k := 5) c4 (by intro j hj hj5; omega)

/-! ## The invariant -/

def Q.cur (q : Q) : Nat := if q.busy then q.last + 1 else q.last

def Q.all (q : Q) : List Node := q.held ++ q.run

structure Inv (q : Q) : Prop where
  filed : ∀ x ∈ q.nodes, Filed q.cur x
  runt : ∀ n ∈ q.run, n.t = q.last
  idle : q.busy = false → q.run = []
  nodup : (q.all.map Node.nid).Nodup
  own : ∀ n ∈ q.all, ∃ m, q.map n.key = some (m, n.nid) ∧ live q.log n.key = some (m, n.t)
  has : ∀ k m i, q.map k = some (m, i) → ∃ n ∈ q.all, n.key = k ∧ n.nid = i
  free : ∀ k, q.map k = none → live q.log k = none
  fresh : ∀ n ∈ q.all, n.nid < q.next
  fits : Fits q.log

theorem Inv.init (now : Nat) : Inv (.fresh now) where
  filed := by simp [Q.fresh]
  runt := by simp [Q.fresh]
  idle := by simp [Q.fresh]
  nodup := by simp [Q.fresh, Q.all, Q.held]
  own := by simp [Q.fresh, Q.all, Q.held]
  has := by simp [Q.fresh]
  free := by simp [Q.fresh, live]
  fresh := by simp [Q.fresh, Q.all, Q.held]
  fits := by intro l1 e l2 h; simp [Q.fresh] at h

/-- Nodes of one number, or of one key, are one node. -/
theorem nid_inj {l : List Node} (h : (l.map Node.nid).Nodup) {a b : Node} (ha : a ∈ l) (hb : b ∈ l) (he : a.nid = b.nid) : a = b := by
  induction l with
  | nil => cases ha
  | cons c l ih =>
    simp only [List.map_cons, List.nodup_cons, List.mem_map, not_exists, not_and] at h
    rcases List.mem_cons.1 ha with rfl | ha
    · rcases List.mem_cons.1 hb with rfl | hb
      · rfl
      · exact absurd he.symm (h.1 b hb)
    · rcases List.mem_cons.1 hb with rfl | hb
      · exact absurd he (h.1 a ‹_›)
      · exact ih h.2 ha hb

theorem Inv.push {q : Q} (h : Inv q) (k m e : Nat) : Inv (q.push k m e).1 := by
  unfold Q.push
  split
  · exact h
  · rename_i hk
    have nf := new_filed q.busy (last := q.last) (e := e) ⟨q.next, k, e, aim q.last e q.busy⟩ rfl rfl
    have hall : ∀ n, n ∈ (({ q.add k e with map := fun k' => if k' = k then some (m, q.next) else (q.add k e).map k', log := (q.add k e).log ++ [.push k m e q.last q.busy] } : Q)).all ↔
        n ∈ q.all ∨ n = ⟨q.next, k, e, aim q.last e q.busy⟩ := by
      intro n
      simp only [Q.all, Q.held, Q.add, List.map_append, List.map_cons, List.map_nil, List.mem_append, List.mem_singleton]
      constructor
      · rintro ((h | h) | h) <;> simp [h]
      · rintro ((h | h) | h) <;> simp [h]
    have key : ∀ n ∈ q.all, n.key ≠ k := by
      intro n hn he
      obtain ⟨m', h1, -⟩ := h.own n hn
      rw [he, hk] at h1
      cases h1
    refine ⟨?_, h.runt, h.idle, ?_, ?_, ?_, ?_, ?_, ?_⟩
    · intro x hx
      simp only [Q.add, List.mem_append, List.mem_singleton] at hx
      rcases hx with hx | rfl
      · exact h.filed x hx
      · exact nf.1
    · have hp : ((({ q.add k e with map := fun k' => if k' = k then some (m, q.next) else (q.add k e).map k', log := (q.add k e).log ++ [.push k m e q.last q.busy] } : Q)).all.map Node.nid).Perm
          (q.next :: q.all.map Node.nid) := by
        simp only [Q.all, Q.held, Q.add, List.map_append, List.map_cons, List.map_nil, List.append_assoc]
        exact List.perm_middle
      rw [hp.nodup_iff, List.nodup_cons]
      refine ⟨?_, h.nodup⟩
      intro hm
      obtain ⟨n, hn, he⟩ := List.mem_map.1 hm
      have := h.fresh n hn
      omega
    · intro n hn
      dsimp only
      rw [live_snoc]
      rcases (hall n).1 hn with hn | rfl
      · obtain ⟨m', h1, h2⟩ := h.own n hn
        have hne := key n hn
        exact ⟨m', by simp only [if_neg hne]; exact h1, by simp only [after, if_neg hne]; exact h2⟩
      · exact ⟨m, by simp, by simp [after]⟩
    · intro k' m' i hm
      dsimp only at hm
      by_cases he : k' = k
      · rw [if_pos he] at hm
        simp only [Option.some.injEq, Prod.mk.injEq] at hm
        exact ⟨_, (hall _).2 (.inr rfl), he.symm, hm.2⟩
      · rw [if_neg he] at hm
        obtain ⟨n, hn, h1, h2⟩ := h.has k' m' i hm
        exact ⟨n, (hall n).2 (.inl hn), h1, h2⟩
    · intro k' hm
      dsimp only at hm ⊢
      rw [live_snoc]
      by_cases he : k' = k
      · rw [if_pos he] at hm; cases hm
      · rw [if_neg he] at hm
        simp only [after, if_neg he]
        exact h.free k' hm
    · intro n hn
      rcases (hall n).1 hn with hn | rfl
      · exact Nat.lt_succ_of_lt (h.fresh n hn)
      · exact Nat.lt_succ_self _
    · exact h.fits.snoc (h.free k hk)

theorem Inv.drop {q q' : Q} (h : Inv q) (d : Node) (hd : d ∈ q.all) (ev : Ev) (hev : Right q.log ev)
    (haf : after (live q.log) ev = fun k => if k = d.key then none else live q.log k)
    (h1 : q'.last = q.last) (h2 : q'.busy = q.busy) (h3 : q'.next = q.next)
    (hmap : q'.map = fun k => if k = d.key then none else q.map k) (hlog : q'.log = q.log ++ [ev])
    (hnodes : ∀ x ∈ q'.nodes, x ∈ q.nodes) (hrun : ∀ n ∈ q'.run, n ∈ q.run)
    (hsub : (q'.all.map Node.nid).Sublist (q.all.map Node.nid)) (hmem : ∀ n, n ∈ q'.all ↔ n ∈ q.all ∧ n ≠ d) : Inv q' where
  filed := by
    intro x hx
    have : q'.cur = q.cur := by simp [Q.cur, h1, h2]
    rw [this]
    exact h.filed x (hnodes x hx)
  runt := by intro n hn; rw [h1]; exact h.runt n (hrun n hn)
  idle := by
    intro hb
    rw [h2] at hb
    have := h.idle hb
    cases hr : q'.run with
    | nil => rfl
    | cons a l =>
      have := hrun a (by simp [hr])
      rw [h.idle hb] at this
      cases this
  nodup := hsub.nodup h.nodup
  own := by
    intro n hn
    obtain ⟨hn, hne⟩ := (hmem n).1 hn
    obtain ⟨m, ho1, ho2⟩ := h.own n hn
    have hkey : n.key ≠ d.key := by
      intro he
      obtain ⟨m', hd1, -⟩ := h.own d hd
      rw [he, hd1] at ho1
      simp only [Option.some.injEq, Prod.mk.injEq] at ho1
      exact hne (nid_inj h.nodup hn hd ho1.2.symm)
    refine ⟨m, ?_, ?_⟩
    · rw [hmap]; simp only [if_neg hkey]; exact ho1
    · rw [hlog, live_snoc, haf]; simp only [if_neg hkey]; exact ho2
  has := by
    intro k m i hm
    rw [hmap] at hm
    by_cases he : k = d.key
    · simp [he] at hm
    · simp only [if_neg he] at hm
      obtain ⟨n, hn, h1, h2⟩ := h.has k m i hm
      exact ⟨n, (hmem n).2 ⟨hn, by intro hnd; rw [hnd] at h1; exact he h1.symm⟩, h1, h2⟩
  free := by
    intro k hm
    rw [hmap] at hm
    rw [hlog, live_snoc, haf]
    by_cases he : k = d.key
    · simp [he]
    · simp only [if_neg he] at hm ⊢
      exact h.free k hm
  fresh := by intro n hn; rw [h3]; exact h.fresh n ((hmem n).1 hn).1
  fits := by rw [hlog]; exact h.fits.snoc hev

theorem Inv.pop {q : Q} {r : Q × Option Nat} (h : Inv q) (k : Nat) (hp : q.pop k = some r) : Inv r.1 := by
  unfold Q.pop at hp
  split at hp
  · cases hp; exact h
  · rename_i msg nid hm
    unfold Q.delete at hp
    split at hp
    · cases hp
    · rename_i q' hq'
      split at hq'
      · cases hq'
      · cases hq'; cases hp
        obtain ⟨d, hd, rfl, rfl⟩ := h.has k msg nid hm
        obtain ⟨m, ho1, ho2⟩ := h.own d hd
        rw [hm] at ho1
        simp only [Option.some.injEq, Prod.mk.injEq, and_true] at ho1
        subst ho1
        have hall : (({ q with nodes := q.nodes.filter fun x => x.2.2.nid ≠ d.nid, run := q.run.filter fun n => n.nid ≠ d.nid } : Q)).all = q.all.filter fun n => n.nid ≠ d.nid := by
          simp only [Q.all, Q.held, List.filter_append, List.filter_map, Function.comp_def]
        refine h.drop d hd (.pop d.key msg) ⟨_, ho2⟩ rfl rfl rfl rfl rfl rfl ?_ ?_ ?_ ?_
        · intro x hx; exact (List.mem_filter.1 hx).1
        · intro n hn; exact (List.mem_filter.1 hn).1
        · exact (hall ▸ List.filter_sublist).map _
        · intro n
          show n ∈ (({ q with nodes := q.nodes.filter fun x => x.2.2.nid ≠ d.nid, run := q.run.filter fun n => n.nid ≠ d.nid } : Q)).all ↔ _
          rw [hall, List.mem_filter]
          constructor
          · rintro ⟨h1, h2⟩
            exact ⟨h1, by intro he; simp [he] at h2⟩
          · rintro ⟨h1, h2⟩
            refine ⟨h1, ?_⟩
            have : n.nid ≠ d.nid := fun he => h2 (nid_inj h.nodup h1 hd he)
            simpa using this

theorem push_frame (q : Q) (k m e : Nat) : (q.push k m e).1.last = q.last ∧ (q.push k m e).1.busy = q.busy ∧ (q.push k m e).1.run = q.run := by
  unfold Q.push
  split
  · exact ⟨rfl, rfl, rfl⟩
  · exact ⟨rfl, rfl, rfl⟩

theorem pop_frame {q : Q} {r : Q × Option Nat} (k : Nat) (hp : q.pop k = some r) :
    r.1.last = q.last ∧ r.1.busy = q.busy ∧ r.1.run.length ≤ q.run.length := by
  unfold Q.pop at hp
  split at hp
  · cases hp; exact ⟨rfl, rfl, Nat.le_refl _⟩
  · unfold Q.delete at hp
    split at hp
    · cases hp
    · rename_i q' hq'
      split at hq'
      · cases hq'
      · cases hq'; cases hp
        exact ⟨rfl, rfl, List.length_filter_le _ _⟩

theorem Inv.ops {q q' : Q} {os : List Op} (h : Inv q) (ho : q.ops os = some q') :
    Inv q' ∧ q'.last = q.last ∧ q'.busy = q.busy ∧ q'.run.length ≤ q.run.length := by
  induction os generalizing q with
  | nil => cases ho; exact ⟨h, rfl, rfl, Nat.le_refl _⟩
  | cons o os ih =>
    cases o with
    | push k m e =>
      obtain ⟨h1, h2, h3, h4⟩ := ih (h.push k m e) ho
      obtain ⟨f1, f2, f3⟩ := push_frame q k m e
      exact ⟨h1, h2.trans f1, h3.trans f2, by rw [← f3]; exact h4⟩
    | pop k =>
      simp only [Q.ops] at ho
      split at ho
      · cases ho
      · rename_i r hr
        obtain ⟨h1, h2, h3, h4⟩ := ih (h.pop k hr) ho
        obtain ⟨f1, f2, f3⟩ := pop_frame k hr
        exact ⟨h1, h2.trans f1, h3.trans f2, by omega⟩

/-- The state in which the handler for the first node runs. -/
theorem Inv.taken {q : Q} (h : Inv q) {n : Node} {rest : List Node} (hr : q.run = n :: rest) {msg i : Nat} (hm : q.map n.key = some (msg, i)) :
    Inv ({ q with run := rest, map := fun k => if k = n.key then none else q.map k, log := q.log ++ [.fire n.key msg q.last] } : Q) := by
  have hn : n ∈ q.all := by simp [Q.all, hr]
  obtain ⟨m, ho1, ho2⟩ := h.own n hn
  rw [hm] at ho1
  simp only [Option.some.injEq, Prod.mk.injEq] at ho1
  obtain ⟨rfl, -⟩ := ho1
  have ht := h.runt n (by simp [hr])
  have hnd : (q.all.map Node.nid).Nodup := h.nodup
  have hperm : (q.all).Perm (n :: (q.held ++ rest)) := by
    rw [Q.all, hr]; exact List.perm_middle
  have hnot : n ∉ q.held ++ rest := by
    have := (hperm.map Node.nid).nodup_iff.1 hnd
    simp only [List.map_cons, List.nodup_cons] at this
    intro hmem
    exact this.1 (List.mem_map_of_mem hmem)
  refine h.drop n hn (.fire n.key msg q.last) (by rw [← ht]; exact ho2) rfl rfl rfl rfl rfl rfl (fun x hx => hx) ?_ ?_ ?_
  · intro n' hn'; rw [hr]; exact List.mem_cons_of_mem _ hn'
  · apply List.Sublist.map
    show (q.held ++ rest).Sublist (q.held ++ q.run)
    rw [hr]
    exact List.Sublist.append (List.Sublist.refl _) (List.sublist_cons_self _ _)
  · intro n'
    show n' ∈ q.held ++ rest ↔ _
    rw [hperm.mem_iff, List.mem_cons]
    constructor
    · intro hin; exact ⟨.inr hin, by rintro rfl; exact hnot hin⟩
    · rintro ⟨rfl | hm, hne⟩
      · exact absurd rfl hne
      · exact hm

theorem Inv.runList {q q' : Q} {H : Handler} {fuel : Nat} (h : Inv q) (hf : q.run.length ≤ fuel) (hr : q.runList H fuel = some q') :
    Inv q' ∧ q'.last = q.last ∧ q'.busy = q.busy ∧ q'.run = [] := by
  induction fuel generalizing q with
  | zero =>
    cases hr
    exact ⟨h, rfl, rfl, List.length_eq_zero_iff.1 (by omega)⟩
  | succ fuel ih =>
    unfold Q.runList at hr
    split at hr
    · cases hr; rename_i he; exact ⟨h, rfl, rfl, he⟩
    · rename_i n rest he
      split at hr
      · cases hr
      · rename_i q1 hq1
        unfold Q.fire at hq1
        split at hq1
        · cases hq1
        · rename_i msg i hm
          have ht := h.taken he hm
          obtain ⟨h1, h2, h3, h4⟩ := ht.ops hq1
          have hl : rest.length + 1 ≤ fuel + 1 := by rw [he] at hf; simpa using hf
          obtain ⟨h5, h6, h7, h8⟩ := ih h1 (by have : q1.run.length ≤ rest.length := h4; omega) hr
          exact ⟨h5, h6.trans h2, h7.trans h3, h8⟩

theorem cascades_frame (q : Q) : q.cascades.last = q.last ∧ q.cascades.busy = q.busy ∧ q.cascades.run = q.run ∧ q.cascades.map = q.map ∧
    q.cascades.log = q.log ∧ q.cascades.next = q.next := by
  unfold Q.cascades
  split
  · exact ⟨rfl, rfl, rfl, rfl, rfl, rfl⟩
  dsimp only
  split
  · exact ⟨rfl, rfl, rfl, rfl, rfl, rfl⟩
  split
  · exact ⟨rfl, rfl, rfl, rfl, rfl, rfl⟩
  split
  · exact ⟨rfl, rfl, rfl, rfl, rfl, rfl⟩
  · exact ⟨rfl, rfl, rfl, rfl, rfl, rfl⟩

/-- The state in which the handlers of a millisecond start. -/
def Q.detach (q : Q) : Q :=
  { q.cascades with
    nodes := q.cascades.nodes.filter (fun x => !here 0 (q.last % 2 ^ 10) x),
    run := (q.cascades.nodes.filter (here 0 (q.last % 2 ^ 10))).map (·.2.2), busy := true }

theorem Inv.detach {q : Q} (h : Inv q) (hb : q.busy = false) : Inv q.detach := by
  obtain ⟨f1, f2, f3, f4, f5, f6⟩ := cascades_frame q
  have hrun := h.idle hb
  have hfl := cascades_filed q (by intro x hx; have := h.filed x hx; simpa [Q.cur, hb] using this)
  have hperm : q.detach.all.Perm q.all := by
    have h1 : q.detach.all = (q.cascades.nodes.filter (fun x => !here 0 (q.last % 2 ^ 10) x) ++ q.cascades.nodes.filter (here 0 (q.last % 2 ^ 10))).map (·.2.2) := by
      simp [Q.detach, Q.all, Q.held]
    have h2 : q.all = q.held := by simp [Q.all, hrun]
    rw [h1, h2]
    exact ((part_perm _ _).map _).trans (cascades_perm q)
  have hm : ∀ n, n ∈ q.detach.all ↔ n ∈ q.all := fun n => hperm.mem_iff
  have e1 : q.detach.map = q.map := f4
  have e2 : q.detach.log = q.log := f5
  refine ⟨?_, ?_, ?_, ?_, ?_, ?_, ?_, ?_, ?_⟩
  · intro x hx
    obtain ⟨hx1, hx2⟩ := List.mem_filter.1 hx
    obtain ⟨hf, ha⟩ := hfl x hx1
    have hc : q.detach.cur = q.last + 1 := by simp [Q.detach, Q.cur, f1]
    rw [hc]
    refine hf.up ha ?_
    intro h0 ht
    have : here 0 (q.last % 2 ^ 10) x = true := by
      refine here_iff.2 ⟨h0, ?_⟩
      rw [hf.2.1, h0, ht]; simp [low, size]
    simp [this] at hx2
  · intro n hn
    obtain ⟨x, hx, rfl⟩ := List.mem_map.1 hn
    obtain ⟨hx1, hx2⟩ := List.mem_filter.1 hx
    obtain ⟨h0, hs⟩ := here_iff.1 hx2
    obtain ⟨-, g2, g3, g4, -⟩ := (hfl x hx1).1
    have : q.detach.last = q.last := f1
    rw [this]
    rw [h0] at g2 g3 g4
    simp only [low, size] at g2 g3 g4
    omega
  · intro hh; cases hh
  · exact (hperm.map _).nodup_iff.2 h.nodup
  · intro n hn
    rw [e1, e2]
    exact h.own n ((hm n).1 hn)
  · intro k m i hk
    rw [e1] at hk
    obtain ⟨n, hn, h1⟩ := h.has k m i hk
    exact ⟨n, (hm n).2 hn, h1⟩
  · intro k hk
    rw [e1] at hk
    rw [e2]
    exact h.free k hk
  · intro n hn
    have : q.detach.next = q.next := f6
    rw [this]
    exact h.fresh n ((hm n).1 hn)
  · rw [e2]; exact h.fits

theorem tick_eq (q : Q) (H : Handler) : q.tick H = match q.detach.runList H q.detach.run.length with
    | none => none
    | some q3 => some { q3 with last := q3.last + 1, busy := false } := rfl

theorem Inv.tick {q q' : Q} {H : Handler} (h : Inv q) (hb : q.busy = false) (ht : q.tick H = some q') :
    Inv q' ∧ q'.busy = false ∧ q'.last = q.last + 1 := by
  rw [tick_eq] at ht
  split at ht
  · cases ht
  · rename_i q3 h3
    cases ht
    obtain ⟨h1, h2, h4, h5⟩ := (h.detach hb).runList (Nat.le_refl _) h3
    have hl : q3.last = q.last := h2.trans (cascades_frame q).1
    have hbz : q3.busy = true := h4
    refine ⟨⟨?_, ?_, fun _ => h5, h1.nodup, h1.own, h1.has, h1.free, h1.fresh, h1.fits⟩, rfl, by show q3.last + 1 = _; rw [hl]⟩
    · intro x hx
      have := h1.filed x hx
      simpa [Q.cur, hbz] using this
    · intro n hn
      rw [h5] at hn
      cases hn

theorem Inv.ticks {q q' : Q} {H : Handler} {n : Nat} (h : Inv q) (hb : q.busy = false) (ht : q.ticks H n = some q') :
    Inv q' ∧ q'.busy = false ∧ q'.last = q.last + n := by
  induction n generalizing q with
  | zero => cases ht; exact ⟨h, hb, rfl⟩
  | succ n ih =>
    unfold Q.ticks at ht
    split at ht
    · cases ht
    · rename_i q1 hq1
      obtain ⟨h1, h2, h3⟩ := h.tick hb hq1
      obtain ⟨h4, h5, h6⟩ := ih h1 h2 ht
      exact ⟨h4, h5, by omega⟩

theorem Inv.call {q q' : Q} (h : Inv q) (hb : q.busy = false) (c : Call) (hc : q.call c = some q') : Inv q' ∧ q'.busy = false := by
  cases c with
  | push k m e =>
    cases hc
    exact ⟨h.push k m e, (push_frame q k m e).2.1.trans hb⟩
  | pop k =>
    simp only [Q.call, Option.map_eq_some_iff] at hc
    obtain ⟨r, hr, rfl⟩ := hc
    exact ⟨h.pop k hr, (pop_frame k hr).2.1.trans hb⟩
  | timeout H now =>
    obtain ⟨h1, h2, -⟩ := h.ticks hb hc
    exact ⟨h1, h2⟩

theorem Reach.inv {now : Nat} {q : Q} (h : Reach now q) : Inv q ∧ q.busy = false := by
  induction h with
  | init => exact ⟨.init now, rfl⟩
  | step c _ hc ih => exact ih.1.call ih.2 c hc

end Verif.Transport.Wheel
