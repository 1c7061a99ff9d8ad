import Verif.Conn.Writes

/-!
# What a fiber connection writes

The invariant of the list and of the write events, for any number of senders and any order of steps.
-/

namespace Verif.Conn

/-! ## Lengths -/

def P (ms : List Bytes) (k : Nat) : Nat := (ms.take k).flatten.length

theorem P_succ {ms : List Bytes} {k : Nat} {m : Bytes} (h : ms[k]? = some m) : P ms (k + 1) = P ms k + m.length := by
  simp [P, List.take_add_one, h]

theorem P_mono {ms : List Bytes} {i j : Nat} (h : i ≤ j) : P ms i ≤ P ms j := by
  obtain ⟨d, rfl⟩ := Nat.exists_eq_add_of_le h
  simp only [P, List.take_add, List.flatten_append, List.length_append]
  omega

theorem P_le {ms : List Bytes} (k : Nat) : P ms k ≤ ms.flatten.length := by
  have := @P_mono ms k (max k ms.length) (by omega)
  simp only [P] at *
  rw [List.take_of_length_le (by omega : ms.length ≤ max k ms.length)] at this
  exact this

theorem P_all {ms : List Bytes} : P ms ms.length = ms.flatten.length := by simp [P]

theorem take_P (ms : List Bytes) (k : Nat) : ms.flatten.take (P ms k) = (ms.take k).flatten := by
  have e : ms.flatten = (ms.take k).flatten ++ (ms.drop k).flatten := by rw [← List.flatten_append, List.take_append_drop]
  rw [e, P, List.take_left']
  rfl

theorem take_P_add {ms : List Bytes} {k : Nat} {m : Bytes} (h : ms[k]? = some m) {o : Nat} (ho : o ≤ m.length) :
    ms.flatten.take (P ms k + o) = (ms.take k).flatten ++ m.take o := by
  obtain ⟨hk, hm⟩ := List.getElem?_eq_some_iff.1 h
  have e : ms = ms.take k ++ (m :: ms.drop (k + 1)) := by
    rw [← hm, List.getElem_cons_drop, List.take_append_drop]
  have e2 : ms.flatten = (ms.take k).flatten ++ (m ++ (ms.drop (k + 1)).flatten) := by
    conv => lhs; rw [e]
    simp
  rw [e2, P, List.take_length_add_append, List.take_append_of_le_length ho]

/-! ## The list -/

abbrev Nodes := List Node

def msgs (ns : Nodes) : List Bytes := ns.map (·.msg)

def offAt (ns : Nodes) (a : Nat) : Nat := match ns[a]? with | some nd => nd.off | none => 0

theorem get_modify {ns : Nodes} {i j : Nat} {f : Node → Node} {nd' : Node} :
    (ns.modify i f)[j]? = some nd' ↔ ∃ nd, ns[j]? = some nd ∧ nd' = if i = j then f nd else nd := by
  rw [List.getElem?_modify]
  cases h : ns[j]? <;> simp [eq_comm]

theorem msgs_modify {ns : Nodes} {i : Nat} {f : Node → Node} (hf : ∀ nd, (f nd).msg = nd.msg) : msgs (ns.modify i f) = msgs ns := by
  apply List.ext_getElem?
  intro j
  simp only [msgs, List.getElem?_map, List.getElem?_modify]
  cases h : ns[j]? <;> simp
  split <;> simp [hf]

theorem msgs_len (ns : Nodes) : (msgs ns).length = ns.length := by simp [msgs]

theorem msgs_get {ns : Nodes} {i : Nat} {nd : Node} (h : ns[i]? = some nd) : (msgs ns)[i]? = some nd.msg := by
  simp [msgs, h]

theorem lt_of_get {ns : Nodes} {i : Nat} {nd : Node} (h : ns[i]? = some nd) : i < ns.length := (List.getElem?_eq_some_iff.1 h).1

structure LInv (ns : Nodes) (tail : Option Nat) (sd : Nat → SPc) (a : Nat) : Prop where
  le : a ≤ ns.length
  live : ∀ i nd, ns[i]? = some nd → (nd.live = true ↔ a ≤ i)
  off : ∀ i nd, ns[i]? = some nd → nd.off ≤ nd.msg.length ∧ (a < i → nd.off = 0)
  next : ∀ i nd j, ns[i]? = some nd → nd.next = some j → j = i + 1 ∧ i + 1 < ns.length
  miss : ∀ i nd, ns[i]? = some nd → a ≤ i → nd.next = none → i + 1 < ns.length → ∃ j, sd j = .link (some i) (i + 1)
  linkS : ∀ j p m, sd j = .link (some p) m → m = p + 1 ∧ m < ns.length ∧ a ≤ p ∧ ∃ nd, ns[p]? = some nd ∧ nd.next = none
  linkN : ∀ j m, sd j = .link none m → m = a ∧ m < ns.length ∧ offAt ns a = 0
  uniq : ∀ j k p m q, sd j = .link (some p) m → sd k = .link (some p) q → j = k
  tail : tail = if a < ns.length then some (ns.length - 1) else none

theorem LInv.congr {ns tail sd sd' a} (h : LInv ns tail sd a) (hs : ∀ j p m, sd' j = .link p m ↔ sd j = .link p m) : LInv ns tail sd' a where
  le := h.le
  live := h.live
  off := h.off
  next := h.next
  miss := fun i nd h1 h2 h3 h4 => by
    obtain ⟨j, hj⟩ := h.miss i nd h1 h2 h3 h4
    exact ⟨j, (hs _ _ _).2 hj⟩
  linkS := fun j p m hj => h.linkS j p m ((hs _ _ _).1 hj)
  linkN := fun j m hj => h.linkN j m ((hs _ _ _).1 hj)
  uniq := fun j k p m q h1 h2 => h.uniq j k p m q ((hs _ _ _).1 h1) ((hs _ _ _).1 h2)
  tail := h.tail

theorem LInv.advance {ns tail sd a nd} (h : LInv ns tail sd a) (hn : ns[a]? = some nd) (hnx : nd.next ≠ none)
    (hs : ∀ j m, sd j ≠ .link none m) : LInv (ns.modify a fun nd => { nd with live := false }) tail sd (a + 1) where
  le := by
    have := lt_of_get hn
    simp; omega
  live := fun i x hx => by
    obtain ⟨y, hy, rfl⟩ := get_modify.1 hx
    have := h.live i y hy
    split <;> simp_all <;> omega
  off := fun i x hx => by
    obtain ⟨y, hy, rfl⟩ := get_modify.1 hx
    have := h.off i y hy
    split <;> simp_all <;> omega
  next := fun i x j hx => by
    obtain ⟨y, hy, rfl⟩ := get_modify.1 hx
    have := h.next i y j hy
    simp only [List.length_modify]
    split <;> exact this
  miss := fun i x hx h2 h3 h4 => by
    obtain ⟨y, hy, rfl⟩ := get_modify.1 hx
    rw [if_neg (by omega)] at h3
    exact h.miss i y hy (by omega) h3 (by simpa using h4)
  linkS := fun j p m hj => by
    obtain ⟨h1, h2, h3, x, hx, hxn⟩ := h.linkS j p m hj
    have hne : p ≠ a := by
      rintro rfl
      rw [hn] at hx; injection hx with hx; subst hx
      exact hnx hxn
    refine ⟨h1, by simpa using h2, by omega, x, ?_, hxn⟩
    exact get_modify.2 ⟨x, hx, by rw [if_neg (by omega)]⟩
  linkN := fun j m hj => absurd hj (hs j m)
  uniq := h.uniq
  tail := by
    obtain ⟨j, hj⟩ := Option.ne_none_iff_exists'.1 hnx
    have := h.next a nd j hn hj
    rw [h.tail]
    simp only [List.length_modify]
    rw [if_pos (by omega), if_pos (by omega)]

theorem LInv.drain {ns sd a nd} (h : LInv ns (some a) sd a) (hn : ns[a]? = some nd)
    (hs : ∀ j m, sd j ≠ .link none m) :
    a + 1 = ns.length ∧ LInv (ns.modify a fun nd => { nd with live := false }) none sd (a + 1) := by
  have hlt := lt_of_get hn
  have ht := h.tail
  rw [if_pos hlt] at ht
  injection ht with ht
  refine ⟨by omega, ?_⟩
  exact
  { le := by simp; omega
    live := fun i x hx => by
      obtain ⟨y, hy, rfl⟩ := get_modify.1 hx
      have := h.live i y hy
      split <;> simp_all <;> omega
    off := fun i x hx => by
      obtain ⟨y, hy, rfl⟩ := get_modify.1 hx
      have := h.off i y hy
      split <;> simp_all <;> omega
    next := fun i x j hx => by
      obtain ⟨y, hy, rfl⟩ := get_modify.1 hx
      have := h.next i y j hy
      simp only [List.length_modify]
      split <;> exact this
    miss := fun i x hx h2 h3 h4 => by
      simp at h4; omega
    linkS := fun j p m hj => by
      obtain ⟨h1, h2, h3, _⟩ := h.linkS j p m hj
      omega
    linkN := fun j m hj => absurd hj (hs j m)
    uniq := h.uniq
    tail := by
      simp only [List.length_modify]
      rw [if_neg (by omega)] }

theorem LInv.skip {ns tail sd a nd k} (h : LInv ns tail sd a) (hn : ns[a]? = some nd) (hk : nd.off + k ≤ nd.msg.length)
    (hs : ∀ j m, sd j ≠ .link none m) :
    LInv (ns.modify a fun nd => { nd with off := nd.off + k }) tail sd a where
  le := by simpa using h.le
  live := fun i x hx => by
    obtain ⟨y, hy, rfl⟩ := get_modify.1 hx
    have := h.live i y hy
    split <;> simpa using this
  off := fun i x hx => by
    obtain ⟨y, hy, rfl⟩ := get_modify.1 hx
    have := h.off i y hy
    by_cases e : a = i
    · subst e
      rw [hn] at hy; injection hy with hy; subst hy
      simp [hk]
    · rw [if_neg e]; exact this
  next := fun i x j hx => by
    obtain ⟨y, hy, rfl⟩ := get_modify.1 hx
    have := h.next i y j hy
    simp only [List.length_modify]
    split <;> exact this
  miss := fun i x hx h2 h3 h4 => by
    obtain ⟨y, hy, rfl⟩ := get_modify.1 hx
    refine h.miss i y hy (by omega) ?_ (by simpa using h4)
    split at h3 <;> exact h3
  linkS := fun j p m hj => by
    obtain ⟨h1, h2, h3, x, hx, hxn⟩ := h.linkS j p m hj
    refine ⟨h1, by simpa using h2, by omega, _, get_modify.2 ⟨x, hx, rfl⟩, ?_⟩
    split <;> exact hxn
  linkN := fun j m hj => absurd hj (hs j m)
  uniq := h.uniq
  tail := by
    rw [h.tail]; simp

theorem offAt_modify_next {ns : Nodes} {p a : Nat} {n : Option Nat} :
    offAt (ns.modify p fun nd => { nd with next := n }) a = offAt ns a := by
  simp only [offAt, List.getElem?_modify]
  cases ns[a]? <;> simp
  split <;> rfl

theorem LInv.link {ns tail sd a j p m} (h : LInv ns tail sd a) (hj : sd j = .link (some p) m) {sd' : Nat → SPc}
    (hs : ∀ k q n, sd' k = .link q n ↔ sd k = .link q n ∧ k ≠ j) :
    LInv (ns.modify p fun nd => { nd with next := some m }) tail sd' a where
  le := by simpa using h.le
  live := fun i x hx => by
    obtain ⟨y, hy, rfl⟩ := get_modify.1 hx
    have := h.live i y hy
    split <;> simpa using this
  off := fun i x hx => by
    obtain ⟨y, hy, rfl⟩ := get_modify.1 hx
    have := h.off i y hy
    split <;> simpa using this
  next := fun i x k hx hk => by
    obtain ⟨y, hy, rfl⟩ := get_modify.1 hx
    have := h.next i y k hy
    obtain ⟨h1, h2, _⟩ := h.linkS j p m hj
    simp only [List.length_modify]
    split at hk
    · next e => subst e; injection hk with hk; omega
    · exact this hk
  miss := fun i x hx h2 h3 h4 => by
    obtain ⟨y, hy, rfl⟩ := get_modify.1 hx
    by_cases e : p = i
    · rw [if_pos e] at h3; cases h3
    · rw [if_neg e] at h3
      obtain ⟨k, hk⟩ := h.miss i y hy h2 h3 (by simpa using h4)
      refine ⟨k, (hs _ _ _).2 ⟨hk, ?_⟩⟩
      rintro rfl
      rw [hj] at hk; injection hk with e1 e2; injection e1 with e1
      exact e e1
  linkS := fun k q n hk => by
    obtain ⟨hk, hne⟩ := (hs _ _ _).1 hk
    obtain ⟨h1, h2, h3, x, hx, hxn⟩ := h.linkS k q n hk
    refine ⟨h1, by simpa using h2, by omega, x, get_modify.2 ⟨x, hx, ?_⟩, hxn⟩
    rw [if_neg]
    rintro rfl
    exact hne (h.uniq k j p n m hk hj)
  linkN := fun k n hk => by
    obtain ⟨hk, hne⟩ := (hs _ _ _).1 hk
    obtain ⟨h1, h2, h3⟩ := h.linkN k n hk
    exact ⟨h1, by simpa using h2, by rw [offAt_modify_next]; exact h3⟩
  uniq := fun k l q n r hk hl => h.uniq k l q n r ((hs _ _ _).1 hk).1 ((hs _ _ _).1 hl).1
  tail := by
    rw [h.tail]; simp

theorem LInv.unlink {ns tail sd a j m} (h : LInv ns tail sd a) (hj : sd j = .link none m) {sd' : Nat → SPc}
    (hs : ∀ k q n, sd' k = .link q n ↔ sd k = .link q n ∧ k ≠ j) : LInv ns tail sd' a where
  le := h.le
  live := h.live
  off := h.off
  next := h.next
  miss := fun i x hx h2 h3 h4 => by
    obtain ⟨k, hk⟩ := h.miss i x hx h2 h3 h4
    refine ⟨k, (hs _ _ _).2 ⟨hk, ?_⟩⟩
    rintro rfl
    rw [hj] at hk; injection hk with e1 e2; cases e1
  linkS := fun k q n hk => h.linkS k q n ((hs _ _ _).1 hk).1
  linkN := fun k n hk => h.linkN k n ((hs _ _ _).1 hk).1
  uniq := fun k l q n r hk hl => h.uniq k l q n r ((hs _ _ _).1 hk).1 ((hs _ _ _).1 hl).1
  tail := h.tail

theorem get_push {ns : Nodes} {i : Nat} {x nd : Node} :
    (ns ++ [x])[i]? = some nd ↔ ns[i]? = some nd ∨ (i = ns.length ∧ nd = x) := by
  rw [List.getElem?_append]
  split
  · next h =>
    constructor
    · exact Or.inl
    · rintro (h' | ⟨h', _⟩)
      · exact h'
      · omega
  · next h =>
    have : ns[i]? = none := by simp; omega
    rw [this]
    by_cases e : i = ns.length
    · subst e; simp [eq_comm]
    · have : [x][i - ns.length]? = none := by simp; omega
      simp [this, e]

theorem offAt_push {ns : Nodes} {a : Nat} {x : Node} (ha : a ≤ ns.length) (hx : x.off = 0) : offAt (ns ++ [x]) a = offAt ns a := by
  unfold offAt
  rcases Nat.lt_or_eq_of_le ha with h | h
  · rw [List.getElem?_append_left h]
  · subst h
    simp [hx]

theorem LInv.send {ns tail sd a j m} (h : LInv ns tail sd a) (hj : ∀ q n, sd j ≠ .link q n) {sd' : Nat → SPc}
    (hs : ∀ k q n, sd' k = .link q n ↔ if k = j then q = tail ∧ n = ns.length else sd k = .link q n) :
    LInv (ns ++ [⟨j, m, 0, none, true⟩]) (some ns.length) sd' a where
  le := by have := h.le; simp; omega
  live := fun i x hx => by
    have := h.le
    rcases get_push.1 hx with hx | ⟨rfl, rfl⟩
    · exact h.live i x hx
    · simp; omega
  off := fun i x hx => by
    rcases get_push.1 hx with hx | ⟨rfl, rfl⟩
    · exact h.off i x hx
    · simp
  next := fun i x k hx hk => by
    rcases get_push.1 hx with hx | ⟨rfl, rfl⟩
    · have := h.next i x k hx hk
      simp; omega
    · cases hk
  miss := fun i x hx h2 h3 h4 => by
    rcases get_push.1 hx with hx | ⟨rfl, rfl⟩
    · have hlt := lt_of_get hx
      by_cases e : i + 1 < ns.length
      · obtain ⟨k, hk⟩ := h.miss i x hx h2 h3 e
        refine ⟨k, (hs _ _ _).2 ?_⟩
        rw [if_neg]
        · exact hk
        · rintro rfl; exact hj _ _ hk
      · refine ⟨j, (hs _ _ _).2 ?_⟩
        rw [if_pos rfl, h.tail, if_pos (by omega)]
        exact ⟨by congr 1; omega, by omega⟩
    · simp at h4
  linkS := fun k q n hk => by
    have hk := (hs _ _ _).1 hk
    split at hk
    · next e =>
      obtain ⟨h1, rfl⟩ := hk
      rw [h.tail] at h1
      split at h1
      · next e2 =>
        injection h1 with h1
        subst h1
        have hg : ns[ns.length - 1]? = some (ns[ns.length - 1]'(by omega)) := List.getElem?_eq_getElem _
        refine ⟨by omega, by simp, by omega, _, get_push.2 (.inl hg), ?_⟩
        cases hnx : (ns[ns.length - 1]'(by omega)).next with
        | none => rfl
        | some y =>
          have := h.next _ _ y hg hnx
          omega
      · cases h1
    · obtain ⟨h1, h2, h3, x, hx, hxn⟩ := h.linkS k q n hk
      exact ⟨h1, by simp; omega, h3, x, get_push.2 (.inl hx), hxn⟩
  linkN := fun k n hk => by
    have hk := (hs _ _ _).1 hk
    split at hk
    · obtain ⟨h1, rfl⟩ := hk
      rw [h.tail] at h1
      have hle := h.le
      split at h1
      · cases h1
      · have : a = ns.length := by omega
        subst this
        exact ⟨rfl, by simp, by simp [offAt]⟩
    · obtain ⟨h1, h2, h3⟩ := h.linkN k n hk
      refine ⟨h1, by simp; omega, ?_⟩
      rw [offAt_push h.le rfl]; exact h3
  uniq := fun k l q n r hk hl => by
    have hk := (hs _ _ _).1 hk
    have hl := (hs _ _ _).1 hl
    have key : ∀ t x y, sd t = .link (some x) y → some x ≠ tail := by
      intro t x y ht e
      obtain ⟨h1, h2, h3, _⟩ := h.linkS t x y ht
      rw [h.tail, if_pos (by omega)] at e
      injection e with e
      omega
    split at hk <;> split at hl
    · next e1 e2 => rw [e1, e2]
    · exact absurd hk.1 (key _ _ _ hl)
    · exact absurd hl.1 (key _ _ _ hk)
    · exact h.uniq k l q n r hk hl
  tail := by
    have := h.le
    rw [if_pos (by simp; omega)]; simp

/-! ## The data of the nodes -/

theorem data_zero (s : State) : ∀ (k a : Nat),
    (∀ i, a ≤ i → i < a + k → ∃ nd, s.nodes[i]? = some nd ∧ nd.live = true ∧ nd.off = 0) →
    s.data (List.range' a k) = some (((msgs s.nodes).drop a).take k).flatten
  | 0, a, _ => by simp [State.data]
  | k + 1, a, h => by
    obtain ⟨nd, h1, h2, h3⟩ := h a (by omega) (by omega)
    have ih := data_zero s k (a + 1) (fun i h4 h5 => h i (by omega) (by omega))
    rw [List.range'_succ, State.data, h1]
    simp only [h2, if_true, ih, Option.map_some, h3, List.drop_zero]
    have hm := msgs_get h1
    obtain ⟨hk, hm'⟩ := List.getElem?_eq_some_iff.1 hm
    rw [← List.getElem_cons_drop hk, hm', List.take_succ_cons, List.flatten_cons]

theorem data_range {s : State} {a k : Nat} {tail sd} (h : LInv s.nodes tail sd a) (hk : 0 < k) (hn : a + k ≤ s.nodes.length) :
    ∃ d, s.data (List.range' a k) = some d ∧
      (msgs s.nodes).flatten.take (P (msgs s.nodes) a + offAt s.nodes a) ++ d = (msgs s.nodes).flatten.take (P (msgs s.nodes) (a + k)) ∧
      d.length = P (msgs s.nodes) (a + k) - (P (msgs s.nodes) a + offAt s.nodes a) := by
  obtain ⟨k, rfl⟩ : ∃ k', k = k' + 1 := ⟨k - 1, by omega⟩
  have hg : s.nodes[a]? = some (s.nodes[a]'(by omega)) := List.getElem?_eq_getElem _
  generalize (s.nodes[a]'(by omega)) = nd at hg
  have ho : offAt s.nodes a = nd.off := by simp [offAt, hg]
  have h1 := data_zero s k (a + 1) (fun i h4 h5 => by
    have hi : s.nodes[i]? = some (s.nodes[i]'(by omega)) := List.getElem?_eq_getElem _
    exact ⟨_, hi, (h.live _ _ hi).2 (by omega), (h.off _ _ hi).2 (by omega)⟩)
  have hm := msgs_get hg
  have hoff := (h.off _ _ hg).1
  have e : (msgs s.nodes).flatten.take (P (msgs s.nodes) a + offAt s.nodes a) ++
      (nd.msg.drop nd.off ++ (((msgs s.nodes).drop (a + 1)).take k).flatten) =
      (msgs s.nodes).flatten.take (P (msgs s.nodes) (a + (k + 1))) := by
    rw [ho, take_P_add hm hoff, take_P, List.append_assoc, ← List.append_assoc (List.take _ _), List.take_append_drop]
    have : a + (k + 1) = a + 1 + k := by omega
    rw [this, List.take_add, List.take_add_one, hm]
    simp
  refine ⟨_, ?_, e, ?_⟩
  · rw [List.range'_succ, State.data, hg]
    simp only [(h.live _ _ hg).2 (Nat.le_refl _), if_true, h1, Option.map_some]
  · have := congrArg List.length e
    rw [List.length_append, List.length_take, List.length_take] at this
    have l1 := P_le (ms := msgs s.nodes) (a + (k + 1))
    have l2 := P_succ hm
    have l3 := @P_mono (msgs s.nodes) (a + 1) (a + (k + 1)) (by omega)
    omega

/-! ## The events -/

structure EInv (s : State) (e : Bool) : Prop where
  bal : s.enabled = true → s.restartCount + s.tasks.count .restart = e.toNat + s.tasks.count .suppress + (decide (s.fiber = .suppress)).toNat
  one : (decide (s.fiber ≠ .none)).toNat + s.tasks.count .suppress + s.tasks.count .reset ≤ 1
  zero : s.writeEvents = 0 ↔ s.fiber = .none ∧ s.tasks.count .suppress = 0 ∧ s.tasks.count .reset = 0
  pos : s.enabled = true → 0 < s.writeEvents → 0 < s.restartCount
  arm : s.armed = true ↔ s.enabled = true ∧ 0 < s.restartCount
  kil : s.killed = true ↔ .kill ∈ s.tasks ∨ s.enabled = false
  kil1 : s.tasks.count .kill + (!s.enabled).toNat ≤ 1
  leav : s.fiber = .leaving ∨ .reset ∈ s.tasks → s.killed = true
  ord : s.enabled = true → ∀ pre post, s.tasks = pre ++ .reset :: post → .kill ∈ pre

theorem ord_push {l : List Task} {t : Task} (h : ∀ pre post, l = pre ++ .reset :: post → .kill ∈ pre)
    (ht : t = .reset → .kill ∈ l) : ∀ pre post, l ++ [t] = pre ++ .reset :: post → .kill ∈ pre := by
  intro pre post e
  rcases List.eq_nil_or_concat post with rfl | ⟨q, x, rfl⟩
  · have := List.append_inj' e rfl
    obtain ⟨rfl, h2⟩ := this
    injection h2 with h2
    exact ht h2
  · have e' : l ++ [t] = (pre ++ .reset :: q) ++ [x] := by simpa using e
    have := List.append_inj' e' rfl
    exact h pre q this.1

/-- `Kill`. -/
theorem EInv.kill {s e} (h : EInv s e) : EInv s.kill e := by
  unfold State.kill
  split
  · exact h
  · next hk =>
    have hne : .kill ∉ s.tasks := fun hm => hk (h.kil.2 (.inl hm))
    have hen : s.enabled = true := by
      cases he : s.enabled
      · exact absurd (h.kil.2 (.inr he)) hk
      · rfl
    have hc : s.tasks.count .kill = 0 := List.count_eq_zero.2 hne
    refine ⟨fun he => ?_, ?_, ?_, h.pos, h.arm, ?_, ?_, ?_, fun he => ord_push (h.ord he) (by simp)⟩
    · simpa using h.bal he
    · simpa using h.one
    · simpa using h.zero
    · simp
    · simp [hc, hen]
    · simp

/-- `RestartWriteIn` gives the list to the events. -/
theorem EInv.restart {s} (h : EInv s false) {s' : State} (hs : s' = { s with tasks := s.tasks ++ [.restart], senders := s'.senders }) : EInv s' true := by
  rw [hs]
  refine ⟨fun he => ?_, ?_, ?_, h.pos, h.arm, ?_, ?_, ?_, fun he => ord_push (h.ord he) (by simp)⟩
  · have := h.bal he
    simp at this ⊢
    omega
  · simpa using h.one
  · simpa using h.zero
  · simpa using h.kil
  · simpa using h.kil1
  · simpa using h.leav

theorem EInv.senders {s e} (h : EInv s e) {s' : State} (h1 : s'.fiber = s.fiber) (h2 : s'.writeEvents = s.writeEvents)
    (h3 : s'.restartCount = s.restartCount) (h4 : s'.armed = s.armed) (h5 : s'.tasks = s.tasks) (h6 : s'.killed = s.killed)
    (h7 : s'.enabled = s.enabled) : EInv s' e := by
  constructor <;> simp only [h1, h2, h3, h4, h5, h6, h7]
  · exact h.bal
  · exact h.one
  · exact h.zero
  · exact h.pos
  · exact h.arm
  · exact h.kil
  · exact h.kil1
  · exact h.leav
  · exact h.ord

/-- The fiber goes on. -/
theorem EInv.go {s e} (h : EInv s e) (h1 : s.fiber ≠ .none) (h2 : s.fiber ≠ .suppress) {p : EPc} (h4 : p ≠ .none) (h5 : p ≠ .suppress)
    (h6 : p = .leaving → s.killed = true) : EInv { s with fiber := p } e := by
  refine ⟨fun he => ?_, ?_, ?_, h.pos, h.arm, h.kil, h.kil1, ?_, h.ord⟩
  · have := h.bal he
    simp [h2] at this
    simp [h5, this]
  · have := h.one
    simp [h1] at this
    simp [h4, this]
  · have := h.zero
    simp [h1] at this
    simp [h4, this]
  · rintro (h' | h')
    · exact h6 h'
    · exact h.leav (.inr h')

/-- Everything is written. -/
theorem EInv.drained {s} (h : EInv s true) (h1 : s.fiber ≠ .none) (h2 : s.fiber ≠ .suppress) : EInv { s with fiber := .suppress } false := by
  refine ⟨fun he => ?_, ?_, ?_, h.pos, h.arm, h.kil, h.kil1, ?_, h.ord⟩
  · have := h.bal he
    simp [h2] at this
    simp [this]
    omega
  · have := h.one
    simp [h1] at this
    simp [this]
  · have := h.zero
    simp [h1] at this
    simp [this]
  · rintro (h' | h')
    · cases h'
    · exact h.leav (.inr h')

theorem EInv.handleWrite {s e} (h : EInv s e) (ha : s.armed = true) :
    ∃ s', s.handleWrite = .ok s' ∧ EInv s' e ∧
      ((s' = { s with writeEvents := s.writeEvents + 1 }) ∨ (s' = { s with writeEvents := 1, fiber := .enter } ∧ e = true ∧ s.fiber = .none)) := by
  obtain ⟨hen, hc⟩ := h.arm.1 ha
  unfold State.handleWrite
  split
  · next hz =>
    obtain ⟨z1, z2, z3⟩ := h.zero.1 hz
    rw [if_pos z1]
    have he : e = true := by
      have := h.bal hen
      rw [z1, z2] at this
      cases e
      · simp at this; omega
      · rfl
    refine ⟨_, rfl, ⟨fun he => ?_, ?_, ?_, fun _ _ => hc, h.arm, h.kil, h.kil1, ?_, h.ord⟩, .inr ⟨rfl, he, z1⟩⟩
    · have := h.bal he
      rw [z1] at this
      simpa using this
    · simp [z2, z3]
    · simp
    · rintro (h' | h')
      · cases h'
      · exact h.leav (.inr h')
  · next hz =>
    refine ⟨_, rfl, ⟨h.bal, h.one, ?_, fun _ _ => hc, h.arm, h.kil, h.kil1, h.leav, h.ord⟩, .inl rfl⟩
    constructor
    · intro h'; simp at h'
    · intro h'; exact absurd (h.zero.2 h') hz

theorem ord_tail {l : List Task} {t : Task} (h : ∀ pre post, t :: l = pre ++ .reset :: post → .kill ∈ pre) (ht : t ≠ .kill) :
    ∀ pre post, l = pre ++ .reset :: post → .kill ∈ pre := by
  intro pre post e
  have := h (t :: pre) post (by rw [e]; rfl)
  rcases List.mem_cons.1 this with h' | h'
  · exact absurd h'.symm ht
  · exact h'

theorem EInv.taskStep {s e} (h : EInv s e) : s.taskStep = .blocked ∨ ∃ s', s.taskStep = .ok s' ∧ EInv s' e ∧
    (s'.nodes = s.nodes ∧ s'.head = s.head ∧ s'.tail = s.tail ∧ s'.senders = s.senders ∧ s'.wire = s.wire ∧ s'.done = s.done ∧ s'.killed = s.killed) ∧
    (s'.fiber = s.fiber ∨ (s'.fiber = .enter ∧ e = true ∧ s.fiber = .none)) := by
  unfold State.taskStep
  cases ht : s.tasks with
  | nil => exact .inl rfl
  | cons t ts =>
    refine .inr ?_
    have hbal := h.bal
    have hone := h.one
    have hzero := h.zero
    have hpos := h.pos
    have harm := h.arm
    have hkil := h.kil
    have hkil1 := h.kil1
    have hleav := h.leav
    have hord := h.ord
    rw [ht] at hbal hone hzero hkil hkil1 hleav hord
    cases t with
    | suppress =>
      simp only [List.count_cons_self, List.count_cons_of_ne (by decide : Task.suppress ≠ .restart),
        List.count_cons_of_ne (by decide : Task.suppress ≠ .reset), List.count_cons_of_ne (by decide : Task.suppress ≠ .kill)] at hbal hone hzero hkil1
      have f0 : s.fiber = .none := by
        by_cases hf : s.fiber = .none
        · exact hf
        · simp [hf] at hone; omega
      have c1 : ts.count .suppress = 0 := by omega
      have c2 : ts.count .reset = 0 := by omega
      have wz : 0 < s.writeEvents := by
        rcases Nat.eq_zero_or_pos s.writeEvents with hz | hz
        · have := (hzero.1 hz).2.1; omega
        · exact hz
      have hleav' : s.fiber = .leaving ∨ Task.reset ∈ ts → s.killed = true := fun h' => hleav (h'.imp_right (List.mem_cons_of_mem _))
      have hkil' : s.killed = true ↔ Task.kill ∈ ts ∨ s.enabled = false := by simpa using hkil
      dsimp only
      by_cases hen : s.enabled = true
      · have hcp := hpos hen wz
        have hb := hbal hen
        rw [f0, c1] at hb
        have ele : e.toNat ≤ 1 := by cases e <;> simp
        simp only [reduceCtorEq, decide_false, Bool.toNat_false, Nat.add_zero] at hb
        have harm1 : s.armed = true := harm.2 ⟨hen, hcp⟩
        rw [if_pos hen, if_neg (by omega), if_neg (by simp [harm1])]
        by_cases hc : s.restartCount - 1 = 0
        · rw [if_pos hc]
          refine ⟨_, rfl, ⟨fun _ => ?_, ?_, ?_, fun _ h' => ?_, ?_, hkil', hkil1, hleav', fun he => ord_tail (hord he) (by decide)⟩, ⟨rfl, rfl, rfl, rfl, rfl, rfl, rfl⟩, .inl rfl⟩
          · simp [f0, c1]; omega
          · simp [f0, c1, c2]
          · simp [f0, c1, c2]
          · simp at h'
          · simp; omega
        · rw [if_neg hc]
          have h1 : EInv { s with tasks := ts, writeEvents := 0, restartCount := s.restartCount - 1 } e := by
            refine ⟨fun _ => ?_, ?_, ?_, fun _ h' => ?_, ?_, hkil', hkil1, hleav', fun he => ord_tail (hord he) (by decide)⟩
            · simp [f0, c1]; omega
            · simp [f0, c1, c2]
            · simp [f0, c1, c2]
            · simp at h'
            · simp [harm1, hen]; omega
          obtain ⟨s', k1, k2, k3⟩ := h1.handleWrite harm1
          refine ⟨s', k1, k2, ?_, ?_⟩
          · rcases k3 with rfl | ⟨rfl, _⟩ <;> exact ⟨rfl, rfl, rfl, rfl, rfl, rfl, rfl⟩
          · rcases k3 with rfl | ⟨rfl, he, _⟩
            · exact .inl rfl
            · exact .inr ⟨rfl, he, f0⟩
      · rw [if_neg hen]
        refine ⟨_, rfl, ⟨fun he => absurd he hen, ?_, ?_, fun he => absurd he hen, harm, hkil', hkil1, hleav', fun he => absurd he hen⟩, ⟨rfl, rfl, rfl, rfl, rfl, rfl, rfl⟩, .inl rfl⟩
        · simp [f0, c1, c2]
        · simp [f0, c1, c2]
    | restart =>
      simp only [List.count_cons_self, List.count_cons_of_ne (by decide : Task.restart ≠ .suppress),
        List.count_cons_of_ne (by decide : Task.restart ≠ .reset), List.count_cons_of_ne (by decide : Task.restart ≠ .kill)] at hbal hone hzero hkil1
      have hleav' : s.fiber = .leaving ∨ Task.reset ∈ ts → s.killed = true := fun h' => hleav (h'.imp_right (List.mem_cons_of_mem _))
      have hkil' : s.killed = true ↔ Task.kill ∈ ts ∨ s.enabled = false := by simpa using hkil
      dsimp only
      by_cases hen : s.enabled = true
      · have hb := hbal hen
        have ele : e.toNat ≤ 1 := by cases e <;> simp
        have ple : (decide (s.fiber = .suppress)).toNat ≤ (decide (s.fiber ≠ .none)).toNat := by
          by_cases hf : s.fiber = .suppress <;> simp [hf]
        rw [if_pos hen, if_neg (by omega)]
        by_cases hc : s.restartCount = 0
        · have harm0 : s.armed ≠ true := fun h' => by have := (harm.1 h').2; omega
          rw [if_pos hc, if_neg harm0]
          refine ⟨_, rfl, ⟨fun _ => ?_, hone, hzero, fun _ h' => ?_, ?_, hkil', hkil1, hleav', fun he => ord_tail (hord he) (by decide)⟩, ⟨rfl, rfl, rfl, rfl, rfl, rfl, rfl⟩, .inl rfl⟩
          · dsimp only; omega
          · simp
          · simp [hen]
        · rw [if_neg hc]
          refine ⟨_, rfl, ⟨fun _ => ?_, hone, hzero, fun _ h' => ?_, ?_, hkil', hkil1, hleav', fun he => ord_tail (hord he) (by decide)⟩, ⟨rfl, rfl, rfl, rfl, rfl, rfl, rfl⟩, .inl rfl⟩
          · dsimp only; omega
          · simp
          · have := harm.2 ⟨hen, by omega⟩
            simp [hen, this]
      · rw [if_neg hen]
        exact ⟨_, rfl, ⟨fun he => absurd he hen, hone, hzero, hpos, harm, hkil', hkil1, hleav', fun he => absurd he hen⟩, ⟨rfl, rfl, rfl, rfl, rfl, rfl, rfl⟩, .inl rfl⟩
    | kill =>
      simp only [List.count_cons_self, List.count_cons_of_ne (by decide : Task.kill ≠ .suppress),
        List.count_cons_of_ne (by decide : Task.kill ≠ .reset), List.count_cons_of_ne (by decide : Task.kill ≠ .restart)] at hbal hone hzero hkil1
      have hen : s.enabled = true := by
        cases hh : s.enabled
        · simp [hh] at hkil1
        · rfl
      dsimp only
      rw [if_pos hen]
      refine ⟨_, rfl, ⟨fun he => (by cases he), hone, hzero, fun he => (by cases he), ?_, ?_, ?_, ?_, fun he => (by cases he)⟩, ⟨rfl, rfl, rfl, rfl, rfl, rfl, rfl⟩, .inl rfl⟩
      · simp
      · simp; exact hkil.2 (.inl List.mem_cons_self)
      · simp [hen] at hkil1 ⊢; exact hkil1
      · exact fun _ => hkil.2 (.inl List.mem_cons_self)
    | reset =>
      simp only [List.count_cons_self, List.count_cons_of_ne (by decide : Task.reset ≠ .suppress),
        List.count_cons_of_ne (by decide : Task.reset ≠ .kill), List.count_cons_of_ne (by decide : Task.reset ≠ .restart)] at hbal hone hzero hkil1
      have f0 : s.fiber = .none := by
        by_cases hf : s.fiber = .none
        · exact hf
        · simp [hf] at hone; omega
      have hen : ¬ s.enabled = true := by
        intro he
        have := hord he [] ts rfl
        cases this
      have hkil' : s.killed = true ↔ Task.kill ∈ ts ∨ s.enabled = false := by simpa using hkil
      refine ⟨_, rfl, ⟨fun he => absurd he hen, ?_, ?_, fun he => absurd he hen, harm, hkil', hkil1, ?_, fun he => absurd he hen⟩, ⟨rfl, rfl, rfl, rfl, rfl, rfl, rfl⟩, .inl rfl⟩
      · dsimp only; omega
      · simp [f0]; omega
      · exact fun _ => hleav (.inr List.mem_cons_self)

/-- The fiber outside of `FlushTo`. -/
theorem EInv.fiberStep {s e} (h : EInv s e) : s.fiberStep = .blocked ∨ ∃ s', s.fiberStep = .ok s' ∧ EInv s' e ∧
    (∃ we p ts, s' = { s with writeEvents := we, fiber := p, tasks := ts }) ∧ (∀ f, s.fiber ≠ .flush f) ∧
    (s'.fiber = .none ∨ ((s.fiber = .enter ∨ s.fiber = .ready) ∧ s'.fiber ≠ .suppress ∧ ∀ f, s'.fiber = .flush f → f = .start)) := by
  unfold State.fiberStep
  cases hf : s.fiber with
  | none => exact .inl rfl
  | flush f => exact .inl rfl
  | enter =>
    refine .inr ?_
    dsimp only
    by_cases hen : s.enabled = true
    · rw [if_pos hen]
      exact ⟨_, rfl, h.go (by simp [hf]) (by simp [hf]) (by simp) (by simp) (by simp), ⟨s.writeEvents, _, s.tasks, rfl⟩, by simp, by simp⟩
    · rw [if_neg hen]
      refine ⟨_, rfl, h.go (by simp [hf]) (by simp [hf]) (by simp) (by simp) ?_, ⟨s.writeEvents, _, s.tasks, rfl⟩, by simp, by simp⟩
      intro _
      exact h.kil.2 (.inr (by simpa using hen))
  | ready =>
    refine .inr ?_
    dsimp only
    have hz := h.zero
    have ho := h.one
    rw [hf] at hz ho
    simp at hz ho
    have c1 : s.tasks.count .suppress = 0 := by omega
    have c2 : s.tasks.count .reset = 0 := by omega
    by_cases h1 : s.writeEvents = 1
    · rw [if_pos h1]
      refine ⟨_, rfl, ⟨fun he => ?_, ?_, ?_, fun _ h' => by simp at h', h.arm, h.kil, h.kil1, ?_, h.ord⟩, ⟨_, _, s.tasks, rfl⟩, by simp, by simp⟩
      · have := h.bal he
        rw [hf] at this
        simpa using this
      · simp [c1, c2]
      · simp [c1, c2]
      · rintro (h' | h')
        · cases h'
        · exact h.leav (.inr h')
    · rw [if_neg h1, if_neg hz]
      refine ⟨_, rfl, ⟨fun he => ?_, ?_, ?_, fun he h' => h.pos he (by omega), h.arm, h.kil, h.kil1, ?_, h.ord⟩, ⟨_, _, s.tasks, rfl⟩, by simp, by simp⟩
      · have := h.bal he
        rw [hf] at this
        simpa using this
      · simp [c1, c2]
      · simp; omega
      · rintro (h' | h')
        · cases h'
        · exact h.leav (.inr h')
  | suppress =>
    refine .inr ?_
    have hz := h.zero
    have ho := h.one
    rw [hf] at hz ho
    simp at hz ho
    have c1 : s.tasks.count .suppress = 0 := by omega
    have c2 : s.tasks.count .reset = 0 := by omega
    refine ⟨_, rfl, ⟨fun he => ?_, ?_, ?_, h.pos, h.arm, ?_, ?_, ?_, fun he => ord_push (h.ord he) (by simp)⟩, ⟨s.writeEvents, _, _, rfl⟩, by simp, by simp⟩
    · have := h.bal he
      rw [hf] at this
      simp [c1] at this ⊢
      omega
    · simp [c1, c2]
    · simp [c1, c2]; exact hz
    · simpa using h.kil
    · simpa using h.kil1
    · rintro (h' | h')
      · cases h'
      · exact h.leav (.inr (by simpa using h'))
  | leaving =>
    refine .inr ?_
    have hz := h.zero
    have ho := h.one
    rw [hf] at hz ho
    simp at hz ho
    have c1 : s.tasks.count .suppress = 0 := by omega
    have c2 : s.tasks.count .reset = 0 := by omega
    have hk := h.leav (.inl hf)
    dsimp only
    rw [if_pos hk]
    refine ⟨_, rfl, ⟨fun he => ?_, ?_, ?_, h.pos, h.arm, ?_, ?_, fun _ => hk, fun he => ord_push (h.ord he) (fun _ => ?_)⟩, ⟨s.writeEvents, _, _, rfl⟩, by simp, by simp⟩
    · have := h.bal he
      rw [hf] at this
      simpa using this
    · simp [c1, c2]
    · simp [c1, c2]; exact hz
    · simpa using h.kil
    · simpa using h.kil1
    · rcases h.kil.1 hk with h' | h'
      · exact h'
      · simp [h'] at he

/-! ## The invariant -/

def SPc.holds : SPc → Prop
  | .link none _ => True
  | .flush _ => True
  | .restart => True
  | _ => False

def EPc.holds : EPc → Prop
  | .none => False
  | .suppress => False
  | _ => True

def linked (ns : Nodes) (a b : Nat) : Prop := ∀ i nd, a ≤ i → i < b → ns[i]? = some nd → nd.next ≠ none

def FInv (ns : Nodes) (head : Option Nat) (a : Nat) : FPc → Prop
  | .start => head = some a
  | .walk vis cur => head = some a ∧ a ≤ cur ∧ cur < ns.length ∧ vis = List.range' a (cur - a) ∧ linked ns a cur
  | .write vis => head = some a ∧ ∃ k, 0 < k ∧ a + k ≤ ns.length ∧ vis = List.range' a k ∧ linked ns a (a + k - 1)
  | .rewind cur fl _ short => cur = a ∧ ∃ L, a ≤ L ∧ L ≤ ns.length ∧ P (msgs ns) a + offAt ns a + fl ≤ P (msgs ns) L ∧
      (short = true → P (msgs ns) a + offAt ns a + fl < P (msgs ns) L) ∧ linked ns a (L - 1)
  | .cas cur _ short => cur = a ∧ short = false
  | .spin cur _ short => cur = a ∧ short = false ∧ a + 1 < ns.length
  | .setHead nx _ _ => nx = a
  | .leave nx _ _ => nx = a

def pos (ns : Nodes) (a : Nat) : Option FPc → Nat
  | some (.rewind _ fl _ _) => P (msgs ns) a + offAt ns a + fl
  | some (.cas _ _ _) => P (msgs ns) (a + 1)
  | some (.spin _ _ _) => P (msgs ns) (a + 1)
  | _ => P (msgs ns) a + offAt ns a

def doneN (a : Nat) : Option FPc → Nat
  | some (.cas _ _ _) => a + 1
  | some (.spin _ _ _) => a + 1
  | _ => a

structure Inv (s : State) (a : Nat) (o : Option Who) : Prop where
  l : LInv s.nodes s.tail s.senders a
  e : EInv s (decide (o = some .event))
  own : o = none ↔ a = s.nodes.length
  holdS : ∀ i, (s.senders i).holds → o = some (.sender i)
  lostS : ∀ i, o = some (.sender i) → (s.senders i).holds ∨ s.killed = true
  holdE : s.fiber.holds → o = some .event
  headE : o = some .event → (∀ f, s.fiber ≠ .flush f) → s.head = some a
  headS : ∀ i, o = some (.sender i) → (∀ f, s.senders i ≠ .flush f) → (∀ n, s.senders i ≠ .link none n) → s.head = some a
  f : ∀ w f, s.pc w = some f → FInv s.nodes s.head a f
  wire : s.wire = (msgs s.nodes).flatten.take (pos s.nodes a (o.bind s.pc))
  bound : pos s.nodes a (o.bind s.pc) ≤ (msgs s.nodes).flatten.length
  done : s.done = List.range (doneN a (o.bind s.pc))

theorem pc_sender {s : State} {i f} : s.pc (.sender i) = some f ↔ s.senders i = .flush f := by
  simp only [State.pc]
  split <;> simp_all

theorem pc_event {s : State} {f} : s.pc .event = some f ↔ s.fiber = .flush f := by
  simp only [State.pc]
  split <;> simp_all

theorem Inv.owner {s a o w f} (h : Inv s a o) (hw : s.pc w = some f) : o = some w := by
  cases w with
  | sender i => exact h.holdS i (by rw [pc_sender.1 hw]; trivial)
  | event => exact h.holdE (by rw [pc_event.1 hw]; trivial)

theorem Inv.lt {s a o} (h : Inv s a o) (ho : o ≠ none) : a < s.nodes.length := by
  have := h.l.le
  have h2 : a ≠ s.nodes.length := fun e => ho (h.own.2 e)
  omega

theorem Inv.noLink {s a o w f} (h : Inv s a o) (hw : s.pc w = some f) : ∀ j m, s.senders j ≠ .link none m := by
  intro j m hj
  have h1 := h.holdS j (by rw [hj]; trivial)
  have h2 := h.owner hw
  rw [h1] at h2
  injection h2 with h2
  subst h2
  rw [pc_sender.1 hw] at hj
  cases hj

theorem setSender_self {s : State} {i p} : (s.setSender i p).senders i = p := by simp [State.setSender]
theorem setSender_ne {s : State} {i j p} (h : j ≠ i) : (s.setSender i p).senders j = s.senders j := by simp [State.setSender, h]

/-- A step inside of `FlushTo`. -/
theorem Inv.move {s a o w f} (h : Inv s a o) (hw : s.pc w = some f) {t : State} {a' : Nat} {f' : FPc}
    (ht : t = { s with nodes := t.nodes, head := t.head, tail := t.tail, wire := t.wire, done := t.done })
    (hl : LInv t.nodes t.tail t.senders a') (hlt : a' < t.nodes.length) (hf : FInv t.nodes t.head a' f')
    (hwi : t.wire = (msgs t.nodes).flatten.take (pos t.nodes a' (some f')))
    (hb : pos t.nodes a' (some f') ≤ (msgs t.nodes).flatten.length)
    (hd : t.done = List.range (doneN a' (some f'))) : Inv (t.setPc w f') a' o := by
  have ho := h.owner hw
  subst ho
  have hs : t.senders = s.senders := by rw [ht]
  have hfi : t.fiber = s.fiber := by rw [ht]
  have hk : t.killed = s.killed := by rw [ht]
  have he : EInv t (decide (some w = some Who.event)) := h.e.senders hfi (by rw [ht]) (by rw [ht]) (by rw [ht]) (by rw [ht]) hk (by rw [ht])
  clear ht
  cases w with
  | sender i =>
    have hw' := pc_sender.1 hw
    have key : ∀ g, (t.setSender i (.flush f')).pc (.sender i) = some g ↔ g = f' := by
      intro g; rw [pc_sender, setSender_self]; simp [eq_comm]
    have hq : (some (Who.sender i)).bind (t.setSender i (.flush f')).pc = some f' := (key f').2 rfl
    refine ⟨hl.congr ?_, he.senders rfl rfl rfl rfl rfl rfl rfl, ?_, ?_, ?_, ?_, ?_, ?_, ?_, ?_, ?_, ?_⟩
    · intro j p m
      by_cases e : j = i
      · subst e; simp [State.setPc, setSender_self, hs, hw']
      · simp [State.setPc, setSender_ne e]
    · simp [State.setPc, State.setSender]; omega
    · intro j hj
      by_cases e : j = i
      · rw [e]
      · simp only [State.setPc, setSender_ne e, hs] at hj
        exact h.holdS j hj
    · intro j hj
      injection hj with hj; injection hj with hj; subst hj
      left
      simp [State.setPc, setSender_self, SPc.holds]
    · intro hh
      exact h.holdE (hfi ▸ hh)
    · intro e; cases e
    · intro j hj hf
      injection hj with hj; injection hj with hj; subst hj
      exact absurd (by simp [State.setPc, setSender_self]) (hf f')
    · intro w' g hg
      have hw'' : w' = .sender i := by
        cases w' with
        | sender j =>
          by_cases e : j = i
          · rw [e]
          · rw [pc_sender] at hg
            simp only [State.setPc, setSender_ne e, hs] at hg
            have := h.holdS j (by rw [hg]; trivial)
            injection this with this; exact this.symm
        | event =>
          rw [pc_event] at hg
          have := h.holdE (by
            have : s.fiber = .flush g := by rw [← hfi]; exact hg
            rw [this]; trivial)
          injection this with this; exact this.symm
      subst hw''
      rw [(key g).1 hg]
      exact hf
    · exact hwi.trans (by rw [show (some (Who.sender i)).bind (t.setPc (.sender i) f').pc = some f' from hq]; rfl)
    · rw [show (some (Who.sender i)).bind (t.setPc (.sender i) f').pc = some f' from hq]; exact hb
    · exact hd.trans (by rw [show (some (Who.sender i)).bind (t.setPc (.sender i) f').pc = some f' from hq])
  | event =>
    have hw' := pc_event.1 hw
    have hnS : ∀ i, ¬ (s.senders i).holds := fun i hi => by
      have := h.holdS i hi
      injection this with this; cases this
    refine ⟨hl, he.go (by rw [hfi, hw']; simp) (by rw [hfi, hw']; simp) (by simp) (by simp) (by simp), ?_, ?_, ?_, ?_, ?_, ?_, ?_, hwi, hb, hd⟩
    · simp [State.setPc]; omega
    · intro j hj
      rw [show (t.setPc .event f').senders = s.senders from hs] at hj
      exact h.holdS j hj
    · intro j hj; cases hj
    · intro _; rfl
    · intro _ hh
      exact absurd rfl (hh f')
    · intro j hj; cases hj
    · intro w' g hg
      cases w' with
      | sender j =>
        rw [pc_sender, show (t.setPc .event f').senders = s.senders from hs] at hg
        exact absurd (by rw [hg]; trivial) (hnS j)
      | event =>
        have := pc_event.1 hg
        injection this with this
        subst this
        exact hf

theorem kill_fields (s : State) : s.kill.nodes = s.nodes ∧ s.kill.head = s.head ∧ s.kill.tail = s.tail ∧ s.kill.senders = s.senders ∧
    s.kill.fiber = s.fiber ∧ s.kill.wire = s.wire ∧ s.kill.done = s.done ∧ s.kill.killed = true ∧ s.kill.pc = s.pc := by
  unfold State.kill
  split <;> refine ⟨rfl, rfl, rfl, rfl, rfl, rfl, rfl, ?_, ?_⟩
  · assumption
  · rfl
  · rfl
  · funext w; cases w <;> rfl

theorem Inv.kill {s a o} (h : Inv s a o) : Inv s.kill a o := by
  obtain ⟨h1, h2, h3, h4, h5, h6, h7, h8, h9⟩ := kill_fields s
  refine ⟨?_, h.e.kill, ?_, ?_, ?_, ?_, ?_, ?_, ?_, ?_, ?_, ?_⟩
  · rw [h1, h3, h4]; exact h.l
  · rw [h1]; exact h.own
  · rw [h4]; exact h.holdS
  · exact fun _ _ => .inr h8
  · rw [h5]; exact h.holdE
  · rw [h2, h5]; exact h.headE
  · rw [h2, h4]; exact h.headS
  · rw [h1, h2, h9]; exact h.f
  · rw [h1, h6, h9]; exact h.wire
  · rw [h1, h9]; exact h.bound
  · rw [h7, h9]; exact h.done

def FPc.plain : FPc → Prop
  | .rewind _ _ _ _ => False
  | .cas _ _ _ => False
  | .spin _ _ _ => False
  | _ => True

theorem pos_plain {ns a} {f : FPc} (h : f.plain) : pos ns a (some f) = P (msgs ns) a + offAt ns a := by
  cases f <;> first | rfl | cases h

theorem doneN_plain {a} {f : FPc} (h : f.plain) : doneN a (some f) = a := by
  cases f <;> first | rfl | cases h

/-- A sender leaves `FlushTo` and still has the list, or gives up. -/
theorem Inv.exitS {s a o i f} (h : Inv s a o) (hw : s.pc (.sender i) = some f) (hp : f.plain) (hh : s.head = some a) {p : SPc}
    (hpp : p = .restart ∨ (p = .idle ∧ s.killed = true)) : Inv (s.setSender i p) a o := by
  have ho := h.owner hw
  subst ho
  have hw' := pc_sender.1 hw
  have hnl : ∀ q m, p ≠ .link q m := by rcases hpp with rfl | ⟨rfl, _⟩ <;> simp
  have hnf : ∀ g, p ≠ .flush g := by rcases hpp with rfl | ⟨rfl, _⟩ <;> simp
  have hpc : (some (Who.sender i)).bind (s.setSender i p).pc = none := by
    show (s.setSender i p).pc (.sender i) = none
    cases hx : (s.setSender i p).pc (.sender i) with
    | none => rfl
    | some g => rw [pc_sender, setSender_self] at hx; exact absurd hx (hnf g)
  have hpc0 : (some (Who.sender i)).bind s.pc = some f := hw
  refine ⟨h.l.congr ?_, h.e.senders rfl rfl rfl rfl rfl rfl rfl, h.own, ?_, ?_, h.holdE, (fun e => by cases e), fun _ _ _ _ => hh, ?_, ?_, ?_, ?_⟩
  · intro j q m
    by_cases e : j = i
    · subst e; simp [setSender_self, hw', hnl]
    · rw [setSender_ne e]
  · intro j hj
    by_cases e : j = i
    · rw [e]
    · rw [setSender_ne e] at hj
      exact h.holdS j hj
  · intro j hj
    injection hj with hj; injection hj with hj; subst hj
    rw [setSender_self]
    rcases hpp with rfl | ⟨rfl, hk⟩
    · left; trivial
    · right; exact hk
  · intro w g hg
    cases w with
    | sender j =>
      rw [pc_sender] at hg
      by_cases e : j = i
      · subst e; rw [setSender_self] at hg; exact absurd hg (hnf g)
      · rw [setSender_ne e] at hg
        exact h.f (.sender j) g (pc_sender.2 hg)
    | event => exact h.f .event g hg
  · have := h.wire
    rw [hpc0, pos_plain hp] at this
    rw [hpc]; exact this
  · have := h.bound
    rw [hpc0, pos_plain hp] at this
    rw [hpc]; exact this
  · have := h.done
    rw [hpc0, doneN_plain hp] at this
    rw [hpc]; exact this

/-- The fiber leaves `FlushTo` and still has the list, or gives up. -/
theorem Inv.exitE {s a o f} (h : Inv s a o) (hw : s.pc .event = some f) (hp : f.plain) (hh : s.head = some a) {p : EPc}
    (hpp : p = .ready ∨ (p = .leaving ∧ s.killed = true)) : Inv { s with fiber := p } a o := by
  have ho := h.owner hw
  subst ho
  have hw' := pc_event.1 hw
  have hnf : ∀ g, p ≠ .flush g := by rcases hpp with rfl | ⟨rfl, _⟩ <;> simp
  have hpc : (some Who.event).bind ({ s with fiber := p } : State).pc = none := by
    show ({ s with fiber := p } : State).pc .event = none
    cases hx : ({ s with fiber := p } : State).pc .event with
    | none => rfl
    | some g => rw [pc_event] at hx; exact absurd hx (hnf g)
  have hpc0 : (some Who.event).bind s.pc = some f := hw
  refine ⟨h.l, h.e.go (by simp [hw']) (by simp [hw']) ?_ ?_ ?_, h.own, h.holdS, h.lostS, fun _ => rfl, fun _ _ => hh, fun _ _ _ _ => hh, ?_, ?_, ?_, ?_⟩
  · rcases hpp with rfl | ⟨rfl, _⟩ <;> simp
  · rcases hpp with rfl | ⟨rfl, _⟩ <;> simp
  · rcases hpp with rfl | ⟨rfl, hk⟩
    · simp
    · exact fun _ => hk
  · intro w g hg
    cases w with
    | sender j => exact h.f (.sender j) g hg
    | event => rw [pc_event] at hg; exact absurd hg (hnf g)
  · have := h.wire
    rw [hpc0, pos_plain hp] at this
    rw [hpc]; exact this
  · have := h.bound
    rw [hpc0, pos_plain hp] at this
    rw [hpc]; exact this
  · have := h.done
    rw [hpc0, doneN_plain hp] at this
    rw [hpc]; exact this

theorem Inv.give_up {s a o w f} (h : Inv s a o) (hw : s.pc w = some f) (hp : f.plain) (hh : s.head = some a) : Inv (s.give_up w) a o := by
  obtain ⟨h1, h2, h3, h4, h5, h6, h7, h8, h9⟩ := kill_fields s
  cases w with
  | sender i => exact h.kill.exitS (by rw [h9]; exact hw) hp (by rw [h2]; exact hh) (.inr ⟨rfl, h8⟩)
  | event => exact h.kill.exitE (by rw [h9]; exact hw) hp (by rw [h2]; exact hh) (.inr ⟨rfl, h8⟩)

theorem Inv.restart {s a o w f} (h : Inv s a o) (hw : s.pc w = some f) (hp : f.plain) (hh : s.head = some a) : Inv (s.setPc w .start) a o := by
  have ho := h.owner hw
  have hb := h.bound
  have hwi := h.wire
  have hd := h.done
  subst ho
  rw [show (some w).bind s.pc = some f from hw, pos_plain hp] at hb hwi
  rw [show (some w).bind s.pc = some f from hw, doneN_plain hp] at hd
  exact h.move hw (t := s) rfl h.l (h.lt (by simp)) hh hwi hb hd

theorem Inv.flushed {s a o w f} (h : Inv s a o) (hw : s.pc w = some f) (hp : f.plain) (hh : s.head = some a) (wrote short stop : Bool) :
    ∃ s', s.flushed w false wrote short stop = .ok s' ∧ Inv s' a o := by
  unfold State.flushed
  split
  · exact ⟨_, rfl, h.give_up hw hp hh⟩
  · rw [if_neg (by simp)]
    cases w with
    | sender i =>
      dsimp only
      rw [if_neg (by simp)]
      split
      · exact ⟨_, rfl, h.exitS hw hp hh (.inl rfl)⟩
      · exact ⟨_, rfl, h.restart hw hp hh⟩
    | event =>
      dsimp only
      rw [if_neg (by simp)]
      split
      · exact ⟨_, rfl, h.exitE hw hp hh (.inl rfl)⟩
      · exact ⟨_, rfl, h.restart hw hp hh⟩

/-- Everything is written: the list is empty and nobody has it. -/
theorem Inv.emptied {s a o w wrote} (h : Inv s a o) (hw : s.pc w = some (.cas a wrote false)) (ht : s.tail = some a) (stop : Bool) :
    ∃ s', (({ s with tail := none } : State).free a).flushed w true wrote false stop = .ok s' ∧ Inv s' (a + 1) none := by
  have ho := h.owner hw
  have hlt := h.lt (by rw [ho]; simp)
  have hg : s.nodes[a]? = some (s.nodes[a]'hlt) := List.getElem?_eq_getElem _
  have hl := h.l
  rw [ht] at hl
  obtain ⟨hn, hl'⟩ := hl.drain hg (h.noLink hw)
  have hwi := h.wire
  have hb := h.bound
  have hd := h.done
  subst ho
  rw [show (some w).bind s.pc = some (.cas a wrote false) from hw] at hwi hb hd
  have hms : msgs (s.nodes.modify a fun nd => { nd with live := false }) = msgs s.nodes := msgs_modify (fun _ => rfl)
  have hoff : offAt (s.nodes.modify a fun nd => { nd with live := false }) (a + 1) = 0 := by
    simp [offAt, show s.nodes[a + 1]? = none by simp; omega]
  unfold State.flushed
  rw [if_neg (by simp), if_neg (by simp)]
  cases w with
  | sender i =>
    have hw' := pc_sender.1 hw
    dsimp only
    rw [if_pos rfl]
    have hq : ∀ j, ¬ ((((({ s with tail := none } : State).free a).setSender i .idle).senders j).holds) := by
      intro j hj
      by_cases e : j = i
      · subst e; rw [setSender_self] at hj; exact hj
      · rw [setSender_ne e] at hj
        have := h.holdS j hj
        injection this with this; injection this with this
        exact e this.symm
    refine ⟨_, rfl, LInv.congr hl' ?_, ?_, ?_, ?_, ?_, ?_, ?_, ?_, ?_, ?_, ?_, ?_⟩
    · intro j p m
      by_cases e : j = i
      · subst e; simp [setSender_self, hw']
      · rw [setSender_ne e]; rfl
    · exact (show EInv s false from h.e).senders rfl rfl rfl rfl rfl rfl rfl
    · simp [State.setSender, State.free, hn]
    · exact fun j hj => absurd hj (hq j)
    · intro j e; cases e
    · intro hh
      have := h.holdE hh
      injection this with this; cases this
    · intro e; cases e
    · intro j hj; cases hj
    · intro w g hg
      cases w with
      | sender j =>
        rw [pc_sender] at hg
        exact absurd (by rw [hg]; trivial) (hq j)
      | event =>
        have hg' : s.fiber = .flush g := pc_event.1 hg
        have := h.holdE (by rw [hg']; trivial)
        injection this with this; cases this
    · show s.wire = _
      simp only [Option.bind_none, pos, State.setSender, State.free]
      rw [hms, hoff]
      exact hwi
    · simp only [Option.bind_none, pos, State.setSender, State.free]
      rw [hms, hoff]
      exact hb
    · exact hd
  | event =>
    have hw' := pc_event.1 hw
    have hnS : ∀ i, ¬ (s.senders i).holds := fun i hi => by
      have := h.holdS i hi
      injection this with this; cases this
    dsimp only
    rw [if_pos rfl]
    have he1 : EInv (({ s with tail := none } : State).free a) true := (show EInv s true from h.e).senders rfl rfl rfl rfl rfl rfl rfl
    have hf1 : (({ s with tail := none } : State).free a).fiber = s.fiber := rfl
    refine ⟨_, rfl, hl', he1.drained (by rw [hf1, hw']; simp) (by rw [hf1, hw']; simp), ?_, ?_, ?_, ?_, ?_, ?_, ?_, ?_, ?_, ?_⟩
    · simp [State.free, hn]
    · exact fun j hj => absurd hj (hnS j)
    · intro j e; cases e
    · intro hh; cases hh
    · intro e; cases e
    · intro j hj; cases hj
    · intro w g hg
      cases w with
      | sender j =>
        rw [pc_sender] at hg
        exact absurd (by rw [show s.senders j = _ from hg]; trivial) (hnS j)
      | event => cases pc_event.1 hg
    · show s.wire = _
      simp only [Option.bind_none, pos, State.free]
      rw [hms, hoff]
      exact hwi
    · simp only [Option.bind_none, pos, State.free]
      rw [hms, hoff]
      exact hb
    · exact hd

theorem Inv.setHead {s a o w f} (h : Inv s a o) (hw : s.pc w = some f) (hf : FInv s.nodes (some a) a f) :
    Inv { s with head := some a } a o := by
  refine ⟨h.l, h.e.senders rfl rfl rfl rfl rfl rfl rfl, h.own, h.holdS, h.lostS, h.holdE, fun _ _ => rfl, fun _ _ _ _ => rfl, ?_, ?_, ?_, ?_⟩
  · intro w' g hg
    have hg' : s.pc w' = some g := by cases w' <;> exact hg
    have e1 := h.owner hw
    have e2 := h.owner hg'
    rw [e1] at e2
    injection e2 with e2
    subst e2
    rw [hw] at hg'
    injection hg' with hg'
    subst hg'
    exact hf
  all_goals
    have e : ({ s with head := some a } : State).pc = s.pc := by funext w; cases w <;> rfl
    rw [e]
  · exact h.wire
  · exact h.bound
  · exact h.done

theorem node_of {s : State} {tail sd a i} (h : LInv s.nodes tail sd a) (h1 : a ≤ i) (h2 : i < s.nodes.length) :
    ∃ nd, s.nodes[i]? = some nd ∧ s.node? i = some nd := by
  have hg : s.nodes[i]? = some (s.nodes[i]'h2) := List.getElem?_eq_getElem _
  refine ⟨_, hg, ?_⟩
  unfold State.node?
  rw [hg]
  simp [(h.live _ _ hg).2 h1]

theorem linked_modify {ns : Nodes} {a b i : Nat} {f : Node → Node} (hf : ∀ nd, (f nd).next = nd.next) (h : linked ns a b) :
    linked (ns.modify i f) a b := by
  intro j nd h1 h2 h3
  obtain ⟨x, hx, rfl⟩ := get_modify.1 h3
  have := h j x h1 h2 hx
  split
  · rw [hf]; exact this
  · exact this

/-- A step of `FlushTo` does not fail and keeps the invariant. -/
theorem Inv.flushStep {s a o w f} (h : Inv s a o) (hw : s.pc w = some f) (stop : Bool) (io : Io) :
    s.flushStep w f stop io = .blocked ∨ ∃ s' a' o', s.flushStep w f stop io = .ok s' ∧ Inv s' a' o' := by
  have ho := h.owner hw
  have hlt := h.lt (by rw [ho]; simp)
  have hf := h.f w f hw
  have hwi := h.wire
  have hb := h.bound
  have hd := h.done
  rw [ho, show (some w).bind s.pc = some f from hw] at hwi hb hd
  cases f with
  | start =>
    have hh : s.head = some a := hf
    right
    simp only [State.flushStep, hh]
    rw [if_neg (by rw [h.l.tail, if_pos hlt]; simp)]
    refine ⟨_, a, o, rfl, h.move hw (t := s) rfl h.l hlt ⟨hh, Nat.le_refl _, hlt, by simp, ?_⟩ hwi hb hd⟩
    intro i nd h1 h2
    omega
  | walk vis cur =>
    obtain ⟨hh, h1, h2, h3, h4⟩ := hf
    right
    obtain ⟨nd, hg, hnode⟩ := node_of h.l h1 h2
    have hvis : vis ++ [cur] = List.range' a (cur - a + 1) := by
      rw [h3, List.range'_concat]
      simp; omega
    simp only [State.flushStep, hnode, hvis]
    have hwr : FInv s.nodes s.head a (.write (List.range' a (cur - a + 1))) :=
      ⟨hh, _, by omega, by omega, rfl, by
        intro i x h5 h6; exact h4 i x h5 (by omega)⟩
    cases hnx : nd.next with
    | none =>
      dsimp only
      exact ⟨_, a, o, rfl, h.move hw (t := s) rfl h.l hlt hwr hwi hb hd⟩
    | some nx =>
      dsimp only
      obtain ⟨d, hdat, _⟩ := data_range (k := cur - a + 1) h.l (by omega) (by omega)
      rw [hdat]
      dsimp only
      obtain ⟨n1, n2⟩ := h.l.next _ _ _ hg hnx
      split
      · exact ⟨_, a, o, rfl, h.move hw (t := s) rfl h.l hlt hwr hwi hb hd⟩
      · refine ⟨_, a, o, rfl, h.move hw (t := s) rfl h.l hlt ⟨hh, by omega, by omega, ?_, ?_⟩ hwi hb hd⟩
        · congr 1; omega
        · intro i x h5 h6 h7
          by_cases e : i = cur
          · subst e
            rw [hg] at h7; injection h7 with h7; subst h7
            rw [hnx]; simp
          · exact h4 i x h5 (by omega) h7
  | write vis =>
    obtain ⟨hh, k, h1, h2, h3, h4⟩ := hf
    obtain ⟨d, hdat, hd1, hd2⟩ := data_range h.l h1 h2
    simp only [State.flushStep, h3, hdat]
    cases io with
    | again =>
      right
      cases w with
      | sender i => exact ⟨_, a, o, rfl, h.exitS hw trivial hh (.inl rfl)⟩
      | event => exact ⟨_, a, o, rfl, h.exitE hw trivial hh (.inl rfl)⟩
    | error => exact .inr ⟨_, a, o, rfl, h.give_up hw trivial hh⟩
    | took given n =>
      dsimp only
      split
      · next hc =>
        obtain ⟨c1, c2, c3⟩ := hc
        right
        split
        · exact ⟨_, a, o, rfl, h.give_up hw trivial hh⟩
        · obtain ⟨k', rfl⟩ : ∃ k', k = k' + 1 := ⟨k - 1, by omega⟩
          rw [List.range'_succ, List.head?_cons]
          dsimp only
          have hg : s.nodes[a]? = some (s.nodes[a]'hlt) := List.getElem?_eq_getElem _
          have hof := (h.l.off _ _ hg).1
          have ho' : offAt s.nodes a = (s.nodes[a]'hlt).off := by simp [offAt, hg]
          have hps := P_succ (msgs_get hg)
          have hpm := @P_mono (msgs s.nodes) (a + 1) (a + (k' + 1)) (by omega)
          have hle : P (msgs s.nodes) a + offAt s.nodes a + n ≤ P (msgs s.nodes) (a + (k' + 1)) := by omega
          have hPl := P_le (ms := msgs s.nodes) (a + (k' + 1))
          refine ⟨_, a, o, rfl, h.move hw (t := { s with wire := s.wire ++ d.take n }) rfl h.l hlt ?_ ?_ ?_ hd⟩
          · refine ⟨rfl, a + (k' + 1), by omega, h2, hle, ?_, ?_⟩
            · intro hs
              simp at hs
              show P (msgs s.nodes) a + offAt s.nodes a + n < P (msgs s.nodes) (a + (k' + 1))
              omega
            · exact h4
          · show s.wire ++ d.take n = (msgs s.nodes).flatten.take (P (msgs s.nodes) a + offAt s.nodes a + n)
            have hw2 : s.wire = (msgs s.nodes).flatten.take (P (msgs s.nodes) a + offAt s.nodes a) := hwi
            have hl2 : s.wire.length = P (msgs s.nodes) a + offAt s.nodes a := by
              rw [hw2, List.length_take]
              have : P (msgs s.nodes) a + offAt s.nodes a ≤ (msgs s.nodes).flatten.length := hb
              omega
            rw [← hw2] at hd1
            have : (msgs s.nodes).flatten.take (P (msgs s.nodes) a + offAt s.nodes a + n) =
                ((msgs s.nodes).flatten.take (P (msgs s.nodes) (a + (k' + 1)))).take (P (msgs s.nodes) a + offAt s.nodes a + n) := by
              rw [List.take_take, Nat.min_eq_left hle]
            rw [this, ← hd1, ← hl2, List.take_length_add_append]
          · show P (msgs s.nodes) a + offAt s.nodes a + n ≤ (msgs s.nodes).flatten.length
            omega
      · exact .inl rfl
  | rewind cur fl wrote short =>
    obtain ⟨rfl, L, h1, h2, h3, h4, h5⟩ := hf
    right
    obtain ⟨nd, hg, hnode⟩ := node_of h.l (Nat.le_refl _) hlt
    have hof := (h.l.off _ _ hg).1
    have ho' : offAt s.nodes cur = nd.off := by simp [offAt, hg]
    have hps := P_succ (msgs_get hg)
    have hPl1 := P_le (ms := msgs s.nodes) (cur + 1)
    simp only [State.flushStep, hnode]
    have hb' : P (msgs s.nodes) cur + offAt s.nodes cur + fl ≤ (msgs s.nodes).flatten.length := hb
    have hwi' : s.wire = (msgs s.nodes).flatten.take (P (msgs s.nodes) cur + offAt s.nodes cur + fl) := hwi
    have hd' : s.done = List.range cur := hd
    by_cases hc : nd.msg.length - nd.off ≤ fl
    · rw [if_pos hc]
      cases hnx : nd.next with
      | none =>
        dsimp only
        have hL : L ≤ cur + 1 := by
          rcases Nat.lt_or_ge (cur + 1) L with hlt2 | hge
          · exact absurd hnx (h5 cur nd (Nat.le_refl _) (by omega) hg)
          · exact hge
        have hm := @P_mono (msgs s.nodes) L (cur + 1) hL
        have e0 : fl = nd.msg.length - nd.off := by omega
        rw [if_pos (by omega)]
        have hsh : short = false := by
          cases short with
          | false => rfl
          | true =>
            have := h4 rfl
            omega
        have e1 : P (msgs s.nodes) cur + offAt s.nodes cur + fl = P (msgs s.nodes) (cur + 1) := by omega
        rw [e1] at hwi' hb'
        refine ⟨_, cur, o, rfl, h.move hw (t := { s with done := s.done ++ [cur] }) rfl h.l hlt ⟨rfl, hsh⟩ hwi' hb' ?_⟩
        show s.done ++ [cur] = List.range (cur + 1)
        rw [hd', List.range_succ]
      | some nx =>
        dsimp only
        obtain ⟨n1, n2⟩ := h.l.next _ _ _ hg hnx
        subst n1
        have hl' := h.l.advance hg (by rw [hnx]; simp) (h.noLink hw)
        have hms : msgs (s.nodes.modify cur fun nd => { nd with live := false }) = msgs s.nodes := msgs_modify (fun _ => rfl)
        have hoff : offAt (s.nodes.modify cur fun nd => { nd with live := false }) (cur + 1) = 0 := by
          have hg1 : s.nodes[cur + 1]? = some (s.nodes[cur + 1]'n2) := List.getElem?_eq_getElem _
          have := (h.l.off _ _ hg1).2 (by omega)
          simp only [offAt, List.getElem?_modify, hg1]
          simp [this]
        have e1 : P (msgs s.nodes) cur + offAt s.nodes cur + fl = P (msgs s.nodes) (cur + 1) + 0 + (fl - (nd.msg.length - nd.off)) := by omega
        have hm := @P_mono (msgs s.nodes) L (max L (cur + 1)) (by omega)
        refine ⟨_, cur + 1, o, rfl, h.move hw (t := ({ s with done := s.done ++ [cur] } : State).free cur) rfl hl' (by simpa [State.free] using n2) ?_ ?_ ?_ ?_⟩
        · refine ⟨rfl, max L (cur + 1), by omega, ?_, ?_, ?_, ?_⟩
          · simp only [State.free, List.length_modify]; omega
          · show P (msgs (s.nodes.modify cur _)) (cur + 1) + offAt (s.nodes.modify cur _) (cur + 1) + _ ≤ _
            simp only [State.free]
            rw [hms, hoff]; omega
          · intro hs
            have := h4 hs
            simp only [State.free]
            rw [hms, hoff]; omega
          · simp only [State.free]
            refine linked_modify ?_ ?_
            · intro _; rfl
            · intro i x h6 h7 h8
              exact h5 i x (by omega) (by omega) h8
        · show s.wire = _
          simp only [pos, State.free]
          rw [hms, hoff, ← e1]; exact hwi'
        · simp only [pos, State.free]
          rw [hms, hoff, ← e1]; exact hb'
        · show s.done ++ [cur] = List.range (cur + 1)
          rw [hd', List.range_succ]
    · rw [if_neg hc]
      have hl' := h.l.skip (k := fl) hg (by omega) (h.noLink hw)
      have hms : msgs (s.nodes.modify cur fun nd => { nd with off := nd.off + fl }) = msgs s.nodes := msgs_modify (fun _ => rfl)
      have hoff : offAt (s.nodes.modify cur fun nd => { nd with off := nd.off + fl }) cur = nd.off + fl := by
        simp [offAt, hg]
      refine ⟨_, cur, o, rfl, h.move hw (t := { s with nodes := s.nodes.modify cur fun nd => { nd with off := nd.off + fl } }) rfl hl'
        (by simpa using hlt) rfl ?_ ?_ hd⟩
      · show s.wire = _
        simp only [pos]
        rw [hms, hoff, hwi']; congr 1; omega
      · simp only [pos]
        rw [hms, hoff]; omega
  | cas cur wrote short =>
    obtain ⟨rfl, rfl⟩ := hf
    right
    simp only [State.flushStep]
    by_cases hc : s.tail = some cur
    · rw [if_pos hc]
      obtain ⟨s', e1, e2⟩ := h.emptied hw hc stop
      exact ⟨s', _, _, e1, e2⟩
    · rw [if_neg hc]
      refine ⟨_, cur, o, rfl, h.move hw (t := s) rfl h.l hlt ⟨rfl, rfl, ?_⟩ hwi hb hd⟩
      rw [h.l.tail, if_pos hlt] at hc
      have : s.nodes.length - 1 ≠ cur := fun e => hc (by rw [e])
      omega
  | spin cur wrote short =>
    obtain ⟨rfl, rfl, h1⟩ := hf
    right
    obtain ⟨nd, hg, hnode⟩ := node_of h.l (Nat.le_refl _) hlt
    simp only [State.flushStep, hnode]
    cases hnx : nd.next with
    | none => exact ⟨s, cur, o, rfl, h⟩
    | some nx =>
      dsimp only
      obtain ⟨n1, n2⟩ := h.l.next _ _ _ hg hnx
      subst n1
      have hl' := h.l.advance hg (by rw [hnx]; simp) (h.noLink hw)
      have hms : msgs (s.nodes.modify cur fun nd => { nd with live := false }) = msgs s.nodes := msgs_modify (fun _ => rfl)
      have hoff : offAt (s.nodes.modify cur fun nd => { nd with live := false }) (cur + 1) = 0 := by
        have hg1 : s.nodes[cur + 1]? = some (s.nodes[cur + 1]'n2) := List.getElem?_eq_getElem _
        have := (h.l.off _ _ hg1).2 (by omega)
        simp only [offAt, List.getElem?_modify, hg1]
        simp [this]
      refine ⟨_, cur + 1, o, rfl, h.move hw (t := s.free cur) rfl hl' (by simpa [State.free] using n2) rfl ?_ ?_ hd⟩
      · show s.wire = _
        simp only [pos, State.free]
        rw [hms, hoff]; exact hwi
      · simp only [pos, State.free]
        rw [hms, hoff]; exact hb
  | setHead nx wrote short =>
    obtain rfl : nx = a := hf
    right
    simp only [State.flushStep]
    have h' := h.setHead hw rfl
    obtain ⟨s', e1, e2⟩ := h'.flushed (w := w) (f := .setHead nx wrote short) (by cases w <;> exact hw) trivial rfl wrote short stop
    exact ⟨s', _, _, e1, e2⟩
  | leave nx wrote short =>
    obtain rfl : nx = a := hf
    right
    simp only [State.flushStep]
    have h' := h.setHead hw rfl
    obtain ⟨s', e1, e2⟩ := h'.flushed (w := w) (f := .leave nx wrote short) (by cases w <;> exact hw) trivial rfl wrote short stop
    exact ⟨s', _, _, e1, e2⟩

theorem linked_push {ns : Nodes} {a b : Nat} {x : Node} (hb : b ≤ ns.length) (h : linked ns a b) : linked (ns ++ [x]) a b := by
  intro i nd h1 h2 h3
  rcases get_push.1 h3 with h3 | ⟨rfl, _⟩
  · exact h i nd h1 h2 h3
  · omega

theorem P_push {ms : List Bytes} {m : Bytes} {k : Nat} (h : k ≤ ms.length) : P (ms ++ [m]) k = P ms k := by
  simp [P, List.take_append_of_le_length h]

theorem msgs_push {ns : Nodes} {x : Node} : msgs (ns ++ [x]) = msgs ns ++ [x.msg] := by simp [msgs]

theorem FInv.push {ns : Nodes} {head a f} {x : Node} (ha : a < ns.length) (hx : x.off = 0) (h : FInv ns head a f) : FInv (ns ++ [x]) head a f := by
  cases f with
  | start => exact h
  | walk vis cur =>
    obtain ⟨h1, h2, h3, h4, h5⟩ := h
    exact ⟨h1, h2, by simp; omega, h4, linked_push (by omega) h5⟩
  | write vis =>
    obtain ⟨h1, k, h2, h3, h4, h5⟩ := h
    exact ⟨h1, k, h2, by simp; omega, h4, linked_push (by omega) h5⟩
  | rewind cur fl wrote short =>
    obtain ⟨h1, L, h2, h3, h4, h5, h6⟩ := h
    refine ⟨h1, L, h2, by simp; omega, ?_, ?_, linked_push (by omega) h6⟩
    · rw [msgs_push, offAt_push (by omega) hx, P_push (by rw [msgs_len]; omega), P_push (by rw [msgs_len]; omega)]; exact h4
    · rw [msgs_push, offAt_push (by omega) hx, P_push (by rw [msgs_len]; omega), P_push (by rw [msgs_len]; omega)]; exact h5
  | cas cur wrote short => exact h
  | spin cur wrote short =>
    obtain ⟨h1, h2, h3⟩ := h
    exact ⟨h1, h2, by simp; omega⟩
  | setHead nx wrote short => exact h
  | leave nx wrote short => exact h

theorem pos_push {ns : Nodes} {a q} {x : Node} (ha : a ≤ ns.length) (hq : (∃ c b1 b2, q = some (.cas c b1 b2)) ∨ (∃ c b1 b2, q = some (.spin c b1 b2)) → a < ns.length)
    (hx : x.off = 0) : pos (ns ++ [x]) a q = pos ns a q := by
  have h0 : offAt (ns ++ [x]) a = offAt ns a := offAt_push ha hx
  have h1 : P (msgs (ns ++ [x])) a = P (msgs ns) a := by rw [msgs_push, P_push (by rw [msgs_len]; exact ha)]
  cases q with
  | none => simp only [pos, h0, h1]
  | some f =>
    cases f <;> simp only [pos, h0, h1]
    · have := hq (.inl ⟨_, _, _, rfl⟩)
      rw [msgs_push, P_push (by rw [msgs_len]; omega)]
    · have := hq (.inr ⟨_, _, _, rfl⟩)
      rw [msgs_push, P_push (by rw [msgs_len]; omega)]

theorem linked_next {ns : Nodes} {a b i m : Nat} (h : linked ns a b) : linked (ns.modify i fun nd => { nd with next := some m }) a b := by
  intro j nd h1 h2 h3
  obtain ⟨x, hx, rfl⟩ := get_modify.1 h3
  have := h j x h1 h2 hx
  split
  · simp
  · exact this

theorem FInv.next {ns : Nodes} {head a f i m} (h : FInv ns head a f) : FInv (ns.modify i fun nd => { nd with next := some m }) head a f := by
  have hms : msgs (ns.modify i fun nd => { nd with next := some m }) = msgs ns := msgs_modify (fun _ => rfl)
  cases f with
  | start => exact h
  | walk vis cur =>
    obtain ⟨h1, h2, h3, h4, h5⟩ := h
    exact ⟨h1, h2, by simpa using h3, h4, linked_next h5⟩
  | write vis =>
    obtain ⟨h1, k, h2, h3, h4, h5⟩ := h
    exact ⟨h1, k, h2, by simpa using h3, h4, linked_next h5⟩
  | rewind cur fl wrote short =>
    obtain ⟨h1, L, h2, h3, h4, h5, h6⟩ := h
    refine ⟨h1, L, h2, by simpa using h3, ?_, ?_, linked_next h6⟩
    · rw [hms, offAt_modify_next]; exact h4
    · rw [hms, offAt_modify_next]; exact h5
  | cas cur wrote short => exact h
  | spin cur wrote short =>
    obtain ⟨h1, h2, h3⟩ := h
    exact ⟨h1, h2, by simpa using h3⟩
  | setHead nx wrote short => exact h
  | leave nx wrote short => exact h

theorem pos_next {ns : Nodes} {a q i m} : pos (ns.modify i fun nd => { nd with next := some m }) a q = pos ns a q := by
  have hms : msgs (ns.modify i fun nd => { nd with next := some m }) = msgs ns := msgs_modify (fun _ => rfl)
  unfold pos
  rw [hms, offAt_modify_next]

theorem Inv.init : Inv State.init 0 none := by
  refine ⟨⟨?_, ?_, ?_, ?_, ?_, ?_, ?_, ?_, ?_⟩, ⟨?_, ?_, ?_, ?_, ?_, ?_, ?_, ?_, ?_⟩, ?_, ?_, ?_, ?_, ?_, ?_, ?_, ?_, ?_, ?_⟩ <;>
    simp [State.init, SPc.holds, EPc.holds, msgs, pos, doneN, P, offAt]
  intro w f hf
  cases w <;> simp [State.pc] at hf

/-- A sender that is not in `FlushTo` changes its place and nothing else of the owner. -/
theorem bind_pc_setSender {s t : State} {o : Option Who} {i : Nat} {p : SPc} (hs : t.senders = s.senders) (hf : t.fiber = s.fiber)
    (h1 : ∀ f, s.senders i ≠ .flush f) (h2 : ∀ f, p ≠ .flush f) : o.bind (t.setSender i p).pc = o.bind s.pc := by
  cases o with
  | none => rfl
  | some w =>
    show (t.setSender i p).pc w = s.pc w
    cases w with
    | sender j =>
      by_cases e : j = i
      · subst e
        cases hx : s.pc (.sender j) with
        | some g => exact absurd (pc_sender.1 hx) (h1 g)
        | none =>
          cases hy : (t.setSender j p).pc (.sender j) with
          | some g => rw [pc_sender, setSender_self] at hy; exact absurd hy (h2 g)
          | none => rfl
      · simp only [State.pc, setSender_ne e, hs]
    | event => simp only [State.pc, State.setSender, hf]

theorem Inv.step {s a o} (h : Inv s a o) (act : Act) : s.step act = .blocked ∨ ∃ s' a' o', s.step act = .ok s' ∧ Inv s' a' o' := by
  cases act with
  | send i m =>
    simp only [State.step]
    split
    · next hi =>
      right
      have hni : ∀ q n, s.senders i ≠ .link q n := by rw [hi]; simp
      have hnf : ∀ f, s.senders i ≠ .flush f := by rw [hi]; simp
      have hle := h.l.le
      have hl' := h.l.send (j := i) (m := m)
        (sd' := (({ s with nodes := s.nodes ++ [⟨i, m, 0, none, true⟩], tail := some s.nodes.length } : State).setSender i (.link s.tail s.nodes.length)).senders) hni (by
          intro k q n
          by_cases e : k = i
          · subst e; simp [setSender_self, eq_comm]
          · rw [setSender_ne e, if_neg e])
      have hbind : ∀ o : Option Who, o.bind (({ s with nodes := s.nodes ++ [⟨i, m, 0, none, true⟩], tail := some s.nodes.length } : State).setSender i (.link s.tail s.nodes.length)).pc = o.bind s.pc :=
        fun o => bind_pc_setSender rfl rfl hnf (by simp)
      have hpq : (∃ c b1 b2, o.bind s.pc = some (.cas c b1 b2)) ∨ (∃ c b1 b2, o.bind s.pc = some (.spin c b1 b2)) → a < s.nodes.length := by
        intro hh
        apply h.lt
        rintro rfl
        rcases hh with ⟨_, _, _, hh⟩ | ⟨_, _, _, hh⟩ <;> cases hh
      have hposb := h.bound
      have hpos : pos (s.nodes ++ [⟨i, m, 0, none, true⟩]) a (o.bind s.pc) = pos s.nodes a (o.bind s.pc) := pos_push hle hpq rfl
      -- the sender becomes the owner if the list was empty
      by_cases hempty : a = s.nodes.length
      · have ho : o = none := h.own.2 hempty
        subst ho
        have ht : s.tail = none := by rw [h.l.tail, if_neg (by omega)]
        refine ⟨_, a, some (.sender i), rfl, hl', ?_, ?_, ?_, ?_, ?_, ?_, ?_, ?_, ?_, ?_, ?_⟩
        · exact (show EInv s false from h.e).senders rfl rfl rfl rfl rfl rfl rfl
        · simp [State.setSender]; omega
        · intro j hj
          by_cases e : j = i
          · rw [e]
          · rw [setSender_ne e] at hj
            have := h.holdS j hj
            cases this
        · intro j hj
          injection hj with hj; injection hj with hj; subst hj
          left
          rw [setSender_self, ht]; trivial
        · intro hh
          cases h.holdE hh
        · intro e; cases e
        · intro j hj _ hn
          injection hj with hj; injection hj with hj; subst hj
          refine absurd ?_ (hn s.nodes.length)
          rw [setSender_self, ht]
        · intro w g hg
          have hg' : s.pc w = some g := by rw [← hg]; exact ((hbind (some w))).symm
          cases h.owner hg'
        · rw [hbind]
          have : (some (Who.sender i)).bind s.pc = none := by
            cases hx : (some (Who.sender i)).bind s.pc with
            | none => rfl
            | some g => exact absurd (pc_sender.1 hx) (hnf g)
          rw [this]
          have hw := h.wire
          show s.wire = ((msgs (s.nodes ++ [_])).flatten).take (pos (s.nodes ++ [_]) a none)
          have e1 : pos (s.nodes ++ [⟨i, m, 0, none, true⟩]) a none = pos s.nodes a none := hpos
          rw [e1, msgs_push, List.flatten_append, List.take_append_of_le_length (show pos s.nodes a none ≤ _ from hposb)]
          exact hw
        · rw [hbind]
          have : (some (Who.sender i)).bind s.pc = none := by
            cases hx : (some (Who.sender i)).bind s.pc with
            | none => rfl
            | some g => exact absurd (pc_sender.1 hx) (hnf g)
          rw [this]
          show pos (s.nodes ++ [_]) a none ≤ ((msgs (s.nodes ++ [_])).flatten).length
          have e1 : pos (s.nodes ++ [⟨i, m, 0, none, true⟩]) a none = pos s.nodes a none := hpos
          rw [e1, msgs_push, List.flatten_append, List.length_append]
          have : pos s.nodes a none ≤ (msgs s.nodes).flatten.length := hposb
          omega
        · rw [hbind]
          have : (some (Who.sender i)).bind s.pc = none := by
            cases hx : (some (Who.sender i)).bind s.pc with
            | none => rfl
            | some g => exact absurd (pc_sender.1 hx) (hnf g)
          rw [this]
          exact h.done
      · have hlt : a < s.nodes.length := by omega
        have ht : s.tail = some (s.nodes.length - 1) := by rw [h.l.tail, if_pos hlt]
        have hne : o ≠ none := fun e => hempty (h.own.1 e)
        refine ⟨_, a, o, rfl, hl', ?_, ?_, ?_, ?_, ?_, ?_, ?_, ?_, ?_, ?_, ?_⟩
        · exact h.e.senders rfl rfl rfl rfl rfl rfl rfl
        · constructor
          · intro e; exact absurd e hne
          · intro e; simp [State.setSender] at e; omega
        · intro j hj
          by_cases e : j = i
          · subst e
            rw [setSender_self, ht] at hj
            cases hj
          · rw [setSender_ne e] at hj
            exact h.holdS j hj
        · intro j hj
          by_cases e : j = i
          · subst e
            rcases h.lostS j hj with h1 | h1
            · rw [hi] at h1; cases h1
            · exact .inr h1
          · rw [setSender_ne e]
            exact h.lostS j hj
        · exact h.holdE
        · exact h.headE
        · intro j hj hf hn
          by_cases e : j = i
          · subst e
            exact h.headS j hj hnf (by rw [hi]; simp)
          · rw [setSender_ne e] at hf hn
            exact h.headS j hj hf hn
        · intro w g hg
          have hg' : s.pc w = some g := by rw [← hg]; exact ((hbind (some w))).symm
          exact FInv.push hlt rfl (h.f w g hg')
        · rw [hbind]
          show s.wire = ((msgs (s.nodes ++ [_])).flatten).take (pos (s.nodes ++ [_]) a (o.bind s.pc))
          rw [hpos, msgs_push, List.flatten_append, List.take_append_of_le_length hposb]
          exact h.wire
        · rw [hbind]
          show pos (s.nodes ++ [_]) a (o.bind s.pc) ≤ ((msgs (s.nodes ++ [_])).flatten).length
          rw [hpos, msgs_push, List.flatten_append, List.length_append]
          omega
        · rw [hbind]
          exact h.done
    · exact .inl rfl
  | link i =>
    simp only [State.step]
    split
    · next n hi =>
      right
      obtain ⟨h1, h2, h3⟩ := h.l.linkN i n hi
      subst h1
      have ho := h.holdS i (by rw [hi]; trivial)
      subst ho
      have hp0 : (some (Who.sender i)).bind s.pc = none := by
        show s.pc (.sender i) = none
        simp only [State.pc, hi]
      have hwi := h.wire
      have hb := h.bound
      have hd := h.done
      rw [hp0] at hwi hb hd
      have hpc : (some (Who.sender i)).bind (({ s with head := some n } : State).setSender i (.flush .start)).pc = some .start := by
        show (({ s with head := some n } : State).setSender i (.flush .start)).pc (.sender i) = some .start
        rw [pc_sender, setSender_self]
      refine ⟨_, n, some (.sender i), rfl, h.l.unlink (sd' := (({ s with head := some n } : State).setSender i (.flush .start)).senders) hi ?_, ?_, ?_, ?_, ?_, ?_, ?_, ?_, ?_, ?_, ?_, ?_⟩
      · intro k q m
        by_cases e : k = i
        · subst e; simp [setSender_self]
        · rw [setSender_ne e]; simp [e]
      · exact h.e.senders rfl rfl rfl rfl rfl rfl rfl
      · exact h.own
      · intro j hj
        by_cases e : j = i
        · rw [e]
        · rw [setSender_ne e] at hj
          exact h.holdS j hj
      · intro j hj
        injection hj with hj; injection hj with hj; subst hj
        left; rw [setSender_self]; trivial
      · exact h.holdE
      · intro e; cases e
      · intro _ _ _ _; rfl
      · intro w g hg
        have : w = .sender i := by
          cases w with
          | sender j =>
            by_cases e : j = i
            · rw [e]
            · rw [pc_sender, setSender_ne e] at hg
              have := h.holdS j (by rw [hg]; trivial)
              injection this with this; exact this.symm
          | event =>
            have := h.holdE (by rw [show s.fiber = .flush g from pc_event.1 hg]; trivial)
            injection this with this; cases this
        subst this
        rw [show (({ s with head := some n } : State).setSender i (.flush .start)).pc (.sender i) = some .start from hpc] at hg
        injection hg with hg
        subst hg
        rfl
      · rw [hpc]; exact hwi
      · rw [hpc]; exact hb
      · rw [hpc]; exact hd
    · next p n hi =>
      right
      obtain ⟨h1, h2, h3, nd, h4, h5⟩ := h.l.linkS i p n hi
      obtain ⟨nd', g1, g2⟩ := node_of h.l h3 (lt_of_get h4)
      rw [h4] at g1
      injection g1 with g1
      subst g1
      rw [g2]
      dsimp only
      rw [if_neg (by simp [h5])]
      have hnf : ∀ f, s.senders i ≠ .flush f := by rw [hi]; simp
      have hbind : ∀ o : Option Who, o.bind (({ s with nodes := s.nodes.modify p fun nd => { nd with next := some n } } : State).setSender i .idle).pc = o.bind s.pc :=
        fun o => bind_pc_setSender rfl rfl hnf (by simp)
      have hms : msgs (s.nodes.modify p fun nd => { nd with next := some n }) = msgs s.nodes := msgs_modify (fun _ => rfl)
      refine ⟨_, a, o, rfl, h.l.link (sd' := (({ s with nodes := s.nodes.modify p fun nd => { nd with next := some n } } : State).setSender i .idle).senders) hi ?_, ?_, ?_, ?_, ?_, ?_, ?_, ?_, ?_, ?_, ?_, ?_⟩
      · intro k q m
        by_cases e : k = i
        · subst e; simp [setSender_self]
        · rw [setSender_ne e]; simp [e]
      · exact h.e.senders rfl rfl rfl rfl rfl rfl rfl
      · simpa [State.setSender] using h.own
      · intro j hj
        by_cases e : j = i
        · subst e; rw [setSender_self] at hj; cases hj
        · rw [setSender_ne e] at hj
          exact h.holdS j hj
      · intro j hj
        by_cases e : j = i
        · subst e
          rcases h.lostS j hj with h1 | h1
          · rw [hi] at h1; cases h1
          · exact .inr h1
        · rw [setSender_ne e]
          exact h.lostS j hj
      · exact h.holdE
      · exact h.headE
      · intro j hj hf hn
        by_cases e : j = i
        · subst e
          exact h.headS j hj hnf (by rw [hi]; simp)
        · rw [setSender_ne e] at hf hn
          exact h.headS j hj hf hn
      · intro w g hg
        have hg' : s.pc w = some g := by rw [← hg]; exact ((hbind (some w))).symm
        exact FInv.next (h.f w g hg')
      · rw [hbind]
        show s.wire = ((msgs (s.nodes.modify p _)).flatten).take (pos (s.nodes.modify p _) a (o.bind s.pc))
        rw [hms, pos_next]
        exact h.wire
      · rw [hbind]
        show pos (s.nodes.modify p _) a (o.bind s.pc) ≤ ((msgs (s.nodes.modify p _)).flatten).length
        rw [hms, pos_next]
        exact h.bound
      · rw [hbind]
        exact h.done
    · exact .inl rfl
  | flush w stop io =>
    simp only [State.step]
    cases hw : s.pc w with
    | none => exact .inl rfl
    | some f => exact h.flushStep hw stop io
  | drop i =>
    simp only [State.step]
    split
    · next hc =>
      right
      simp only [Bool.and_eq_true, decide_eq_true_eq, Bool.not_eq_true'] at hc
      have hw := pc_sender.2 hc.2
      exact ⟨_, a, o, rfl, h.exitS hw trivial (h.f _ _ hw) (.inr ⟨rfl, h.e.kil.2 (.inr hc.1)⟩)⟩
    · exact .inl rfl
  | restart i =>
    simp only [State.step]
    split
    · next hi =>
      right
      have ho := h.holdS i (by rw [hi]; trivial)
      subst ho
      have hnf : ∀ f, s.senders i ≠ .flush f := by rw [hi]; simp
      have hbind : ∀ o : Option Who, o.bind (({ s with tasks := s.tasks ++ [.restart] } : State).setSender i .idle).pc = o.bind s.pc :=
        fun o => bind_pc_setSender rfl rfl hnf (by simp)
      have hnE : ¬ s.fiber.holds := fun hh => by
        have := h.holdE hh
        injection this with this; cases this
      have hp0 : (some (Who.sender i)).bind s.pc = none := by
        show s.pc (.sender i) = none
        simp only [State.pc, hi]
      have hp1 : (some Who.event).bind s.pc = none := by
        show s.pc .event = none
        cases hx : s.pc .event with
        | none => rfl
        | some g => exact absurd (by rw [pc_event.1 hx]; trivial) hnE
      have hwi := h.wire
      have hb := h.bound
      have hd := h.done
      rw [hp0] at hwi hb hd
      refine ⟨_, a, some .event, rfl, h.l.congr ?_, ?_, ?_, ?_, ?_, ?_, ?_, ?_, ?_, ?_, ?_, ?_⟩
      · intro j q m
        by_cases e : j = i
        · subst e; simp [setSender_self, hi]
        · rw [setSender_ne e]
      · exact (show EInv s false from h.e).restart rfl
      · have := h.own
        simp at this
        simpa [State.setSender] using this
      · intro j hj
        by_cases e : j = i
        · subst e; rw [setSender_self] at hj; cases hj
        · rw [setSender_ne e] at hj
          have := h.holdS j hj
          injection this with this; injection this with this
          exact absurd this.symm e
      · intro j e; cases e
      · intro _; rfl
      · exact fun _ _ => h.headS i rfl hnf (by rw [hi]; simp)
      · intro j e; cases e
      · intro w g hg
        have hg' : s.pc w = some g := by rw [← hg]; exact ((hbind (some w))).symm
        have := h.owner hg'
        injection this with this
        subst this
        exact absurd (pc_sender.1 hg') (hnf g)
      · rw [hbind, hp1]; exact hwi
      · rw [hbind, hp1]; exact hb
      · rw [hbind, hp1]; exact hd
    · exact .inl rfl
  | epollOut =>
    simp only [State.step]
    split
    · next ha =>
      right
      obtain ⟨s', e1, e2, e3⟩ := h.e.handleWrite ha
      rcases e3 with rfl | ⟨rfl, he, hf⟩
      · refine ⟨_, a, o, e1, h.l, e2, h.own, h.holdS, h.lostS, h.holdE, h.headE, h.headS, ?_, ?_, ?_, ?_⟩
        all_goals
          have e : ({ s with writeEvents := s.writeEvents + 1 } : State).pc = s.pc := by funext w; cases w <;> rfl
          rw [e]
        · exact h.f
        · exact h.wire
        · exact h.bound
        · exact h.done
      · have ho : o = some .event := by simpa using he
        have hhead := h.headE ho (by rw [hf]; simp)
        have e : ({ s with writeEvents := 1, fiber := .enter } : State).pc = s.pc := by
          funext w
          cases w
          · rfl
          · simp [State.pc, hf]
        refine ⟨_, a, o, e1, h.l, e2, h.own, h.holdS, h.lostS, fun _ => ho, fun _ _ => hhead, h.headS, ?_, ?_, ?_, ?_⟩
        all_goals rw [e]
        · exact h.f
        · exact h.wire
        · exact h.bound
        · exact h.done
    · exact .inl rfl
  | fiber =>
    simp only [State.step]
    rcases h.e.fiberStep with e1 | ⟨s', e1, e2, ⟨we, p, ts, hs'⟩, h3, h4⟩
    · exact .inl e1
    · right
      have hp0 : s.pc .event = none := by
        cases hx : s.pc .event with
        | none => rfl
        | some g => exact absurd (pc_event.1 hx) (h3 g)
      have hk : s'.killed = s.killed := by rw [hs']
      have key : ∀ w g, s'.pc w = some g → s.pc w = some g ∨ (w = .event ∧ g = .start ∧ o = some .event) := by
        intro w g hg
        cases w with
        | sender j =>
          left
          rw [pc_sender] at hg ⊢
          rw [hs'] at hg
          exact hg
        | event =>
          right
          have hg := pc_event.1 hg
          rcases h4 with h4 | ⟨h4, _, h6⟩
          · rw [h4] at hg; cases hg
          · refine ⟨rfl, h6 g hg, h.holdE ?_⟩
            rcases h4 with h4 | h4 <;> rw [h4] <;> trivial
      have keyp : pos s.nodes a (o.bind s'.pc) = pos s.nodes a (o.bind s.pc) ∧ doneN a (o.bind s'.pc) = doneN a (o.bind s.pc) := by
        cases o with
        | none => exact ⟨rfl, rfl⟩
        | some w =>
          show pos s.nodes a (s'.pc w) = pos s.nodes a (s.pc w) ∧ doneN a (s'.pc w) = doneN a (s.pc w)
          cases w with
          | sender j =>
            have : s'.pc (.sender j) = s.pc (.sender j) := by rw [hs']; rfl
            rw [this]; exact ⟨rfl, rfl⟩
          | event =>
            rw [hp0]
            cases hx : s'.pc .event with
            | none => exact ⟨rfl, rfl⟩
            | some g =>
              rcases key _ _ hx with h' | ⟨_, h', _⟩
              · rw [hp0] at h'; cases h'
              · subst h'; exact ⟨rfl, rfl⟩
      refine ⟨s', a, o, e1, ?_, e2, ?_, ?_, ?_, ?_, ?_, ?_, ?_, ?_, ?_, ?_⟩
      · rw [hs']; exact h.l
      · rw [hs']; exact h.own
      · rw [hs']; exact h.holdS
      · rw [hk, hs']; exact h.lostS
      · intro hh
        rcases h4 with h4 | ⟨h4, _, _⟩
        · rw [h4] at hh; cases hh
        · apply h.holdE
          rcases h4 with h4 | h4 <;> rw [h4] <;> trivial
      · intro ho _
        rw [hs']
        exact h.headE ho h3
      · rw [hs']; exact h.headS
      · intro w g hg
        have hh : s'.head = s.head := by rw [hs']
        have hn : s'.nodes = s.nodes := by rw [hs']
        rw [hh, hn]
        rcases key w g hg with h' | ⟨rfl, rfl, h'⟩
        · exact h.f w g h'
        · exact h.headE h' h3
      · have hn : s'.nodes = s.nodes := by rw [hs']
        have hw : s'.wire = s.wire := by rw [hs']
        rw [hn, hw, keyp.1]; exact h.wire
      · have hn : s'.nodes = s.nodes := by rw [hs']
        rw [hn, keyp.1]; exact h.bound
      · have hn : s'.done = s.done := by rw [hs']
        rw [hn, keyp.2]; exact h.done
  | task =>
    simp only [State.step]
    rcases h.e.taskStep with e1 | ⟨s', e1, e2, ⟨k1, k2, k3, k4, k5, k6, k7⟩, h4⟩
    · exact .inl e1
    · right
      have e : s'.pc = s.pc := by
        funext w
        cases w with
        | sender j => simp only [State.pc, k4]
        | event =>
          rcases h4 with h4 | ⟨h4, _, h5⟩
          · simp only [State.pc, h4]
          · simp only [State.pc, h4, h5]
      refine ⟨s', a, o, e1, ?_, e2, ?_, ?_, ?_, ?_, ?_, ?_, ?_, ?_, ?_, ?_⟩
      · rw [k1, k3, k4]; exact h.l
      · rw [k1]; exact h.own
      · rw [k4]; exact h.holdS
      · rw [k4, k7]; exact h.lostS
      · rcases h4 with h4 | ⟨_, h5, _⟩
        · rw [h4]; exact h.holdE
        · intro _; simpa using h5
      · intro ho hn
        rw [k2]
        apply h.headE ho
        rcases h4 with h4 | ⟨_, _, h5⟩
        · rw [← h4]; exact hn
        · rw [h5]; simp
      · rw [k4, k2]; exact h.headS
      · rw [e, k1, k2]; exact h.f
      · rw [e, k1, k5]; exact h.wire
      · rw [e, k1]; exact h.bound
      · rw [e, k6]; exact h.done
  | kill => exact .inr ⟨_, a, o, rfl, h.kill⟩

theorem Reach.inv {l s} (h : Reach l s) : ∃ a o, Inv s a o := by
  induction h with
  | init => exact ⟨0, none, Inv.init⟩
  | step _ hs ih =>
    obtain ⟨a, o, hi⟩ := ih
    rcases hi.step _ with h' | ⟨s', a', o', h1, h2⟩
    · rw [h'] at hs; cases hs
    · rw [h1] at hs; injection hs with hs; subst hs
      exact ⟨a', o', h2⟩

/-! ## What was sent -/

def keys (ns : Nodes) : List (Nat × Bytes) := ns.map fun nd => (nd.by_, nd.msg)

theorem keys_modify {ns : Nodes} {i : Nat} {f : Node → Node} (hf : ∀ nd, (f nd).msg = nd.msg ∧ (f nd).by_ = nd.by_) : keys (ns.modify i f) = keys ns := by
  apply List.ext_getElem?
  intro j
  simp only [keys, List.getElem?_map, List.getElem?_modify]
  cases h : ns[j]? <;> simp
  split <;> simp [hf]

theorem setPc_nodes {s : State} {w f} : (s.setPc w f).nodes = s.nodes := by cases w <;> rfl

theorem give_up_nodes {s : State} {w} : (s.give_up w).nodes = s.nodes := by
  cases w
  · exact (kill_fields s).1
  · exact (kill_fields s).1

theorem flushed_nodes {s s' : State} {w e wr sh st} (h : s.flushed w e wr sh st = .ok s') : s'.nodes = s.nodes := by
  unfold State.flushed at h
  split at h
  · injection h with h; subst h; exact give_up_nodes
  · split at h
    · cases h
    · cases w <;> dsimp only at h <;> split at h <;> try split at h
      all_goals injection h with h; subst h; rfl

theorem flushStep_keys {s s' : State} {w f st io} (h : s.flushStep w f st io = .ok s') : keys s'.nodes = keys s.nodes := by
  cases f with
  | start =>
    simp only [State.flushStep] at h
    split at h
    · cases h
    · split at h
      · cases h
      · injection h with h; subst h; rw [setPc_nodes]
  | walk vis cur =>
    simp only [State.flushStep] at h
    split at h
    · cases h
    · split at h
      · injection h with h; subst h; rw [setPc_nodes]
      · split at h
        · cases h
        · split at h <;> (injection h with h; subst h; rw [setPc_nodes])
  | write vis =>
    simp only [State.flushStep] at h
    split at h
    · cases h
    · split at h
      · split at h <;> (injection h with h; subst h; rfl)
      · injection h with h; subst h; rw [give_up_nodes]
      · split at h
        · split at h
          · injection h with h; subst h; rw [give_up_nodes]
          · split at h
            · cases h
            · injection h with h; subst h; rw [setPc_nodes]
        · cases h
  | rewind cur fl wr sh =>
    simp only [State.flushStep] at h
    split at h
    · cases h
    · split at h
      · split at h
        · split at h
          · injection h with h; subst h; rw [setPc_nodes]
          · cases h
        · injection h with h; subst h; rw [setPc_nodes]
          exact keys_modify (fun _ => ⟨rfl, rfl⟩)
      · injection h with h; subst h; rw [setPc_nodes]
        exact keys_modify (fun _ => ⟨rfl, rfl⟩)
  | cas cur wr sh =>
    simp only [State.flushStep] at h
    split at h
    · rw [flushed_nodes h]
      exact keys_modify (fun _ => ⟨rfl, rfl⟩)
    · injection h with h; subst h; rw [setPc_nodes]
  | spin cur wr sh =>
    simp only [State.flushStep] at h
    split at h
    · cases h
    · split at h
      · injection h with h; subst h; rfl
      · injection h with h; subst h; rw [setPc_nodes]
        exact keys_modify (fun _ => ⟨rfl, rfl⟩)
  | setHead nx wr sh => simp only [State.flushStep] at h; rw [flushed_nodes h]
  | leave nx wr sh => simp only [State.flushStep] at h; rw [flushed_nodes h]

/-- The messages of the calls of `Send`, in their order. -/
def sends (l : List Act) : List (Nat × Bytes) := l.filterMap fun a => match a with | .send i m => some (i, m) | _ => none

theorem sends_push (l : List Act) (a : Act) : sends (l ++ [a]) = sends l ++ sends [a] := by simp [sends, List.filterMap_append]

theorem step_keys {s a o} (hi : Inv s a o) {act s'} (h : s.step act = .ok s') : keys s'.nodes = keys s.nodes ++ sends [act] := by
  cases act with
  | send i m =>
    simp only [State.step] at h
    split at h
    · injection h with h; subst h
      simp [keys, sends, State.setSender]
    · cases h
  | link i =>
    simp only [State.step] at h
    split at h
    · injection h with h; subst h; simp [sends, State.setSender]
    · split at h
      · cases h
      · split at h
        · cases h
        · injection h with h; subst h
          show keys (s.nodes.modify _ _) = keys s.nodes ++ []
          rw [List.append_nil]
          exact keys_modify (fun _ => ⟨rfl, rfl⟩)
    · cases h
  | flush w st io =>
    simp only [State.step] at h
    split at h
    · cases h
    · rw [flushStep_keys h]; simp [sends]
  | drop i =>
    simp only [State.step] at h
    split at h
    · injection h with h; subst h; simp [sends, State.setSender]
    · cases h
  | restart i =>
    simp only [State.step] at h
    split at h
    · injection h with h; subst h; simp [sends, State.setSender]
    · cases h
  | epollOut =>
    simp only [State.step] at h
    split at h
    · next ha =>
      obtain ⟨t, e1, _, e3⟩ := hi.e.handleWrite ha
      rw [e1] at h; injection h with h; subst h
      rcases e3 with rfl | ⟨rfl, _⟩ <;> simp [sends]
    · cases h
  | fiber =>
    simp only [State.step] at h
    rcases hi.e.fiberStep with e1 | ⟨t, e1, _, ⟨_, _, _, e3⟩, _⟩
    · rw [e1] at h; cases h
    · rw [e1] at h; injection h with h; subst h
      rw [e3]; simp [sends]
  | task =>
    simp only [State.step] at h
    rcases hi.e.taskStep with e1 | ⟨t, e1, _, e3, _⟩
    · rw [e1] at h; cases h
    · rw [e1] at h; injection h with h; subst h
      rw [e3.1]; simp [sends]
  | kill =>
    simp only [State.step] at h
    injection h with h; subst h
    rw [(kill_fields s).1]; simp [sends]

theorem Reach.keys {l s} (h : Reach l s) : keys s.nodes = sends l := by
  induction h with
  | init => rfl
  | step hr hs ih =>
    obtain ⟨a, o, hi⟩ := hr.inv
    rw [step_keys hi hs, ih, sends_push]

theorem Reach.msgs {l s} (h : Reach l s) : msgs s.nodes = (sends l).map (·.2) := by
  rw [← h.keys]; simp [Conn.msgs, Conn.keys]

/-! ## C78 -/

/-- What was written is a beginning of the messages, in the order of the calls of `Send`: no byte is lost, written twice or out of its message. -/
theorem C78_order {l s} (h : Reach l s) : s.wire <+: ((sends l).map (·.2)).flatten := by
  obtain ⟨a, o, hi⟩ := h.inv
  rw [← h.msgs, hi.wire]
  exact List.take_prefix _ _

/-- `MessageWriteDone` is called once for each message, in the order of the calls of `Send`, and when all bytes of the message are written. -/
theorem C78_done {l s} (h : Reach l s) :
    s.done = List.range s.done.length ∧ s.done.length ≤ (sends l).length ∧
    (((sends l).take s.done.length).map (·.2)).flatten <+: s.wire := by
  obtain ⟨a, o, hi⟩ := h.inv
  have hd := hi.done
  have hlen : s.done.length = doneN a (o.bind s.pc) := by rw [hd]; simp
  have hle := hi.l.le
  have hk : (sends l).length = s.nodes.length := by rw [← h.keys]; simp [Conn.keys]
  have key : doneN a (o.bind s.pc) ≤ s.nodes.length ∧ P (msgs s.nodes) (doneN a (o.bind s.pc)) ≤ pos s.nodes a (o.bind s.pc) := by
    cases hq : o.bind s.pc with
    | none => exact ⟨hle, Nat.le_add_right _ _⟩
    | some f =>
      have hlt : a < s.nodes.length := hi.lt (by rintro rfl; cases hq)
      cases f <;> simp only [doneN, pos]
      all_goals first | exact ⟨hle, Nat.le_add_right _ _⟩ | exact ⟨by omega, by omega⟩ | exact ⟨hlt, Nat.le_refl _⟩
  refine ⟨by rw [hlen]; exact hd, by omega, ?_⟩
  rw [hlen, List.map_take, ← h.msgs, ← take_P, hi.wire]
  exact List.take_prefix_take_left key.2

/-- No step uses memory that is freed, and no check fails. -/
theorem C78_safe {l s} (h : Reach l s) (a : Act) : s.step a ≠ .fail := by
  obtain ⟨_, _, hi⟩ := h.inv
  rcases hi.step a with h' | ⟨_, _, _, h', _⟩ <;> rw [h'] <;> simp

/-- At most one thread writes to the socket. -/
theorem C78_single {l s} (h : Reach l s) {w w' f f'} (h1 : s.pc w = some f) (h2 : s.pc w' = some f') : w = w' := by
  obtain ⟨_, _, hi⟩ := h.inv
  have := hi.owner h1
  rw [hi.owner h2] at this
  injection this with this
  exact this.symm

/-! ## C79 -/

/-- Nothing runs. -/
def State.quiet (s : State) : Prop := (∀ i, s.senders i = .idle) ∧ s.fiber = .none ∧ s.tasks = []

/-- If nothing runs and the connection is not closed then all messages are written, or the system is asked to tell when it is possible to write. -/
theorem C79_not_stranded {l s} (h : Reach l s) (hq : s.quiet) (hk : s.killed = false) :
    (s.wire = ((sends l).map (·.2)).flatten ∧ s.done.length = (sends l).length) ∨ (s.armed = true ∧ s.writeEvents = 0) := by
  obtain ⟨a, o, hi⟩ := h.inv
  obtain ⟨q1, q2, q3⟩ := hq
  have hen : s.enabled = true := by
    cases he : s.enabled
    · have := hi.e.kil.2 (.inr he); rw [hk] at this; cases this
    · rfl
  have hk' : (sends l).length = s.nodes.length := by rw [← h.keys]; simp [Conn.keys]
  have hpc : o.bind s.pc = none := by
    cases hx : o.bind s.pc with
    | none => rfl
    | some f =>
      cases o with
      | none => cases hx
      | some w =>
        have hx : s.pc w = some f := hx
        cases w with
        | sender i => rw [pc_sender, q1] at hx; cases hx
        | event => rw [pc_event, q2] at hx; cases hx
  cases ho : o with
  | none =>
    left
    have ha := hi.own.1 ho
    have hw := hi.wire
    have hd := hi.done
    rw [hpc] at hw hd
    have e1 : offAt s.nodes a = 0 := by rw [ha]; simp [offAt]
    simp only [pos, e1, Nat.add_zero] at hw
    rw [ha, ← msgs_len, P_all, List.take_length] at hw
    refine ⟨by rw [hw, h.msgs], ?_⟩
    rw [hd]; simp [doneN]; omega
  | some w =>
    cases w with
    | sender i =>
      rcases hi.lostS i ho with h1 | h1
      · rw [q1] at h1; cases h1
      · rw [hk] at h1; cases h1
    | event =>
      right
      have hb := hi.e.bal hen
      rw [q2, q3, ho] at hb
      simp at hb
      refine ⟨hi.e.arm.2 ⟨hen, by omega⟩, hi.e.zero.2 ⟨q2, by rw [q3]; rfl, by rw [q3]; rfl⟩⟩

/-- When the system tells that it is possible to write, the fiber takes over and gets to `Writev` with data if there is any. -/
theorem C79_wakes {l s} (h : Reach l s) (ha : s.armed = true) (hz : s.writeEvents = 0) :
    ∃ s1 s2 s3, s.step .epollOut = .ok s1 ∧ s1.step .fiber = .ok s2 ∧ ∀ stop io, s2.step (.flush .event stop io) = .ok s3 ∧
      ∃ n, s3.pc .event = some (.walk [] n) ∧ s3.node? n ≠ none := by
  obtain ⟨a, o, hi⟩ := h.inv
  obtain ⟨hen, hc⟩ := hi.e.arm.1 ha
  obtain ⟨z1, z2, z3⟩ := hi.e.zero.1 hz
  have hb := hi.e.bal hen
  have ho : o = some .event := by
    rw [z1, z2] at hb
    cases hx : decide (o = some Who.event) with
    | false => rw [hx] at hb; simp at hb; omega
    | true => simpa using hx
  have hhead := hi.headE ho (by rw [z1]; simp)
  have hlt := hi.lt (by rw [ho]; simp)
  have ht : s.tail = some (s.nodes.length - 1) := by rw [hi.l.tail, if_pos hlt]
  obtain ⟨nd, g1, g2⟩ := node_of hi.l (Nat.le_refl a) hlt
  refine ⟨{ s with writeEvents := 1, fiber := .enter }, { s with writeEvents := 1, fiber := .flush .start },
    { s with writeEvents := 1, fiber := .flush (.walk [] a) }, ?_, ?_, ?_⟩
  · simp [State.step, ha, State.handleWrite, hz, z1]
  · simp [State.step, State.fiberStep, hen]
  · intro stop io
    refine ⟨by simp [State.step, State.pc, State.flushStep, hhead, ht, State.setPc], a, rfl, ?_⟩
    show s.node? a ≠ none
    rw [g2]; simp

/-- Who waits in `FlushTo` for a sender waits for one that is about to take its next step. -/
theorem C79_spin {l s w c b1 b2} (h : Reach l s) (hw : s.pc w = some (.spin c b1 b2)) :
    (∃ nd, s.node? c = some nd ∧ nd.next ≠ none) ∨
    ∃ i s', s.step (.link i) = .ok s' ∧ s'.pc w = some (.spin c b1 b2) ∧ ∃ nd, s'.node? c = some nd ∧ nd.next ≠ none := by
  obtain ⟨a, o, hi⟩ := h.inv
  obtain ⟨rfl, _, h3⟩ := hi.f w _ hw
  obtain ⟨nd, g1, g2⟩ := node_of hi.l (Nat.le_refl c) (by omega)
  by_cases hn : nd.next = none
  · right
    obtain ⟨j, hj⟩ := hi.l.miss c nd g1 (Nat.le_refl _) hn h3
    refine ⟨j, ({ s with nodes := s.nodes.modify c fun nd => { nd with next := some (c + 1) } } : State).setSender j .idle, ?_, ?_, ?_⟩
    · simp only [State.step, hj, g2]
      rw [if_neg (by simp [hn])]
    · have : (some w).bind (({ s with nodes := s.nodes.modify c fun nd => { nd with next := some (c + 1) } } : State).setSender j .idle).pc = (some w).bind s.pc :=
        bind_pc_setSender rfl rfl (by rw [hj]; simp) (by simp)
      exact this.trans hw
    · refine ⟨{ nd with next := some (c + 1) }, ?_, by simp⟩
      have hlive := (hi.l.live _ _ g1).2 (Nat.le_refl _)
      simp [State.node?, State.setSender, g1, hlive]
  · exact .inl ⟨nd, g2, hn⟩

end Verif.Conn
