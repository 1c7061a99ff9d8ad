import Verif.Transport.CallMapModel
/-!
# C28: the call map

Specification: a partial function from ids to contexts.
-/

namespace Verif.Transport.CallMap

variable {α : Type}

/-! ## Specification -/

/-- A map without shards. -/
abbrev Abs (α : Type) := UInt64 → Option α

def Abs.step (f : Abs α) : Op α → Res α × Abs α
  | .insert k v => if (f k).isSome then (.aborted, f) else (.inserted, fun x => if x = k then some v else f x)
  | .remove k => (.removed (f k), fun x => if x = k then none else f x)
  | .clearShard i => (.cleared, fun x => if hashIndex x 128 = i then none else f x)

def Abs.run (f : Abs α) : List (Op α) → List (Res α) × Abs α
  | [] => ([], f)
  | o :: os => let r := f.step o; let rs := Abs.run r.2 os; (r.1 :: rs.1, rs.2)

/-! ## Refinement -/

theorem hashIndex_lt (k : UInt64) : hashIndex k 128 < shards := by
  unfold hashIndex shards
  rw [UInt64.toNat_mod]
  exact Nat.mod_lt _ (by decide)

/-- The contents of the map. -/
def abs (m : Map α) : Abs α := fun k => (m[hashIndex k 128]?.getD []).lookup k

structure Ok (m : Map α) : Prop where
  len : m.length = shards
  home : ∀ i sh, m[i]? = some sh → ∀ e ∈ sh, hashIndex e.1 128 = i
  nodup : ∀ sh ∈ m, (sh.map Prod.fst).Nodup

theorem Ok.new : Ok (new : Map α) := by
  refine ⟨by simp [CallMap.new, shards], ?_, ?_⟩
  · intro i sh h e he
    simp only [CallMap.new, List.getElem?_replicate] at h
    split at h
    · cases h; simp at he
    · cases h
  · intro sh h
    simp only [CallMap.new, List.mem_replicate] at h
    simp [h.2]

theorem abs_new : abs (new : Map α) = fun _ => none := by
  funext k
  simp only [abs, CallMap.new, List.getElem?_replicate]
  split <;> simp

theorem Ok.set {m : Map α} (h : Ok m) {i : Nat} {sh : List (UInt64 × α)}
    (hh : ∀ e ∈ sh, hashIndex e.1 128 = i) (hn : (sh.map Prod.fst).Nodup) : Ok (m.set i sh) := by
  refine ⟨by simp [h.len], ?_, ?_⟩
  · intro j sh' e
    rw [List.getElem?_set] at e
    split at e
    · next eij =>
      split at e
      · cases e; rw [← eij]; exact hh
      · cases e
    · exact h.home j sh' e
  · intro sh' h'
    rcases List.mem_or_eq_of_mem_set h' with h' | h'
    · exact h.nodup _ h'
    · rw [h']; exact hn

theorem abs_set {m : Map α} (h : Ok m) (i : Nat) (hi : i < shards) (sh : List (UInt64 × α)) (k : UInt64) :
    abs (m.set i sh) k = if hashIndex k 128 = i then sh.lookup k else abs m k := by
  simp only [abs, List.getElem?_set]
  split
  · next e => rw [if_pos e.symm, if_pos (by rw [h.len]; exact hi)]; rfl
  · next e => rw [if_neg fun e' => e e'.symm]

theorem lookup_mem {k : UInt64} {v : α} : ∀ {l : List (UInt64 × α)}, l.lookup k = some v → (k, v) ∈ l
  | [], h => by simp at h
  | (a, b) :: l, h => by
    rw [List.lookup_cons] at h
    split at h
    · next e => cases h; rw [LawfulBEq.eq_of_beq e]; exact List.mem_cons_self
    · exact List.mem_cons_of_mem _ (lookup_mem h)

theorem lookup_of_mem {k : UInt64} {v : α} : ∀ {l : List (UInt64 × α)}, (l.map Prod.fst).Nodup → (k, v) ∈ l →
    l.lookup k = some v
  | [], _, h => by simp at h
  | (a, b) :: l, hn, h => by
    rw [List.map_cons, List.nodup_cons] at hn
    rw [List.lookup_cons]
    rcases List.mem_cons.1 h with h' | h'
    · cases h'; simp only [BEq.rfl]
    · have : (k == a) = false := by
        apply beq_false_of_ne
        rintro rfl
        exact hn.1 (List.mem_map.2 ⟨_, h', rfl⟩)
      rw [this]; exact lookup_of_mem hn.2 h'

theorem lookup_none {k : UInt64} : ∀ {l : List (UInt64 × α)}, l.lookup k = none → ∀ e ∈ l, e.1 ≠ k
  | [], _, e, he => by simp at he
  | (a, b) :: l, h, e, he => by
    rw [List.lookup_cons] at h
    split at h
    · cases h
    · next hb =>
      rcases List.mem_cons.1 he with rfl | he
      · intro hk; rw [← hk] at hb; simp at hb
      · exact lookup_none h e he

theorem lookup_filter {k x : UInt64} : ∀ {l : List (UInt64 × α)},
    (l.filter fun e => e.1 != k).lookup x = if x = k then none else l.lookup x
  | [] => by simp
  | (a, b) :: l => by
    have ih := lookup_filter (k := k) (x := x) (l := l)
    by_cases e : a = k
    · subst e
      rw [List.filter_cons_of_neg (by simp), ih]
      by_cases ex : x = a
      · simp [ex]
      · have : (x == a) = false := by simp [ex]
        simp [ex, List.lookup_cons, this]
    · rw [List.filter_cons_of_pos (by simp [e]), List.lookup_cons, ih, List.lookup_cons]
      by_cases ex : x = a
      · subst ex; simp [e]
      · have : (x == a) = false := by simp [ex]
        simp [this]

theorem getD_home {m : Map α} (h : Ok m) (i : Nat) : ∀ e ∈ m[i]?.getD [], hashIndex e.1 128 = i := by
  intro e he
  cases hi : m[i]? with
  | none => simp [hi] at he
  | some sh => rw [hi] at he; exact h.home i sh hi e he

theorem getD_nodup {m : Map α} (h : Ok m) (i : Nat) : ((m[i]?.getD []).map Prod.fst).Nodup := by
  cases hi : m[i]? with
  | none => simp
  | some sh => exact h.nodup sh (List.mem_of_getElem? hi)

theorem step_ok {m : Map α} (h : Ok m) (o : Op α) :
    Ok (step m o).2 ∧ (step m o).1 = ((abs m).step o).1 ∧ abs (step m o).2 = ((abs m).step o).2 := by
  cases o with
  | insert k v =>
    have hl : (m[hashIndex k 128]?.getD []).lookup k = abs m k := rfl
    simp only [step, CallMap.insert, Abs.step, hl]
    by_cases hs : (abs m k).isSome
    · simp [hs, h]
    · simp only [hs, Bool.false_eq_true, if_false]
      have hk : abs m k = none := by simpa using hs
      refine ⟨h.set ?_ ?_, trivial, ?_⟩
      · intro e he
        rcases List.mem_cons.1 he with rfl | he
        · rfl
        · exact getD_home h _ e he
      · rw [List.map_cons, List.nodup_cons]
        refine ⟨?_, getD_nodup h _⟩
        intro hm
        obtain ⟨e, he, hek⟩ := List.mem_map.1 hm
        exact lookup_none (hl.trans hk) e he hek
      · funext x
        rw [abs_set h _ (hashIndex_lt k)]
        by_cases ex : x = k
        · subst ex; simp
        · rw [if_neg ex]
          split
          · next e =>
            have : (x == k) = false := by simp [ex]
            simp [List.lookup_cons, this, abs, e]
          · rfl
  | remove k =>
    have hl : (m[hashIndex k 128]?.getD []).lookup k = abs m k := rfl
    simp only [step, CallMap.remove, Abs.step, hl]
    cases hk : abs m k with
    | none =>
      refine ⟨h, rfl, ?_⟩
      funext x; by_cases ex : x = k
      · subst ex; simp [hk]
      · simp [ex]
    | some v =>
      refine ⟨h.set ?_ ?_, rfl, ?_⟩
      · intro e he
        exact getD_home h _ e (List.mem_filter.1 he).1
      · exact (getD_nodup h _).sublist (List.Sublist.map _ List.filter_sublist)
      · funext x
        simp only [abs_set h _ (hashIndex_lt k), lookup_filter]
        by_cases ex : x = k
        · subst ex; simp
        · simp only [ex, if_false]
          split
          · next e => simp [abs, e]
          · rfl
  | clearShard i =>
    refine ⟨h.set (by simp) (by simp), rfl, ?_⟩
    funext x
    simp only [step, clearShard, Abs.step]
    by_cases hi : i < shards
    · rw [abs_set h _ hi]; simp
    · have : hashIndex x 128 ≠ i := by have := hashIndex_lt x; omega
      rw [if_neg this, List.set_eq_of_length_le (by rw [h.len]; omega)]

theorem run_ok (os : List (Op α)) : ∀ {m : Map α}, Ok m →
    Ok (run m os).2 ∧ (run m os).1 = ((abs m).run os).1 ∧ abs (run m os).2 = ((abs m).run os).2 := by
  induction os with
  | nil => intro m h; exact ⟨h, rfl, rfl⟩
  | cons o os ih =>
    intro m h
    obtain ⟨h1, h2, h3⟩ := step_ok h o
    obtain ⟨g1, g2, g3⟩ := ih h1
    refine ⟨g1, ?_, ?_⟩
    · simp only [run, Abs.run, g2, h2, h3]
    · simp only [run, Abs.run, g3, h3]

/-- **C28.** The sharded map behaves like one map from ids to contexts: in particular a removal returns the context
inserted under that id and not removed since, or null. -/
theorem C28_map (os : List (Op α)) : (run (new : Map α) os).1 = (Abs.run (fun _ => none) os).1 := by
  have := (run_ok os (Ok.new (α := α))).2.1
  rwa [abs_new] at this

theorem Abs.run_append (a b : List (Op α)) : ∀ f : Abs α,
    Abs.run f (a ++ b) = ((Abs.run f a).1 ++ (Abs.run (Abs.run f a).2 b).1, (Abs.run (Abs.run f a).2 b).2) := by
  induction a with
  | nil => intro f; rfl
  | cons o a ih => intro f; simp [Abs.run, ih]

theorem Abs.step_other (f : Abs α) (k : UInt64) (o : Op α) (h : ∀ v, o ≠ .insert k v) (hf : f k = none) :
    (f.step o).2 k = none := by
  cases o with
  | insert k' v =>
    have : k ≠ k' := by rintro rfl; exact h v rfl
    simp only [Abs.step]; split <;> simp [this, hf]
  | remove k' => simp only [Abs.step]; split <;> simp [hf]
  | clearShard i => simp only [Abs.step]; split <;> simp [hf]

/-- **C28.** Between two insertions under the same id at most one removal returns a context. -/
theorem C28_at_most_once (a b : List (Op α)) (k : UInt64) (hb : ∀ v, .insert k v ∉ b) :
    (run (new : Map α) (a ++ .remove k :: b ++ [.remove k])).1.getLast? = some (.removed none) := by
  have key : ∀ (b : List (Op α)), (∀ v, .insert k v ∉ b) → ∀ f : Abs α, f k = none → (Abs.run f b).2 k = none := by
    intro b
    induction b with
    | nil => intro _ f hf; exact hf
    | cons o b ih =>
      intro hb f hf
      refine ih (fun v hv => hb v (List.mem_cons_of_mem _ hv)) _ (Abs.step_other f k o ?_ hf)
      intro v e; exact hb v (by simp [e])
  rw [C28_map, Abs.run_append, Abs.run_append]
  simp only [Abs.run, Abs.step]
  rw [key b hb _ (by simp), List.getLast?_append]
  simp

/-- The map `j` shards into the iteration that starts at shard `i`, just before that shard is visited. -/
def absAt (between : Nat → List (Op α)) : (j i : Nat) → Abs α → Abs α
  | 0, i, f => (f.run (between i)).2
  | j + 1, i, f => absAt between j (i + 1) (f.run (between i)).2

theorem forEach_ok (between : Nat → List (Op α)) : ∀ n i (m : Map α), Ok m →
    (∀ k v, (k, v) ∈ (forEach between n i m).1 ↔
      ∃ d, d < n ∧ hashIndex k 128 = i + d ∧ absAt between d i (abs m) k = some v) ∧
    ((forEach between n i m).1.map Prod.fst).Nodup := by
  intro n
  induction n with
  | zero => intro i m _; simp [forEach]
  | succ n ih =>
    intro i m h
    obtain ⟨h1, _, h3⟩ := run_ok (between i) h
    obtain ⟨g1, g2⟩ := ih (i + 1) _ h1
    have hv : ∀ k v, (k, v) ∈ ((run m (between i)).2[i]?.getD []) ↔
        hashIndex k 128 = i ∧ ((abs m).run (between i)).2 k = some v := by
      intro k v
      constructor
      · intro he
        have hi := getD_home h1 i _ he
        refine ⟨hi, ?_⟩
        rw [← h3, abs, hi]
        exact lookup_of_mem (getD_nodup h1 i) he
      · rintro ⟨hi, hl⟩
        rw [← h3, abs, hi] at hl
        exact lookup_mem hl
    constructor
    · intro k v
      simp only [forEach, List.mem_append, hv, g1, h3]
      generalize hashIndex k 128 = x
      constructor
      · rintro (⟨hx, hl⟩ | ⟨d, ha, hb, hl⟩)
        · exact ⟨0, by omega, hx, hl⟩
        · exact ⟨d + 1, by omega, by omega, hl⟩
      · rintro ⟨d, ha, hb, hl⟩
        cases d with
        | zero => exact Or.inl ⟨hb, hl⟩
        | succ d => exact Or.inr ⟨d, by omega, by omega, hl⟩
    · simp only [forEach, List.map_append]
      rw [List.nodup_append]
      refine ⟨getD_nodup h1 i, g2, ?_⟩
      intro a ha b hb e
      subst e
      obtain ⟨⟨k, v⟩, he, rfl⟩ := List.mem_map.1 ha
      obtain ⟨⟨k', v'⟩, he', hk⟩ := List.mem_map.1 hb
      have h1' := ((hv k v).1 he).1
      obtain ⟨d, _, h2', _⟩ := (g1 k' v').1 he'
      simp only at hk; subst hk
      generalize hashIndex k' 128 = x at *
      omega

/-- **C28.** An iteration, with any operations of other threads between the shards, visits each id at most once. -/
theorem C28_foreach_once (os : List (Op α)) (between : Nat → List (Op α)) :
    ((forEach between shards 0 (run (new : Map α) os).2).1.map Prod.fst).Nodup :=
  (forEach_ok between _ _ _ (run_ok os Ok.new).1).2

/-- What the map holds after `os` and the operations before the shards `0 … j`. -/
def contents (os : List (Op α)) (between : Nat → List (Op α)) (j : Nat) : Abs α :=
  (Abs.run (fun _ => none) (os ++ (List.range (j + 1)).flatMap between)).2

theorem absAt_eq (between : Nat → List (Op α)) : ∀ j i (f : Abs α),
    absAt between j i f = (f.run ((List.range' i (j + 1)).flatMap between)).2 := by
  intro j
  induction j with
  | zero => intro i f; simp [absAt]
  | succ j ih =>
    intro i f
    rw [absAt, ih, List.range'_succ (n := j + 1), List.flatMap_cons, Abs.run_append]

/-- **C28.** A context is visited if and only if it is in the map at the moment at which its shard is visited. -/
theorem C28_foreach_visits (os : List (Op α)) (between : Nat → List (Op α)) (k : UInt64) (v : α) :
    (k, v) ∈ (forEach between shards 0 (run (new : Map α) os).2).1 ↔
      contents os between (hashIndex k 128) k = some v := by
  suffices ∀ x, hashIndex k 128 = x → x < shards →
      ((k, v) ∈ (forEach between shards 0 (run (new : Map α) os).2).1 ↔ contents os between x k = some v) from
    this _ rfl (hashIndex_lt k)
  intro x hx hlt
  obtain ⟨h1, _, h3⟩ := run_ok os (Ok.new (α := α))
  rw [(forEach_ok between _ _ _ h1).1 k v, h3, abs_new, hx]
  simp only [contents, absAt_eq, Abs.run_append, List.range_eq_range']
  constructor
  · rintro ⟨d, _, e, h⟩
    rw [Nat.zero_add] at e
    rw [e]; exact h
  · intro h; exact ⟨x, hlt, (Nat.zero_add _).symm, h⟩

/-- **C28.** A context that is in the map during the whole iteration is visited, and one that is visited was in the map
at some moment of it. -/
theorem C28_foreach (os : List (Op α)) (between : Nat → List (Op α)) (k : UInt64) (v : α) :
    ((∀ j, j < shards → contents os between j k = some v) →
      (k, v) ∈ (forEach between shards 0 (run (new : Map α) os).2).1) ∧
    ((k, v) ∈ (forEach between shards 0 (run (new : Map α) os).2).1 →
      ∃ j, j < shards ∧ contents os between j k = some v) := by
  rw [C28_foreach_visits]
  exact ⟨fun h => h _ (hashIndex_lt k), fun h => ⟨_, hashIndex_lt k, h⟩⟩

/-- **C28.** Without operations of other threads exactly the outstanding contexts are visited. -/
theorem C28_foreach_alone (os : List (Op α)) (k : UInt64) (v : α) :
    (k, v) ∈ (forEach (fun _ => []) shards 0 (run (new : Map α) os).2).1 ↔
      (Abs.run (fun _ => none) os).2 k = some v := by
  have : ∀ x, contents os (fun _ => []) x = (Abs.run (fun _ => none) os).2 := by
    intro x
    have : (List.range (x + 1)).flatMap (fun _ => ([] : List (Op α))) = [] := by simp
    rw [contents, this, List.append_nil]
  rw [C28_foreach_visits, this]

/-- Non-vacuity: ids in different shards, removal, a second removal, a duplicate. -/
example : (run (new : Map String) [.insert 1 "a", .insert 129 "b", .insert 1 "c", .remove 1, .remove 1, .remove 7]).1 =
    [.inserted, .inserted, .aborted, .removed (some "a"), .removed none, .removed none] := by decide +kernel

example : hashIndex 1 128 ≠ hashIndex 2 128 := by decide +kernel

/-- Non-vacuity: of two entries inserted during an iteration, the one behind the iterator is missed. -/
example : (forEach (fun i => if i = 30 then [.insert 1 "x", .insert 2 "y"] else []) shards 0
      (new : Map String)).1 = [(1, "x")] ∧ hashIndex 2 128 < 30 ∧ 30 < hashIndex 1 128 := by
  decide +kernel

end Verif.Transport.CallMap
