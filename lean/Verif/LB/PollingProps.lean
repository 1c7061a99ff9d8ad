import Verif.LB.Model
/-!
# Property C16: the polling balancer
-/

namespace Verif.LB.Polling

theorem set_same (t : Table) (name : List Char) (v : Infos) : set t name v name = some v := by simp [set]

theorem at_ok {l : List Endpoint} {i : Nat} (h : i < l.length) : at' l i = .ok l[i] := by
  simp [at', h]

/-- One selection, when the list is not empty. -/
theorem next_spec {t : Table} {name : List Char} {c : UInt32} {eps : List Endpoint}
    (h : t name = some ⟨c, eps⟩) (hn : 0 < eps.length) :
    next t name = (set t name ⟨c + 1, eps⟩, .ok (eps[c.toNat % eps.length]'(Nat.mod_lt _ hn))) := by
  unfold next
  rw [h]
  simp only [show ¬ eps.length < 1 by omega, if_false]
  rw [at_ok (Nat.mod_lt _ hn)]

/-- Selections with the counter not wrapping. -/
theorem nexts_spec {t : Table} {name : List Char} {c : UInt32} {eps : List Endpoint} (k : Nat)
    (h : t name = some ⟨c, eps⟩) (hn : 0 < eps.length) (hw : c.toNat + k ≤ 2 ^ 32) :
    (nexts t name k).2 =
      (List.range k).map (fun i => Sel.ok (eps[(c.toNat + i) % eps.length]'(Nat.mod_lt _ hn))) := by
  induction k generalizing t c with
  | zero => rfl
  | succ k ih =>
    rw [nexts, next_spec h hn]
    simp only
    rw [List.range_succ_eq_map, List.map_cons, List.map_map]
    congr 1
    rcases Nat.eq_zero_or_pos k with hk | hk
    · subst hk; rfl
    · have hc : (c + 1).toNat = c.toNat + 1 := by
        rw [UInt32.toNat_add]; exact Nat.mod_eq_of_lt (by simp; omega)
      rw [ih (set_same _ _ _) (by omega)]
      apply List.map_congr_left
      intro i _
      simp only [Function.comp]
      congr 2
      rw [hc]; congr 1; omega

/-- **C16.**  `n` consecutive selections from a list of `n` endpoints return the list, rotated: every
endpoint exactly once (counted with multiplicity if the list has duplicates), at every counter value that
does not wrap meanwhile. -/
theorem C16_full_rotation (t : Table) (name : List Char) (c : UInt32) (eps : List Endpoint)
    (h : t name = some ⟨c, eps⟩) (hw : c.toNat + eps.length ≤ 2 ^ 32) :
    (nexts t name eps.length).2 =
      (eps.drop (c.toNat % eps.length) ++ eps.take (c.toNat % eps.length)).map Sel.ok ∧
    (nexts t name eps.length).2.Perm (eps.map Sel.ok) := by
  have key : (nexts t name eps.length).2 =
      (eps.drop (c.toNat % eps.length) ++ eps.take (c.toNat % eps.length)).map Sel.ok := by
    rcases Nat.eq_zero_or_pos eps.length with hz | hn
    · have : eps = [] := List.length_eq_zero_iff.1 hz
      subst this; simp [nexts]
    · rw [nexts_spec eps.length h hn hw]
      have hm := Nat.mod_lt c.toNat hn
      apply List.ext_getElem
      · simp; omega
      · intro i h1 h2
        simp only [List.length_map, List.length_range] at h1
        simp only [List.getElem_map, List.getElem_range, List.getElem_append, List.length_drop]
        congr 1
        split
        · next hlt =>
          rw [List.getElem_drop]
          congr 1
          rw [← Nat.mod_add_mod, Nat.mod_eq_of_lt (by omega)]
        · next hge =>
          rw [List.getElem_take]
          congr 1
          rw [← Nat.mod_add_mod, Nat.mod_eq_sub_mod (by omega), Nat.mod_eq_of_lt (by omega)]
          omega
  refine ⟨key, ?_⟩
  rw [key]
  refine List.Perm.map _ ?_
  refine List.Perm.trans List.perm_append_comm ?_
  rw [List.take_append_drop]

/-- **C16, range and independence.**  At every counter value, wrapping or not, a selection from a non-empty
list returns a member of the list; a selection for one name leaves the other names alone. -/
theorem C16_in_list (t : Table) (name : List Char) (c : UInt32) (eps : List Endpoint)
    (h : t name = some ⟨c, eps⟩) (hn : eps ≠ []) :
    (∃ e ∈ eps, (next t name).2 = .ok e) ∧ (∀ other, other ≠ name → (next t name).1 other = t other) ∧
      ∃ c', (next t name).1 name = some ⟨c', eps⟩ := by
  have hn' : 0 < eps.length := List.length_pos_iff.2 hn
  rw [next_spec h hn']
  refine ⟨⟨_, List.getElem_mem (Nat.mod_lt c.toNat hn'), rfl⟩, ?_, ⟨c + 1, set_same _ _ _⟩⟩
  intro other ho
  simp [set, ho]

/-- **C16, updates.**  An update that changes neither addresses nor statuses does not restart the rotation;
any other update installs the new list at its first endpoint. -/
theorem C16_update (t : Table) (name : List Char) (new : List Endpoint) :
    (∀ r, t name = some r → r.endpoints.map (fun e => (e.host, e.port, e.status)) =
        new.map (fun e => (e.host, e.port, e.status)) → update t name new = t) ∧
    ((∀ r, t name = some r → r.endpoints.map (fun e => (e.host, e.port, e.status)) ≠
        new.map (fun e => (e.host, e.port, e.status))) → update t name new name = some ⟨0, new⟩) := by
  have diff : ∀ old : List Endpoint, infoDiff old new = false ↔
      old.map (fun e => (e.host, e.port, e.status)) = new.map (fun e => (e.host, e.port, e.status)) := by
    intro old
    unfold infoDiff
    induction old generalizing new with
    | nil => cases new <;> simp
    | cons x xs ih =>
      cases new with
      | nil => simp
      | cons y ys =>
        have := ih ys
        by_cases hl : xs.length = ys.length
        · simp only [hl, ne_eq, not_true_eq_false, if_false] at this
          simp only [List.length_cons, hl, ne_eq, not_true_eq_false, if_false, List.zip_cons_cons,
            List.any_cons, Bool.or_eq_false_iff, List.map_cons, List.cons.injEq, this, Prod.mk.injEq,
            bne_eq_false_iff_eq, and_assoc]
        · simp only [List.length_cons, Nat.add_right_cancel_iff, hl, ne_eq, not_false_eq_true, if_true,
            Bool.true_eq_false, false_iff]
          intro h
          have := congrArg List.length h
          simp at this
          exact hl this
  constructor
  · intro r hr he
    unfold update
    simp [hr, (diff r.endpoints).2 he]
  · intro h
    unfold update
    cases hr : t name with
    | none => exact set_same _ _ _
    | some r =>
      have hd : infoDiff r.endpoints new = true := by
        have := h r hr
        cases hb : infoDiff r.endpoints new with
        | true => rfl
        | false => exact absurd ((diff r.endpoints).1 hb) this
      simp only [hd, if_true]
      exact set_same _ _ _

/-! Non-vacuity, and what happens at the wrap-around of the 32-bit counter. -/

def ep (k : Nat) : Endpoint := ⟨['h'], k, 0, 1, 0⟩

def exTable (c : UInt32) : Table := set (fun _ => none) ['s'] ⟨c, [ep 1, ep 2, ep 3]⟩

example : exTable 7 ['s'] = some ⟨7, [ep 1, ep 2, ep 3]⟩ ∧ (7 : UInt32).toNat + 3 ≤ 2 ^ 32 :=
  ⟨rfl, by decide⟩

example : (nexts (exTable 7) ['s'] 3).2 = [.ok (ep 2), .ok (ep 3), .ok (ep 1)] := by decide

/-- **C16 needs the counter not to wrap.**  With three endpoints, three consecutive selections around the
wrap-around return the first endpoint twice and the third not at all. -/
theorem C16_wrap_skews :
    (nexts (exTable 4294967295) ['s'] 3).2 = [.ok (ep 1), .ok (ep 1), .ok (ep 2)] := by decide

end Verif.LB.Polling
