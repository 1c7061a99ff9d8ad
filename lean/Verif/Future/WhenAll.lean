import Verif.Future.WhenSpec
import Verif.Common.Count
/-!
# `WhenAll`
-/

namespace Verif.Future.When

open Core (Res)

variable {V E : Type} {n : Nat} {s : St V E} {tr : List (Ev V E)}

/-- The callback has counted. -/
def past : Pc V E → Bool
  | .setAll | .done => true
  | _ => false

def Pc.hasResult : Pc V E → Bool
  | .stored | .setAll | .done => true
  | _ => false

structure AllInv (n : Nat) (s : St V E) (tr : List (Ev V E)) : Prop where
  lt : ∀ i, s.pc i ≠ .idle → i < n
  called : ∀ i r, .called i r ∈ tr → s.pc i ≠ .idle
  start : ∀ i r, s.pc i = .start r → .called i r ∈ tr
  noset : ∀ i r, s.pc i ≠ .set r
  has : s.resolved = false → ∀ i, (s.pc i).hasResult = true → ∃ r, s.result i = some r ∧ .called i r ∈ tr
  count : s.counter = u32 (cnt (fun i => past (s.pc i)) n)
  set : ∀ i, s.pc i = .setAll → cnt (fun i => past (s.pc i)) n = n ∧ s.resolved = false
  uniq : ∀ i j, s.pc i = .setAll → s.pc j = .setAll → i = j
  res : s.resolved = true → cnt (fun i => past (s.pc i)) n = n
  full : 0 < n → cnt (fun i => past (s.pc i)) n = n → (∃ i, s.pc i = .setAll) ∨ s.resolved = true
  num : tr.countP Ev.resolves = s.resolved.toNat
  all : ∀ rs, .all rs ∈ tr → rs.length = n ∧ ∀ i, i < n → ∃ r, rs[i]? = some (some r) ∧ .called i r ∈ tr
  only : ∀ e ∈ tr, e.resolves = true → ∃ rs, e = .all rs
  ok : s.crashed = false
  ok' : .crash ∉ tr

theorem allInv_init : AllInv n (init V E) [] := by
  have : cnt (fun i => past ((init V E).pc i)) n = 0 := by
    have : ∀ n, cnt (fun i => past ((init V E).pc i)) n = 0 := by
      intro n; induction n <;> simp_all [cnt, init, past]
    exact this n
  constructor <;> (try simp only [this]) <;> simp [init, u32, Pc.hasResult]
  omega

theorem u32_eq {a n : Nat} (h : a ≤ n) (hn : n < 2 ^ 32) : u32 (u32 (a + 1)) = u32 n ↔ a + 1 = n := by
  unfold u32; omega

@[simp] theorem goto_resolved (s : St V E) (i : Nat) (p : Pc V E) : (s.goto i p).resolved = s.resolved := rfl

theorem goto_pc (s : St V E) (i j : Nat) (p : Pc V E) : (s.goto i p).pc j = if j = i then p else s.pc j := rfl

theorem cnt_same {i : Nat} {p : Pc V E} (h : past p = past (s.pc i)) :
    cnt (fun j => past (if j = i then p else s.pc j)) n = cnt (fun j => past (s.pc j)) n := by
  apply cnt_congr
  intro j _
  split
  · subst_vars; exact h
  · rfl

theorem cnt_add {i : Nat} {p : Pc V E} (hi : i < n) (h : past (s.pc i) = false) (hp : past p = true) :
    cnt (fun j => past (if j = i then p else s.pc j)) n = cnt (fun j => past (s.pc j)) n + 1 := by
  apply cnt_insert hi h
  · simpa using hp
  · intro j hj; simp [hj]

theorem AllInv.step (h : AllInv n s tr) (hn : n < 2 ^ 32) (a : Act V E) :
    AllInv n (step .all n s a).1 (tr ++ (step .all n s a).2) := by
  unfold When.step
  rw [h.ok]
  simp only [Bool.false_eq_true, ↓reduceIte]
  obtain ⟨h1, h2, h3, h4, h5, h6, h7, h8, h9, h10, h11, h12, h13, h14, h15⟩ := h
  cases a with
  | call i r =>
    simp only
    split
    · rename_i hc
      obtain ⟨hc, hp⟩ := hc
      have hp : s.pc i = .idle := by
        cases hpi : s.pc i <;> simp_all [Pc.isIdle]
      have e := cnt_same (n := n) (i := i) (p := .start r) (s := s) (by simp [hp, past])
      constructor <;> try simp only [goto_pc, e]
      · intro j; split
        · intro _; subst_vars; exact hc
        · exact h1 j
      · intro j r' h
        split
        · simp
        · refine h2 j r' ?_
          simp only [List.mem_append, List.mem_singleton, Ev.called.injEq] at h
          grind
      · intro j r'; split
        · intro h; cases h; subst_vars; simp
        · intro h; simp [h3 j r' h]
      · intro j r'; split
        · simp
        · exact h4 j r'
      · intro hr j; split
        · simp [Pc.hasResult]
        · intro h; obtain ⟨r', a, b⟩ := h5 hr j h
          exact ⟨r', a, by simp [b]⟩
      · exact h6
      · intro j; split
        · simp
        · exact h7 j
      · intro j k; split
        · simp
        · split
          · simp
          · exact h8 j k
      · exact h9
      · intro h0 h; rcases h10 h0 h with ⟨j, hj⟩ | h
        · refine .inl ⟨j, ?_⟩
          have : j ≠ i := by rintro rfl; simp [hp] at hj
          simpa [this] using hj
        · exact .inr h
      · simpa [Ev.resolves] using h11
      · intro rs h
        simp only [List.mem_append, List.mem_singleton, reduceCtorEq, or_false] at h
        obtain ⟨a, b⟩ := h12 rs h
        refine ⟨a, fun j hj => ?_⟩
        obtain ⟨r', c, d⟩ := b j hj
        exact ⟨r', c, by simp [d]⟩
      · intro e he hr
        simp only [List.mem_append, List.mem_singleton] at he
        rcases he with he | rfl
        · exact h13 e he hr
        · simp [Ev.resolves] at hr
      · exact h14
      · simpa using h15
    · simpa using ⟨h1, h2, h3, h4, h5, h6, h7, h8, h9, h10, h11, h12, h13, h14, h15⟩
  | step i =>
    simp only [cbStep]
    unfold allStep
    split
    · rename_i r hp
      have hi := h1 i (by simp [hp])
      have hlt : cnt (fun j => past (s.pc j)) n < n := cnt_lt (i := i) hi (by simp [hp, past])
      split
      · have := h9 (by assumption); omega
      · rename_i hr
        have hr : s.resolved = false := by simpa using hr
        have e := cnt_same (n := n) (i := i) (p := .stored) (s := s) (by simp [hp, past])
        rw [List.append_nil]
        constructor <;> try simp only [goto_pc, e, upd_apply]
        · intro j; split
          · intro _; subst_vars; exact hi
          · exact h1 j
        · intro j r' h; split
          · simp
          · exact h2 j r' h
        · intro j r'; split
          · simp
          · exact h3 j r'
        · intro j r'; split
          · simp
          · exact h4 j r'
        · intro _ j; split
          · intro _; subst_vars; exact ⟨r, rfl, h3 _ r hp⟩
          · exact h5 hr j
        · exact h6
        · intro j; split
          · simp
          · exact h7 j
        · intro j k; split
          · simp
          · split
            · simp
            · exact h8 j k
        · exact h9
        · intro h0 h; rcases h10 h0 h with ⟨j, hj⟩ | h
          · refine .inl ⟨j, ?_⟩
            have : j ≠ i := by rintro rfl; simp [hp] at hj
            simpa [this] using hj
          · exact .inr h
        · exact h11
        · exact h12
        · exact h13
        · exact h14
        · exact h15
    · rename_i hp
      have hi := h1 i (by simp [hp])
      have hlt : cnt (fun j => past (s.pc j)) n < n := cnt_lt (i := i) hi (by simp [hp, past])
      have hns : ∀ j, s.pc j ≠ .setAll := fun j hj => by have := (h7 j hj).1; omega
      have hr : s.resolved = false := by
        cases hr : s.resolved
        · rfl
        · have := h9 hr; omega
      have e6 : u32 (s.counter + 1) = u32 (cnt (fun j => past (s.pc j)) n + 1) := by
        rw [h6]; unfold u32; omega
      obtain ⟨r, hr1, hr2⟩ := h5 hr i (by simp [hp, Pc.hasResult])
      simp only []
      split
      · rename_i hc
        have hc' : cnt (fun j => past (s.pc j)) n + 1 = n := by rw [e6] at hc; unfold u32 at hc; omega
        have e := cnt_add (n := n) (i := i) (p := .setAll) (s := s) hi (by simp [hp, past]) rfl
        rw [List.append_nil]
        constructor <;> try simp only [goto_pc, e]
        · intro j; split
          · intro _; subst_vars; exact hi
          · exact h1 j
        · intro j r' h; split
          · simp
          · exact h2 j r' h
        · intro j r'; split
          · simp
          · exact h3 j r'
        · intro j r'; split
          · simp
          · exact h4 j r'
        · intro _ j; split
          · intro _; subst_vars; exact ⟨r, hr1, hr2⟩
          · exact h5 hr j
        · exact e6
        · intro j _; exact ⟨hc', hr⟩
        · intro j k; split
          · split
            · intros; subst_vars; rfl
            · intro _ h; exact absurd h (hns k)
          · intro h; exact absurd h (hns j)
        · intro _; exact hc'
        · intro _ _; exact .inl ⟨i, by simp⟩
        · exact h11
        · exact h12
        · exact h13
        · exact h14
        · exact h15
      · rename_i hc
        have hc' : cnt (fun j => past (s.pc j)) n + 1 ≠ n := by
          intro h; rw [e6, h] at hc; exact hc rfl
        have e := cnt_add (n := n) (i := i) (p := .done) (s := s) hi (by simp [hp, past]) rfl
        constructor <;> try simp only [goto_pc, e]
        · intro j; split
          · intro _; subst_vars; exact hi
          · exact h1 j
        · intro j r' h; split
          · simp
          · exact h2 j r' (by simpa using h)
        · intro j r'; split
          · simp
          · intro h; simp [h3 j r' h]
        · intro j r'; split
          · simp
          · exact h4 j r'
        · intro _ j; split
          · intro _; subst_vars; exact ⟨r, hr1, by simp [hr2]⟩
          · intro h; obtain ⟨r', a, b⟩ := h5 hr j h
            exact ⟨r', a, by simp [b]⟩
        · exact e6
        · intro j; split
          · simp
          · intro h; exact absurd h (hns j)
        · intro j k; split
          · simp
          · intro h; exact absurd h (hns j)
        · intro h; simp [hr] at h
        · intro _ h; exact absurd h hc'
        · simpa [Ev.resolves] using h11
        · intro rs h
          simp only [List.mem_append, List.mem_singleton, reduceCtorEq, or_false] at h
          obtain ⟨a, b⟩ := h12 rs h
          refine ⟨a, fun j hj => ?_⟩
          obtain ⟨r', c, d⟩ := b j hj
          exact ⟨r', c, by simp [d]⟩
        · intro e he hr
          simp only [List.mem_append, List.mem_singleton] at he
          rcases he with he | rfl
          · exact h13 e he hr
          · simp [Ev.resolves] at hr
        · exact h14
        · simpa using h15
    · rename_i hp
      have hi := h1 i (by simp [hp])
      obtain ⟨hful, hr⟩ := h7 i hp
      have e := cnt_same (n := n) (i := i) (p := .done) (s := s) (by simp [hp, past])
      have hns : ∀ j, j ≠ i → s.pc j ≠ .setAll := fun j hj h => hj (h8 j i h hp)
      unfold St.resolve
      simp only [hr, Bool.false_eq_true, ↓reduceIte]
      have hnew : ∀ rs, .all rs ∈ tr ++ [Ev.all (List.map s.result (List.range n)), .finished i] →
          .all rs ∈ tr ∨ rs = List.map s.result (List.range n) := by
        intro rs h
        simpa using h
      have hca : ∀ j r, Ev.called j r ∈ tr ++ [Ev.all (List.map s.result (List.range n)), .finished i] ↔ .called j r ∈ tr := by
        simp
      constructor <;> try simp only [goto_pc, e, hca]
      · intro j; split
        · intro _; subst_vars; exact hi
        · exact h1 j
      · intro j r' h; split
        · simp
        · exact h2 j r' h
      · intro j r'; split
        · simp
        · exact h3 j r'
      · intro j r'; split
        · simp
        · exact h4 j r'
      · intro h; simp at h
      · exact h6
      · intro j; split
        · simp
        · intro h; exact absurd h (hns j ‹_›)
      · intro j k; split
        · simp
        · intro h; exact absurd h (hns j ‹_›)
      · intro _; exact hful
      · simp
      · rw [List.countP_append, h11]
        simp [Ev.resolves, List.countP_cons, hr]
      · intro rs h
        rcases hnew rs h with h | rfl
        · exact h12 rs h
        · refine ⟨by simp, fun j hj => ?_⟩
          have hpj := cnt_all.1 hful j hj
          obtain ⟨r', a, b⟩ := h5 hr j (by cases hq : s.pc j <;> simp_all [past, Pc.hasResult])
          exact ⟨r', by simp [hj, a], b⟩
      · intro e he hr
        simp only [List.mem_append, List.mem_cons, List.not_mem_nil, or_false] at he
        rcases he with he | rfl | rfl
        · exact h13 e he hr
        · exact ⟨_, rfl⟩
        · simp [Ev.resolves] at hr
      · exact h14
      · simpa using h15
    all_goals simpa using ⟨h1, h2, h3, h4, h5, h6, h7, h8, h9, h10, h11, h12, h13, h14, h15⟩

theorem allInv_run (h : AllInv n s tr) (hn : n < 2 ^ 32) (as : List (Act V E)) :
    AllInv n (run .all n s tr as).1 (run .all n s tr as).2 := by
  induction as generalizing s tr with
  | nil => exact h
  | cons a as ih => exact ih (h.step hn a)

end Verif.Future.When
