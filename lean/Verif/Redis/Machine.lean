import Verif.Redis.Items
/-!
# The stack of the reader does what a recursive parser does
-/

namespace Verif.Redis

/-- `n` replies one after the other. -/
def elems (p : Bytes → R (Val × Bytes)) : Nat → Bytes → R (List Val × Bytes)
  | 0, s => .ok ([], s)
  | n + 1, s => (p s).bind fun x => (elems p n x.2).bind fun y => .ok (x.1 :: y.1, y.2)

/-- A reply with at most `d` arrays inside one another. -/
def parse : Nat → Bytes → R (Val × Bytes)
  | 0, s => (item true s).bind fun x =>
    match x.1 with
    | .leaf v => .ok (v, x.2)
    | .array _ => .bad
  | d + 1, s => (item false s).bind fun x =>
    match x.1 with
    | .leaf v => .ok (v, x.2)
    | .array e => (elems (parse d) e.toNat x.2).bind fun y => .ok (.array y.1, y.2)

/-- A reply that may have a serial number. -/
def numbered (d : Nat) (s : Bytes) : R (Val × Bytes) :=
  (serial s).bind fun x => (parse d x.2).bind fun y => .ok (mk x.1 y.1, y.2)

/-- What `GetReply` reads. -/
def readReply (count : Int) (s : Bytes) : R (Val × Bytes) :=
  if 1 < count then (elems (numbered 7) count.toNat s).bind fun y => .ok (.array y.1, y.2) else numbered 8 s

/-- The second half of the body of the loop. -/
def itemStep (count : Int) (fuel : Nat) (st : List Task) (c : Cur) (n : Nat) : R (Val × Nat) :=
  (processItem (st.length - 1) c).bind fun x =>
    match x.1 with
    | .leaf v => (complete st v).bind fun y =>
      match y with
      | .inr v => .ok (v, n + x.2.2)
      | .inl st => getLoop count fuel true st x.2.1 (n + x.2.2)
    | .array e => getLoop count fuel true (push st e) x.2.1 (n + x.2.2)

/-- What follows when a task is done. -/
def goOn (count : Int) (fuel : Nat) (c : Cur) (n : Nat) (r : R (List Task ⊕ Val)) : R (Val × Nat) :=
  r.bind fun y =>
    match y with
    | .inr v => .ok (v, n)
    | .inl st => getLoop count fuel true st c n

theorem getLoop_plain {count : Int} {fuel : Nat} {seq : Bool} {st : List Task} {c : Cur} {n : Nat}
    (h : (!seq || (1 < count && st.length = 2)) = false) :
    getLoop count (fuel + 1) seq st c n = if c.bs = [] then .less else itemStep count fuel st c n := by
  rw [getLoop]
  split
  · rfl
  · simp only [h]
    simp only [bind, R.bind, itemStep, Bool.false_eq_true, if_false]
    cases processItem (st.length - 1) c with
    | ok x =>
      obtain ⟨it, c', k⟩ := x
      simp only
      cases it with
      | leaf v =>
        simp only
        cases complete st v <;> rfl
      | array e => rfl
    | less => rfl
    | bad => rfl
    | overflow => rfl
    | ub => rfl
    | loop => rfl

theorem getLoop_serial {count : Int} {fuel : Nat} {seq : Bool} {st : List Task} {c : Cur} {n : Nat}
    (h : (!seq || (1 < count && st.length = 2)) = true) :
    getLoop count (fuel + 1) seq st c n = if c.bs = [] then .less
      else (processSerialNo c).bind fun x => itemStep count fuel (setNo st x.1) x.2.1 (n + x.2.2) := by
  rw [getLoop]
  split
  · rfl
  · simp only [h]
    simp only [bind, if_true]
    cases processSerialNo c with
    | ok x =>
      obtain ⟨no, c, k⟩ := x
      simp only [R.bind, itemStep]
      cases processItem ((setNo st no).length - 1) c with
      | ok x =>
        obtain ⟨it, c', k⟩ := x
        simp only
        cases it with
        | leaf v =>
          simp only
          cases complete (setNo st no) v <;> rfl
        | array e => rfl
      | less => rfl
      | bad => rfl
      | overflow => rfl
      | ub => rfl
      | loop => rfl
    | less => rfl
    | bad => rfl
    | overflow => rfl
    | ub => rfl
    | loop => rfl

/-- Reading from `s` by `f` gives what `y` says, and then goes on with `fin`; `g` is what is needed of the fuel in addition. -/
def Runs {α : Type} (f : Nat → R (Val × Nat)) (s : Bytes) (n g : Nat) (y : R (α × Bytes)) (fin : α → Nat → Cur → Nat → R (Val × Nat)) : Prop :=
  (∃ a k c n', y = .ok (a, c.rest) ∧ n' + c.rest.length = n + s.length ∧ k + 1 + c.rest.length ≤ s.length + g ∧
      ∀ fuel, f (fuel + k) = fin a fuel c n') ∨
    (y = .less ∧ ∀ fuel, s.length + g ≤ fuel → f fuel = .less) ∨
    (y = .bad ∧ ∀ fuel, s.length + g ≤ fuel → f fuel = .bad) ∨
    (y = .overflow ∧ ∀ fuel, s.length + g ≤ fuel → f fuel = .overflow)

theorem number_shrinks {s r : Bytes} {i : Int} (h : number s = .ok (i, r)) : r.length + 2 ≤ s.length := by
  rw [number] at h
  split at h
  · cases h
  · rename_i l r' hl
    split at h
    · cases h
    · rcases conv_cases l with ⟨j, hj⟩ | hj
      · rw [hj] at h
        simp only [R.bind, R.ok.injEq, Prod.mk.injEq] at h
        rw [line_split hl, ← h.2]
        simp
      · rw [hj] at h; cases h

theorem item_shrinks {deep : Bool} {s r : Bytes} {it : Item} (h : item deep s = .ok (it, r)) : r.length + 1 ≤ s.length := by
  cases s with
  | nil => cases h
  | cons t s =>
    simp only [item] at h
    simp only [List.length_cons]
    split at h
    · split at h
      · cases h
      · split at h
        · split at h
          · cases h
          · rename_i x hx
            cases h
            have := line_split hx
            rw [this]; simp; omega
        · split at h
          · split at h
            · cases h
            · rename_i x hx
              cases h
              have := line_split hx
              rw [this]; simp; omega
          · split at h
            · cases hn : number s with
              | ok x =>
                have := number_shrinks hn
                rw [hn] at h
                simp only [R.bind, R.ok.injEq, Prod.mk.injEq] at h
                rw [← h.2]; omega
              | less => rw [hn] at h; cases h
              | bad => rw [hn] at h; cases h
              | overflow => rw [hn] at h; cases h
              | ub => rw [hn] at h; cases h
              | loop => rw [hn] at h; cases h
            · split at h
              · simp only [bulk] at h
                cases hn : number s with
                | ok x =>
                  have := number_shrinks hn
                  rw [hn] at h
                  simp only [R.bind] at h
                  split at h
                  · rename_i hh
                    split at hh
                    · cases hh; cases h; simp only; omega
                    · split at hh
                      · cases hh
                      · cases hh; cases h; simp only [List.length_drop]; omega
                  all_goals cases h
                | less => rw [hn] at h; cases h
                | bad => rw [hn] at h; cases h
                | overflow => rw [hn] at h; cases h
                | ub => rw [hn] at h; cases h
                | loop => rw [hn] at h; cases h
              · split at h
                · cases h
                · simp only [arrayHead] at h
                  cases hn : number s with
                  | ok x =>
                    have := number_shrinks hn
                    rw [hn] at h
                    simp only [R.bind] at h
                    split at h
                    · cases h; omega
                    · split at h
                      · cases h; omega
                      · cases h; omega
                  | less => rw [hn] at h; cases h
                  | bad => rw [hn] at h; cases h
                  | overflow => rw [hn] at h; cases h
                  | ub => rw [hn] at h; cases h
                  | loop => rw [hn] at h; cases h
    · cases h

theorem complete_top (t : Task) (st : List Task) (e : Int) (ks : List Val) (v : Val) :
    complete ({ t with elements := e, kids := ks } :: st) v = complete (t :: st) v := by
  cases st with
  | nil => simp only [complete]
  | cons p st => rw [complete, complete]

theorem item_deep {s r : Bytes} {e : Int} (h : item true s = .ok (.array e, r)) : False := by
  cases s with
  | nil => cases h
  | cons t s =>
    simp only [item] at h
    split at h
    · split at h
      · cases h
      · split at h
        · split at h <;> cases h
        · split at h
          · split at h <;> cases h
          · split at h
            · cases hn : number s <;> rw [hn] at h <;> cases h
            · split at h
              · cases hn : bulk s <;> rw [hn] at h <;> cases h
              · cases h
    · cases h

theorem item_pos {s r : Bytes} {e : Int} {deep : Bool} (h : item deep s = .ok (.array e, r)) : 0 < e := by
  cases s with
  | nil => cases h
  | cons t s =>
    simp only [item] at h
    split at h
    · split at h
      · cases h
      · split at h
        · split at h <;> cases h
        · split at h
          · split at h <;> cases h
          · split at h
            · cases hn : number s <;> rw [hn] at h <;> cases h
            · split at h
              · cases hn : bulk s <;> rw [hn] at h <;> cases h
              · split at h
                · cases h
                · cases hn : number s with
                  | ok x =>
                    simp only [arrayHead, hn, R.bind] at h
                    split at h
                    · cases h
                    · split at h
                      · cases h; assumption
                      · cases h
                  | less => rw [arrayHead, hn] at h; cases h
                  | bad => rw [arrayHead, hn] at h; cases h
                  | overflow => rw [arrayHead, hn] at h; cases h
                  | ub => rw [arrayHead, hn] at h; cases h
                  | loop => rw [arrayHead, hn] at h; cases h
    · cases h

/-- What a task does whose reply has no type yet. -/
def TaskRuns (count : Int) (d : Nat) : Prop := ∀ (t : Task) (st : List Task) (c : Cur) (n : Nat), (t :: st).length + d = 9 →
  (1 < count → 2 ≤ (t :: st).length) →
  Runs (fun fuel => itemStep count fuel (t :: st) c n) c.rest n 0 (parse d c.rest)
    fun v fuel c' n' => goOn count fuel c' n' (complete (t :: st) v)

theorem bs_nil {c : Cur} (h : c.bs = []) : c.rest = [] := by simp only [Cur.rest, h]

/-- The elements of an array. -/
theorem elems_runs {count : Int} {d : Nat} (ih : TaskRuns count d) (p : Task) (st : List Task) (hd : (p :: st).length + d = 8)
    (hc : 1 < count → 2 ≤ (p :: st).length) (m : Nat) : ∀ (i : Int) (ks : List Val) (c : Cur) (n : Nat), i + (m + 1 : Nat) = p.elements →
    Runs (fun fuel => getLoop count fuel true ({ idx := i } :: { p with kids := ks } :: st) c n) c.rest n 1 (elems (parse d) (m + 1) c.rest)
      fun vs fuel c' n' => goOn count fuel c' n' (complete (p :: st) (.array (ks ++ vs))) := by
  induction m with
  | zero =>
    intro i ks c n hi
    have hplain : (!true || (1 < count && (({ idx := i } :: { p with kids := ks } :: st : List Task)).length = 2)) = false := by
      simp only [List.length_cons] at hc ⊢
      by_cases h1 : 1 < count
      · have := hc h1
        have h3 : ¬st.length + 1 + 1 = 2 := by omega
        simp [h3]
      · simp [h1]
    have hstep : ∀ fuel, getLoop count (fuel + 1) true ({ idx := i } :: { p with kids := ks } :: st) c n =
        if c.bs = [] then .less else itemStep count fuel ({ idx := i } :: { p with kids := ks } :: st) c n := fun fuel => getLoop_plain hplain
    by_cases hb : c.bs = []
    · right; left
      have hr := bs_nil hb
      refine ⟨?_, ?_⟩
      · rw [hr]
        simp only [elems]
        cases d <;> rfl
      · intro fuel hf
        obtain ⟨f, rfl⟩ : ∃ f, fuel = f + 1 := ⟨fuel - 1, by omega⟩
        dsimp only; rw [hstep, if_pos hb]
    · have hA := ih { idx := i } ({ p with kids := ks } :: st) c n (by simp only [List.length_cons] at hd ⊢; omega)
        (by intro h1; simp only [List.length_cons]; omega)
      have hlast : ∀ v, complete ({ idx := i } :: { p with kids := ks } :: st) v = complete (p :: st) (.array (ks ++ [v])) := by
        intro v
        rw [complete]
        have : i = p.elements - 1 := by omega
        simp only [this, if_true, mk]
        exact complete_top p st _ _ _
      rcases hA with ⟨v, k, c', n', h1, h2, h3, h4⟩ | ⟨h1, h2⟩ | ⟨h1, h2⟩ | ⟨h1, h2⟩
      · left
        refine ⟨[v], k + 1, c', n', ?_, h2, by omega, fun fuel => ?_⟩
        · simp only [elems, h1, R.bind]
        · have h4 := h4 fuel; dsimp only at h4 ⊢; rw [← Nat.add_assoc, hstep, if_neg hb, h4, hlast]
      · right; left
        refine ⟨by simp only [elems, h1, R.bind], fun fuel hf => ?_⟩
        obtain ⟨f, rfl⟩ : ∃ f, fuel = f + 1 := ⟨fuel - 1, by omega⟩
        have h2 := h2 f (by omega); dsimp only at h2 ⊢; rw [hstep, if_neg hb, h2]
      · right; right; left
        refine ⟨by simp only [elems, h1, R.bind], fun fuel hf => ?_⟩
        obtain ⟨f, rfl⟩ : ∃ f, fuel = f + 1 := ⟨fuel - 1, by omega⟩
        have h2 := h2 f (by omega); dsimp only at h2 ⊢; rw [hstep, if_neg hb, h2]
      · right; right; right
        refine ⟨by simp only [elems, h1, R.bind], fun fuel hf => ?_⟩
        obtain ⟨f, rfl⟩ : ∃ f, fuel = f + 1 := ⟨fuel - 1, by omega⟩
        have h2 := h2 f (by omega); dsimp only at h2 ⊢; rw [hstep, if_neg hb, h2]
  | succ m ihm =>
    intro i ks c n hi
    have hplain : (!true || (1 < count && (({ idx := i } :: { p with kids := ks } :: st : List Task)).length = 2)) = false := by
      simp only [List.length_cons] at hc ⊢
      by_cases h1 : 1 < count
      · have := hc h1
        have h3 : ¬st.length + 1 + 1 = 2 := by omega
        simp [h3]
      · simp [h1]
    have hstep : ∀ fuel, getLoop count (fuel + 1) true ({ idx := i } :: { p with kids := ks } :: st) c n =
        if c.bs = [] then .less else itemStep count fuel ({ idx := i } :: { p with kids := ks } :: st) c n := fun fuel => getLoop_plain hplain
    rw [elems]
    by_cases hb : c.bs = []
    · right; left
      have hr := bs_nil hb
      refine ⟨?_, ?_⟩
      · rw [hr]
        cases d <;> rfl
      · intro fuel hf
        obtain ⟨f, rfl⟩ : ∃ f, fuel = f + 1 := ⟨fuel - 1, by omega⟩
        dsimp only; rw [hstep, if_pos hb]
    · have hA := ih { idx := i } ({ p with kids := ks } :: st) c n (by simp only [List.length_cons] at hd ⊢; omega)
        (by intro h1; simp only [List.length_cons]; omega)
      have hnext : ∀ v, complete ({ idx := i } :: { p with kids := ks } :: st) v =
          .ok (.inl ({ idx := i + 1 } :: { p with kids := ks ++ [v] } :: st)) := by
        intro v
        rw [complete]
        have h1 : ¬i = p.elements - 1 := by omega
        have h2 : i < p.elements := by omega
        simp only [h1, h2, if_true, if_false, mk]
      rcases hA with ⟨v, k, c', n', h1, h2, h3, h4⟩ | ⟨h1, h2⟩ | ⟨h1, h2⟩ | ⟨h1, h2⟩
      · have hgo : ∀ fuel, getLoop count (fuel + (k + 1)) true ({ idx := i } :: { p with kids := ks } :: st) c n =
            getLoop count fuel true ({ idx := i + 1 } :: { p with kids := ks ++ [v] } :: st) c' n' := by
          intro fuel
          have h4 := h4 fuel; dsimp only at h4; rw [← Nat.add_assoc, hstep, if_neg hb, h4, hnext]
          rfl
        rw [h1]
        simp only [R.bind]
        rcases ihm (i + 1) (ks ++ [v]) c' n' (by omega) with ⟨vs, k2, c2, n2, g1, g2, g3, g4⟩ | ⟨g1, g2⟩ | ⟨g1, g2⟩ | ⟨g1, g2⟩
        · left
          refine ⟨v :: vs, k2 + (k + 1), c2, n2, by rw [g1], by omega, by omega, fun fuel => ?_⟩
          have g4 := g4 fuel
          simp only [List.append_assoc, List.cons_append, List.nil_append] at g4
          dsimp only at g4 ⊢; rw [← Nat.add_assoc, hgo, g4]
        · right; left
          refine ⟨by rw [g1], fun fuel hf => ?_⟩
          obtain ⟨f, rfl⟩ : ∃ f, fuel = f + (k + 1) := ⟨fuel - (k + 1), by omega⟩
          have g2 := g2 f (by omega); dsimp only at g2 ⊢; rw [hgo, g2]
        · right; right; left
          refine ⟨by rw [g1], fun fuel hf => ?_⟩
          obtain ⟨f, rfl⟩ : ∃ f, fuel = f + (k + 1) := ⟨fuel - (k + 1), by omega⟩
          have g2 := g2 f (by omega); dsimp only at g2 ⊢; rw [hgo, g2]
        · right; right; right
          refine ⟨by rw [g1], fun fuel hf => ?_⟩
          obtain ⟨f, rfl⟩ : ∃ f, fuel = f + (k + 1) := ⟨fuel - (k + 1), by omega⟩
          have g2 := g2 f (by omega); dsimp only at g2 ⊢; rw [hgo, g2]
      · right; left
        refine ⟨by rw [h1]; rfl, fun fuel hf => ?_⟩
        obtain ⟨f, rfl⟩ : ∃ f, fuel = f + 1 := ⟨fuel - 1, by omega⟩
        have h2 := h2 f (by omega); dsimp only at h2 ⊢; rw [hstep, if_neg hb, h2]
      · right; right; left
        refine ⟨by rw [h1]; rfl, fun fuel hf => ?_⟩
        obtain ⟨f, rfl⟩ : ∃ f, fuel = f + 1 := ⟨fuel - 1, by omega⟩
        have h2 := h2 f (by omega); dsimp only at h2 ⊢; rw [hstep, if_neg hb, h2]
      · right; right; right
        refine ⟨by rw [h1]; rfl, fun fuel hf => ?_⟩
        obtain ⟨f, rfl⟩ : ∃ f, fuel = f + 1 := ⟨fuel - 1, by omega⟩
        have h2 := h2 f (by omega); dsimp only at h2 ⊢; rw [hstep, if_neg hb, h2]

theorem task_runs (count : Int) (d : Nat) : TaskRuns count d := by
  induction d with
  | zero =>
    intro t st c n hd hc
    have h8 : (decide ((t :: st).length - 1 = 8)) = true := by simp only [decide_eq_true_eq]; omega
    have hs := processItem_sim ((t :: st).length - 1) c
    rw [h8] at hs
    simp only [parse]
    rcases hs with ⟨it, c', k, h1, h2, h3⟩ | ⟨h1, h2⟩ | ⟨h1, h2⟩ | ⟨h1, h2⟩
    · cases it with
      | array e => exact absurd h2 fun h => item_deep h
      | leaf v =>
        have := item_shrinks h2
        left
        refine ⟨v, 0, c', n + k, by rw [h2]; rfl, by omega, by omega, fun fuel => ?_⟩
        simp only [itemStep, h1, goOn]
        rfl
    · exact .inr (.inl ⟨by rw [h2]; rfl, fun fuel _ => by simp only [itemStep, h1, R.bind]⟩)
    · exact .inr (.inr (.inl ⟨by rw [h2]; rfl, fun fuel _ => by simp only [itemStep, h1, R.bind]⟩))
    · exact .inr (.inr (.inr ⟨by rw [h2]; rfl, fun fuel _ => by simp only [itemStep, h1, R.bind]⟩))
  | succ d ih =>
    intro t st c n hd hc
    have h8 : (decide ((t :: st).length - 1 = 8)) = false := by
      simp only [decide_eq_false_iff_not, List.length_cons] at hd ⊢; omega
    have hs := processItem_sim ((t :: st).length - 1) c
    rw [h8] at hs
    simp only [parse]
    rcases hs with ⟨it, c', k, h1, h2, h3⟩ | ⟨h1, h2⟩ | ⟨h1, h2⟩ | ⟨h1, h2⟩
    · have hsh := item_shrinks h2
      cases it with
      | leaf v =>
        left
        refine ⟨v, 0, c', n + k, by rw [h2]; rfl, by omega, by omega, fun fuel => ?_⟩
        simp only [itemStep, h1, goOn]
        rfl
      | array e =>
        have he := item_pos h2
        have hstep : ∀ fuel, itemStep count fuel (t :: st) c n =
            getLoop count fuel true ({ idx := 0 } :: { t with elements := e, kids := [] } :: st) c' (n + k) := by
          intro fuel
          simp only [itemStep, h1, R.bind, push]
        obtain ⟨m, hm⟩ : ∃ m, e.toNat = m + 1 := ⟨e.toNat - 1, by omega⟩
        have hB := elems_runs ih { t with elements := e } st (by simp only [List.length_cons] at hd ⊢; omega)
          (by simpa using hc) m 0 [] c' (n + k) (by simp only; omega)
        rw [h2]
        simp only [R.bind, hm]
        have hfin : ∀ v, complete ({ t with elements := e } :: st) v = complete (t :: st) v := fun v => complete_top t st e t.kids v
        rcases hB with ⟨vs, k2, c2, n2, g1, g2, g3, g4⟩ | ⟨g1, g2⟩ | ⟨g1, g2⟩ | ⟨g1, g2⟩
        · left
          refine ⟨.array vs, k2, c2, n2, by rw [g1], by omega, by omega, fun fuel => ?_⟩
          have g4 := g4 fuel; dsimp only at g4 ⊢; rw [hstep, g4, hfin]
          rfl
        · right; left
          exact ⟨by rw [g1], fun fuel hf => by have g2 := g2 fuel (by omega); dsimp only at g2 ⊢; rw [hstep, g2]⟩
        · right; right; left
          exact ⟨by rw [g1], fun fuel hf => by have g2 := g2 fuel (by omega); dsimp only at g2 ⊢; rw [hstep, g2]⟩
        · right; right; right
          exact ⟨by rw [g1], fun fuel hf => by have g2 := g2 fuel (by omega); dsimp only at g2 ⊢; rw [hstep, g2]⟩
    · exact .inr (.inl ⟨by rw [h2]; rfl, fun fuel _ => by simp only [itemStep, h1, R.bind]⟩)
    · exact .inr (.inr (.inl ⟨by rw [h2]; rfl, fun fuel _ => by simp only [itemStep, h1, R.bind]⟩))
    · exact .inr (.inr (.inr ⟨by rw [h2]; rfl, fun fuel _ => by simp only [itemStep, h1, R.bind]⟩))

theorem serial_shrinks {s r : Bytes} {no : Nat} (h : serial s = .ok (no, r)) : r.length ≤ s.length := by
  cases s with
  | nil => cases h
  | cons t s =>
    simp only [serial] at h
    split at h
    · split at h
      · cases h
      · cases hn : number s with
        | ok x =>
          have := number_shrinks hn
          rw [hn] at h
          simp only [R.bind, R.ok.injEq, Prod.mk.injEq] at h
          rw [← h.2, List.length_cons]; omega
        | less => rw [hn] at h; cases h
        | bad => rw [hn] at h; cases h
        | overflow => rw [hn] at h; cases h
        | ub => rw [hn] at h; cases h
        | loop => rw [hn] at h; cases h
    · cases h; simp

/-- A reply that may have a serial number. -/
theorem numbered_runs (count : Int) {d : Nat} {seq : Bool} (t : Task) (st : List Task) (c : Cur) (n : Nat) (hd : (t :: st).length + d = 9)
    (hc : 1 < count → 2 ≤ (t :: st).length) (ht : t.no = 0) (hs : (!seq || (1 < count && (t :: st).length = 2)) = true) :
    Runs (fun fuel => getLoop count fuel seq (t :: st) c n) c.rest n 1 (numbered d c.rest)
      fun v fuel c' n' => goOn count fuel c' n' (complete (t :: st) v) := by
  have hstep : ∀ fuel, getLoop count (fuel + 1) seq (t :: st) c n = if c.bs = [] then .less
      else (processSerialNo c).bind fun x => itemStep count fuel (setNo (t :: st) x.1) x.2.1 (n + x.2.2) := fun fuel => getLoop_serial hs
  by_cases hb : c.bs = []
  · right; left
    have hr := bs_nil hb
    refine ⟨by rw [hr]; rfl, fun fuel hf => ?_⟩
    obtain ⟨f, rfl⟩ : ∃ f, fuel = f + 1 := ⟨fuel - 1, by omega⟩
    dsimp only
    rw [hstep, if_pos hb]
  · have hsim := processSerialNo_sim c
    rcases hsim with ⟨no, c1, k1, h1, h2, h3⟩ | ⟨h1, h2⟩ | ⟨h1, h2⟩ | ⟨h1, h2⟩
    · have hsh := serial_shrinks h2
      have hstep' : ∀ fuel, getLoop count (fuel + 1) seq (t :: st) c n = itemStep count fuel (setNo (t :: st) no) c1 (n + k1) := by
        intro fuel
        rw [hstep, if_neg hb, h1]
        rfl
      have hset : ∃ t', setNo (t :: st) no = t' :: st ∧ ∀ v, complete (t' :: st) v = complete (t :: st) (mk no v) := by
        refine ⟨{ t with no := no }, rfl, fun v => ?_⟩
        cases st with
        | nil => simp only [complete, ht, mk, if_true]
        | cons p st => rw [complete, complete]; simp only [ht, mk, if_true]
      obtain ⟨t', ht', hfin⟩ := hset
      have hA := task_runs count d t' st c1 (n + k1) (by simpa using hd) (by simpa using hc)
      rw [numbered, h2]
      simp only [R.bind]
      rcases hA with ⟨v, k2, c2, n2, g1, g2, g3, g4⟩ | ⟨g1, g2⟩ | ⟨g1, g2⟩ | ⟨g1, g2⟩
      · left
        refine ⟨mk no v, k2 + 1, c2, n2, by rw [g1], by omega, by omega, fun fuel => ?_⟩
        have g4 := g4 fuel
        dsimp only at g4 ⊢
        rw [← Nat.add_assoc, hstep', ht', g4, hfin]
      · right; left
        refine ⟨by rw [g1], fun fuel hf => ?_⟩
        obtain ⟨f, rfl⟩ : ∃ f, fuel = f + 1 := ⟨fuel - 1, by omega⟩
        have g2 := g2 f (by omega)
        dsimp only at g2 ⊢
        rw [hstep', ht', g2]
      · right; right; left
        refine ⟨by rw [g1], fun fuel hf => ?_⟩
        obtain ⟨f, rfl⟩ : ∃ f, fuel = f + 1 := ⟨fuel - 1, by omega⟩
        have g2 := g2 f (by omega)
        dsimp only at g2 ⊢
        rw [hstep', ht', g2]
      · right; right; right
        refine ⟨by rw [g1], fun fuel hf => ?_⟩
        obtain ⟨f, rfl⟩ : ∃ f, fuel = f + 1 := ⟨fuel - 1, by omega⟩
        have g2 := g2 f (by omega)
        dsimp only at g2 ⊢
        rw [hstep', ht', g2]
    · right; left
      refine ⟨by rw [numbered, h2]; rfl, fun fuel hf => ?_⟩
      obtain ⟨f, rfl⟩ : ∃ f, fuel = f + 1 := ⟨fuel - 1, by omega⟩
      dsimp only
      rw [hstep, if_neg hb, h1]; rfl
    · right; right; left
      refine ⟨by rw [numbered, h2]; rfl, fun fuel hf => ?_⟩
      obtain ⟨f, rfl⟩ : ∃ f, fuel = f + 1 := ⟨fuel - 1, by omega⟩
      dsimp only
      rw [hstep, if_neg hb, h1]; rfl
    · right; right; right
      refine ⟨by rw [numbered, h2]; rfl, fun fuel hf => ?_⟩
      obtain ⟨f, rfl⟩ : ∃ f, fuel = f + 1 := ⟨fuel - 1, by omega⟩
      dsimp only
      rw [hstep, if_neg hb, h1]; rfl

/-- The replies of a pipeline. -/
theorem pipeline_runs {count : Int} (h1 : 1 < count) (m : Nat) : ∀ (seq : Bool) (i : Int) (ks : List Val) (c : Cur) (n : Nat),
    i + (m + 1 : Nat) = count →
    Runs (fun fuel => getLoop count fuel seq [{ idx := i }, { elements := count, idx := -1, kids := ks }] c n) c.rest n 1
      (elems (numbered 7) (m + 1) c.rest) fun vs fuel c' n' => .ok (.array (ks ++ vs), n') := by
  induction m with
  | zero =>
    intro seq i ks c n hi
    have hA := numbered_runs count (d := 7) (seq := seq) { idx := i } [{ elements := count, idx := -1, kids := ks }] c n rfl (fun _ => by simp) rfl
      (by simp [h1])
    have hlast : ∀ v fuel c' n', goOn count fuel c' n' (complete [{ idx := i }, { elements := count, idx := -1, kids := ks }] v) =
        .ok (.array (ks ++ [v]), n') := by
      intro v fuel c' n'
      rw [complete]
      have : i = count - 1 := by omega
      simp only [this, if_true, complete, mk]
      rfl
    rcases hA with ⟨v, k, c', n', h2, h3, h4, h5⟩ | ⟨h2, h3⟩ | ⟨h2, h3⟩ | ⟨h2, h3⟩
    · left
      refine ⟨[v], k, c', n', by simp only [elems, h2, R.bind], h3, h4, fun fuel => ?_⟩
      have h5 := h5 fuel
      dsimp only at h5 ⊢
      rw [h5, hlast]
    · exact .inr (.inl ⟨by simp only [elems, h2, R.bind], h3⟩)
    · exact .inr (.inr (.inl ⟨by simp only [elems, h2, R.bind], h3⟩))
    · exact .inr (.inr (.inr ⟨by simp only [elems, h2, R.bind], h3⟩))
  | succ m ihm =>
    intro seq i ks c n hi
    have hA := numbered_runs count (d := 7) (seq := seq) { idx := i } [{ elements := count, idx := -1, kids := ks }] c n rfl (fun _ => by simp) rfl
      (by simp [h1])
    have hnext : ∀ v fuel c' n', goOn count fuel c' n' (complete [{ idx := i }, { elements := count, idx := -1, kids := ks }] v) =
        getLoop count fuel true [{ idx := i + 1 }, { elements := count, idx := -1, kids := ks ++ [v] }] c' n' := by
      intro v fuel c' n'
      rw [complete]
      have h1 : ¬i = count - 1 := by omega
      have h2 : i < count := by omega
      simp only [h1, h2, if_true, if_false, mk]
      rfl
    rw [elems]
    rcases hA with ⟨v, k, c', n', h2, h3, h4, h5⟩ | ⟨h2, h3⟩ | ⟨h2, h3⟩ | ⟨h2, h3⟩
    · have hgo : ∀ fuel, getLoop count (fuel + k) seq [{ idx := i }, { elements := count, idx := -1, kids := ks }] c n =
          getLoop count fuel true [{ idx := i + 1 }, { elements := count, idx := -1, kids := ks ++ [v] }] c' n' := by
        intro fuel
        have h5 := h5 fuel
        dsimp only at h5
        rw [h5, hnext]
      rw [h2]
      simp only [R.bind]
      rcases ihm true (i + 1) (ks ++ [v]) c' n' (by omega) with ⟨vs, k2, c2, n2, g1, g2, g3, g4⟩ | ⟨g1, g2⟩ | ⟨g1, g2⟩ | ⟨g1, g2⟩
      · left
        refine ⟨v :: vs, k2 + k, c2, n2, by rw [g1], by omega, by omega, fun fuel => ?_⟩
        · have g4 := g4 fuel
          simp only [List.append_assoc, List.cons_append, List.nil_append] at g4
          dsimp only
          rw [← Nat.add_assoc, hgo, g4]
      · right; left
        refine ⟨by rw [g1], fun fuel hf => ?_⟩
        obtain ⟨f, rfl⟩ : ∃ f, fuel = f + k := ⟨fuel - k, by omega⟩
        have g2 := g2 f (by omega)
        dsimp only at g2 ⊢
        rw [hgo, g2]
      · right; right; left
        refine ⟨by rw [g1], fun fuel hf => ?_⟩
        obtain ⟨f, rfl⟩ : ∃ f, fuel = f + k := ⟨fuel - k, by omega⟩
        have g2 := g2 f (by omega)
        dsimp only at g2 ⊢
        rw [hgo, g2]
      · right; right; right
        refine ⟨by rw [g1], fun fuel hf => ?_⟩
        obtain ⟨f, rfl⟩ : ∃ f, fuel = f + k := ⟨fuel - k, by omega⟩
        have g2 := g2 f (by omega)
        dsimp only at g2 ⊢
        rw [hgo, g2]
    · exact .inr (.inl ⟨by rw [h2]; rfl, h3⟩)
    · exact .inr (.inr (.inl ⟨by rw [h2]; rfl, h3⟩))
    · exact .inr (.inr (.inr ⟨by rw [h2]; rfl, h3⟩))

/-- The outcome of the reader, with the bytes skipped given by what the parser leaves. -/
def outcome (s : Bytes) : R (Val × Bytes) → R (Val × Nat)
  | .ok (v, r) => .ok (v, s.length - r.length)
  | .less => .less
  | .bad => .bad
  | .overflow => .overflow
  | .ub => .ub
  | .loop => .loop

theorem Runs.outcome {f : Nat → R (Val × Nat)} {s : Bytes} {y : R (Val × Bytes)} {fin : Val → Nat → Cur → Nat → R (Val × Nat)}
    (h : Runs f s 0 1 y fin) (hf : ∀ v fuel c n, fin v fuel c n = .ok (v, n)) : f (s.length + 1) = outcome s y ∧ y ≠ .ub ∧ y ≠ .loop := by
  rcases h with ⟨v, k, c, n, h1, h2, h3, h4⟩ | ⟨h1, h2⟩ | ⟨h1, h2⟩ | ⟨h1, h2⟩ <;> refine ⟨?_, by rw [h1]; nofun, by rw [h1]; nofun⟩
  · obtain ⟨g, hg⟩ : ∃ g, s.length + 1 = g + k := ⟨s.length + 1 - k, by omega⟩
    rw [hg, h4, hf, h1]
    simp only [Redis.outcome, R.ok.injEq, Prod.mk.injEq, true_and]
    omega
  · rw [h1, h2 _ (Nat.le_refl _)]; rfl
  · rw [h1, h2 _ (Nat.le_refl _)]; rfl
  · rw [h1, h2 _ (Nat.le_refl _)]; rfl

/-- `GetReply` reads what the parser reads. -/
theorem getReply_eq (blocks : List Bytes) (count : Int) :
    getReply blocks count = outcome blocks.flatten (readReply count blocks.flatten) ∧ readReply count blocks.flatten ≠ .ub ∧
      readReply count blocks.flatten ≠ .loop := by
  cases hr : tryReadable blocks 0 with
  | none =>
    have h0 : blocks.flatten = [] := by
      have := tryReadable_none hr
      rwa [rest_start] at this
    rw [getReply, hr, h0]
    rw [readReply]
    simp only
    by_cases h1 : 1 < count
    · obtain ⟨m, hm⟩ : ∃ m, count.toNat = m + 1 := ⟨count.toNat - 1, by omega⟩
      rw [if_pos h1, hm]
      exact ⟨rfl, nofun, nofun⟩
    · rw [if_neg h1]
      exact ⟨rfl, nofun, nofun⟩
  | some c =>
    have hc : c.rest = blocks.flatten := by
      have := (tryReadable_some hr).2
      rwa [rest_start] at this
    rw [getReply, hr]
    simp only
    rw [readReply, ← hc]
    by_cases h1 : 1 < count
    · simp only [h1, if_true]
      obtain ⟨m, hm⟩ : ∃ m, count.toNat = m + 1 := ⟨count.toNat - 1, by omega⟩
      have h := pipeline_runs h1 m false 0 [] c 0 (by omega)
      rw [hm]
      have h' : Runs (fun fuel => getLoop count fuel false [{ idx := 0 }, { elements := count, idx := -1 }] c 0) c.rest 0 1
          ((elems (numbered 7) (m + 1) c.rest).bind fun y => .ok (.array y.1, y.2)) fun v fuel c' n' => .ok (v, n') := by
        rcases h with ⟨vs, k, c', n', h2, h3, h4, h5⟩ | ⟨h2, h3⟩ | ⟨h2, h3⟩ | ⟨h2, h3⟩
        · exact .inl ⟨.array vs, k, c', n', by rw [h2]; rfl, h3, h4, h5⟩
        · exact .inr (.inl ⟨by rw [h2]; rfl, h3⟩)
        · exact .inr (.inr (.inl ⟨by rw [h2]; rfl, h3⟩))
        · exact .inr (.inr (.inr ⟨by rw [h2]; rfl, h3⟩))
      exact h'.outcome fun _ _ _ _ => rfl
    · simp only [h1, if_false]
      have h := numbered_runs count (d := 8) (seq := false) { idx := -1 } [] c 0 rfl (fun h => absurd h h1) rfl rfl
      exact h.outcome fun v fuel c n => by simp only [complete, mk, if_true]; rfl

end Verif.Redis
