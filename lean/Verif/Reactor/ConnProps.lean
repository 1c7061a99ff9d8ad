import Verif.Reactor.Conn

/-!
# C100, C101: TCP connections of the default reactor

The specification is over what users and peers see: the messages that `Send` took, the bytes on the wire, the messages that were reported as written or failed.
-/

namespace Verif.Reactor.Conn

/-- The bytes of a list of messages. -/
def bytesOf (l : List Msg) : List Nat := l.flatMap Msg.bytes

@[simp] theorem bytesOf_nil : bytesOf [] = [] := rfl
@[simp] theorem bytesOf_cons (m : Msg) (l : List Msg) : bytesOf (m :: l) = m.bytes ++ bytesOf l := rfl
theorem bytesOf_append (a b : List Msg) : bytesOf (a ++ b) = bytesOf a ++ bytesOf b := by simp [bytesOf]

/-- The queue `q` is what is left of the messages `A` when the bytes `w` of the first are written. -/
def Split (A : List Msg) (w : List Nat) (q : List Msg) : Prop :=
  (w = [] ∧ A = q) ∨ ∃ a a' r, A = a :: r ∧ q = a' :: r ∧ a.id = a'.id ∧ a.bytes = w ++ a'.bytes ∧ a'.bytes ≠ []

theorem Split.bytes {A : List Msg} {w : List Nat} {q : List Msg} (h : Split A w q) : bytesOf A = w ++ bytesOf q := by
  rcases h with ⟨rfl, rfl⟩ | ⟨a, a', r, rfl, rfl, -, e, -⟩
  · rfl
  · simp [e]

theorem Split.ids {A : List Msg} {w : List Nat} {q : List Msg} (h : Split A w q) : A.map Msg.id = q.map Msg.id := by
  rcases h with ⟨rfl, rfl⟩ | ⟨a, a', r, rfl, rfl, e, -, -⟩
  · rfl
  · simp [e]

theorem Split.push {A : List Msg} {w : List Nat} {q : List Msg} (h : Split A w q) (m : Msg) : Split (A ++ [m]) w (q ++ [m]) := by
  rcases h with ⟨rfl, rfl⟩ | ⟨a, a', r, rfl, rfl, e1, e2, e3⟩
  · exact .inl ⟨rfl, rfl⟩
  · exact .inr ⟨a, a', r ++ [m], rfl, rfl, e1, e2, e3⟩

theorem skip_zero (bs : List (List Nat)) : skip 0 bs = bs := by cases bs <;> simp [skip]

theorem skip_flatten (n : Nat) (bs : List (List Nat)) : (skip n bs).flatten = bs.flatten.drop n := by
  fun_induction skip n bs with
  | case1 => simp
  | case2 => rfl
  | case3 n b bs h0 h ih => rw [ih, List.flatten_cons, List.drop_append, List.drop_eq_nil_of_le (as := b) (by omega), List.nil_append]
  | case4 n b bs h0 h => rw [List.flatten_cons, List.flatten_cons, List.drop_append_of_le_length (by omega)]

theorem skip_solid (n : Nat) (bs : List (List Nat)) (h : ∀ b ∈ bs, b ≠ []) : ∀ b ∈ skip n bs, b ≠ [] := by
  fun_induction skip n bs with
  | case1 => simp
  | case2 => exact h
  | case3 n b bs h0 hb ih => exact ih fun x hx => h x (List.mem_cons_of_mem _ hx)
  | case4 n b bs h0 hb =>
    intro x hx
    rcases List.mem_cons.1 hx with rfl | hx
    · intro e
      have := congrArg List.length e
      simp at this
      omega
    · exact h x (List.mem_cons_of_mem _ hx)

/-- Skipping whole blocks drops them. -/
theorem skip_take (k : Nat) (bs : List (List Nat)) (h : ∀ b ∈ bs, b ≠ []) : skip (bs.take k).flatten.length bs = bs.drop k := by
  induction k generalizing bs with
  | zero => exact skip_zero bs
  | succ k ih =>
    cases bs with
    | nil => rfl
    | cons b bs =>
      have hb : 0 < b.length := List.length_pos_iff.2 (h b (by simp))
      have hn : ((b :: bs).take (k + 1)).flatten.length = b.length + (bs.take k).flatten.length := by rw [List.take_succ_cons, List.flatten_cons, List.length_append]
      rw [hn, skip, if_neg (by omega), if_pos (by omega), Nat.add_sub_cancel_left, ih bs fun x hx => h x (List.mem_cons_of_mem _ hx)]
      rfl

theorem skip_append (n : Nat) (a b : List (List Nat)) (hn : n < a.flatten.length) : skip n (a ++ b) = skip n a ++ b := by
  fun_induction skip n a with
  | case1 => simp at hn
  | case2 => exact skip_zero _
  | case3 n x a h0 h ih =>
    rw [List.flatten_cons, List.length_append] at hn
    rw [List.cons_append, skip, if_neg h0, if_pos h, ih (by omega)]
  | case4 n x a h0 h => rw [List.cons_append, skip, if_neg h0, if_neg h]; rfl

theorem skip_over (n : Nat) (a b : List (List Nat)) (hs : ∀ x ∈ a, x ≠ []) (hn : a.flatten.length ≤ n) : skip n (a ++ b) = skip (n - a.flatten.length) b := by
  induction a generalizing n with
  | nil => simp
  | cons x a ih =>
    have hx : 0 < x.length := List.length_pos_iff.2 (hs x (by simp))
    rw [List.flatten_cons, List.length_append] at hn
    rw [List.cons_append, skip, if_neg (by omega), if_pos (by omega), ih _ (fun y hy => hs y (List.mem_cons_of_mem _ hy)) (by omega)]
    congr 1
    rw [List.flatten_cons, List.length_append]
    omega

theorem bytes_def (m : Msg) : m.bytes = m.blocks.flatten := rfl

theorem blocks_flatten (q : List Msg) : (q.flatMap Msg.blocks).flatten = bytesOf q := by
  induction q with
  | nil => rfl
  | cons m q ih => rw [List.flatMap_cons, List.flatten_append, ih]; rfl

theorem consume_some (n : Nat) (q : List Msg) (hn : n ≤ (bytesOf q).length) : ∃ d q', consume n q = some (d, q') := by
  fun_induction consume n q with
  | case1 => exact ⟨_, _, rfl⟩
  | case2 n h0 => simp at hn; exact absurd hn h0
  | case3 => exact ⟨_, _, rfl⟩
  | case4 n m q h0 h ih =>
    rw [bytesOf_cons, List.length_append] at hn
    obtain ⟨d, q', e⟩ := ih (by omega)
    exact ⟨_, _, by rw [e]; rfl⟩
  | case5 n m q h => exact ⟨_, _, rfl⟩

theorem consume_split {A : List Msg} {w : List Nat} {q q' : List Msg} {d : List Nat} {n : Nat} (h : Split A w q) (hc : consume n q = some (d, q')) :
    ∃ D A' w', A = D ++ A' ∧ d = D.map Msg.id ∧ w ++ (bytesOf q).take n = bytesOf D ++ w' ∧ Split A' w' q' := by
  fun_induction consume n q generalizing A w d q' with
  | case1 => cases hc; exact ⟨[], A, w, rfl, rfl, by simp, h⟩
  | case2 n => cases hc
  | case3 => cases hc; exact ⟨[], A, w, rfl, rfl, by simp, h⟩
  | case4 n m q h0 hm ih =>
    cases hx : consume (n - m.bytes.length) q with
    | none => rw [hx] at hc; cases hc
    | some x =>
      rw [hx] at hc
      obtain ⟨d1, q1⟩ := x
      cases hc
      obtain ⟨D, A', w', e1, e2, e3, e4⟩ := ih (A := q) (w := []) (.inl ⟨rfl, rfl⟩) hx
      have et : (bytesOf (m :: q)).take n = m.bytes ++ (bytesOf q).take (n - m.bytes.length) := by
        rw [bytesOf_cons, List.take_append, List.take_of_length_le hm]
      rcases h with ⟨rfl, rfl⟩ | ⟨a, a', r, rfl, hq, ei, eb, -⟩
      · refine ⟨m :: D, A', w', by rw [e1]; rfl, by rw [e2]; rfl, ?_, e4⟩
        rw [et, List.nil_append] at *
        rw [e3]; simp
      · cases hq
        refine ⟨a :: D, A', w', by rw [e1]; rfl, by rw [e2, ← ei]; rfl, ?_, e4⟩
        rw [et, bytesOf_cons, eb]
        rw [List.nil_append] at e3
        rw [e3]; simp
  | case5 n m q h0 hm =>
    cases hc
    have hb : ({ m with blocks := skip n m.blocks } : Msg).bytes = m.bytes.drop n := skip_flatten _ _
    have hne : m.bytes.drop n ≠ [] := by
      intro e
      have := congrArg List.length e
      simp at this
      omega
    have et : (bytesOf (m :: q)).take n = m.bytes.take n := by
      rw [bytesOf_cons, List.take_append_of_le_length (by omega)]
    rw [et]
    rcases h with ⟨rfl, rfl⟩ | ⟨a, a', r, rfl, hq, ei, eb, -⟩
    · exact ⟨[], _, m.bytes.take n, rfl, rfl, rfl, .inr ⟨m, _, q, rfl, rfl, rfl, by rw [hb, List.take_append_drop], by rw [hb]; exact hne⟩⟩
    · cases hq
      exact ⟨[], _, w ++ m.bytes.take n, rfl, rfl, rfl, .inr ⟨a, _, q, rfl, rfl, ei, by rw [hb, eb, List.append_assoc, List.take_append_drop], by rw [hb]; exact hne⟩⟩

theorem consume_bytes {q q' : List Msg} {d : List Nat} {n : Nat} (hc : consume n q = some (d, q')) : bytesOf q' = (bytesOf q).drop n := by
  obtain ⟨D, A', w', e1, -, e3, e4⟩ := consume_split (A := q) (w := []) (.inl ⟨rfl, rfl⟩) hc
  have h1 := e4.bytes
  have h2 : bytesOf q = bytesOf D ++ (w' ++ bytesOf q') := by rw [e1, bytesOf_append, h1]
  rw [List.nil_append] at e3
  by_cases hn : n ≤ (bytesOf q).length
  · have hl : (bytesOf D ++ w').length = n := by rw [← e3, List.length_take]; omega
    rw [h2, ← List.append_assoc, List.drop_append_of_le_length (by omega), List.drop_eq_nil_of_le (by omega), List.nil_append]
  · have : (bytesOf q).take n = bytesOf q := List.take_of_length_le (by omega)
    rw [this] at e3
    rw [e3] at h2
    have h3 := congrArg List.length h2
    simp only [List.length_append] at h3
    have : bytesOf q' = [] := List.length_eq_zero_iff.1 (by omega)
    rw [this, List.drop_eq_nil_of_le (by omega)]

/-- If messages have no empty blocks, the blocks that are left are those that were not written. -/
theorem consume_blocks {q q' : List Msg} {d : List Nat} {n : Nat} (hs : ∀ m ∈ q, m.Solid) (hc : consume n q = some (d, q')) :
    q'.flatMap Msg.blocks = skip n (q.flatMap Msg.blocks) ∧ ∀ m ∈ q', m.Solid := by
  fun_induction consume n q generalizing d q' with
  | case1 => cases hc; exact ⟨rfl, hs⟩
  | case2 n => cases hc
  | case3 => cases hc; exact ⟨(skip_zero _).symm, hs⟩
  | case4 n m q h0 hm ih =>
    cases hx : consume (n - m.bytes.length) q with
    | none => rw [hx] at hc; cases hc
    | some x =>
      rw [hx] at hc
      obtain ⟨d1, q1⟩ := x
      cases hc
      obtain ⟨h1, h2⟩ := ih (fun x hx => hs x (List.mem_cons_of_mem _ hx)) hx
      refine ⟨?_, h2⟩
      rw [h1, List.flatMap_cons, skip_over _ _ _ (hs m (by simp)) hm]
      rfl
  | case5 n m q h0 hm =>
    cases hc
    constructor
    · rw [List.flatMap_cons, List.flatMap_cons, skip_append _ _ _ (by rw [← bytes_def]; omega)]
    · intro x hx
      rcases List.mem_cons.1 hx with rfl | hx
      · exact skip_solid _ _ (hs m (by simp))
      · exact hs x (List.mem_cons_of_mem _ hx)

/-! ## Invariants -/

/-- What holds at all times: the first `D` messages were written and reported, of the rest the bytes `w`. -/
structure Books (c : C) : Prop where
  live : c.st ≠ .closed → c.failed = [] ∧ ∃ D A w, c.acc = D ++ A ∧ c.done = D.map Msg.id ∧ c.wire = bytesOf D ++ w ∧ Split A w c.q
  over : c.st = .closed → c.q = [] ∧ ∃ D A w q, c.acc = D ++ A ∧ c.done = D.map Msg.id ∧ c.failed = A.map Msg.id ∧ c.wire = bytesOf D ++ w ∧ Split A w q
  size : c.size = (bytesOf c.q).length % 2 ^ 32
  solid : ∀ m ∈ c.q, m.Solid

/-- What holds between the calls. -/
structure Inv (c : C) : Prop where
  books : Books c
  idle : c.st ≠ .closed → c.direct = true → bytesOf c.q = []
  arm : c.st ≠ .closed → c.direct = false → c.armed = true
  wait : c.st = .connecting → c.armed = true

theorem Books.close {c : C} (h : Books c) : Books c.close ∧ c.close.st = .closed := by
  unfold C.close
  split
  · rename_i hc; exact ⟨h, hc⟩
  · rename_i hc
    obtain ⟨hf, D, A, w, e1, e2, e3, e4⟩ := h.live hc
    refine ⟨⟨(fun hh => absurd rfl hh), (fun _ => ⟨rfl, D, A, w, c.q, e1, e2, ?_, e3, e4⟩), rfl, ?_⟩, rfl⟩
    · dsimp only; rw [hf, e4.ids]; rfl
    · intro m hm; cases hm

theorem Inv.ofClosed {c : C} (h : Books c) (hc : c.st = .closed) : Inv c :=
  ⟨h, fun hh => absurd hc hh, fun hh => absurd hc hh, fun hh => by rw [hc] at hh; cases hh⟩

theorem Books.flags {c : C} (h : Books c) (a b : Bool) : Books { c with direct := a, armed := b } := ⟨h.live, h.over, h.size, h.solid⟩

theorem Books.push {c : C} (h : Books c) (hc : c.st ≠ .closed) {m : Msg} (hm : m.Solid) : Books (c.push m) := by
  obtain ⟨hf, D, A, w, e1, e2, e3, e4⟩ := h.live hc
  refine ⟨fun _ => ⟨hf, D, A ++ [m], w, ?_, e2, e3, e4.push m⟩, fun hh => absurd hh hc, ?_, ?_⟩
  · show c.acc ++ [m] = _; rw [e1, List.append_assoc]
  · show (c.size + m.bytes.length) % 2 ^ 32 = (bytesOf (c.q ++ [m])).length % 2 ^ 32
    rw [h.size, bytesOf_append, List.length_append, bytesOf_cons, bytesOf_nil, List.append_nil]
    omega
  · intro x hx
    rcases List.mem_append.1 hx with hx | hx
    · exact h.solid x hx
    · rw [List.mem_singleton.1 hx]; exact hm

theorem pushes_same (l : List Msg) (c : C) : (l.foldl C.push c).st = c.st ∧ (l.foldl C.push c).direct = c.direct ∧ (l.foldl C.push c).armed = c.armed := by
  induction l generalizing c with
  | nil => exact ⟨rfl, rfl, rfl⟩
  | cons m l ih => exact ih (c.push m)

theorem Books.pushes {c : C} (h : Books c) (hc : c.st ≠ .closed) {l : List Msg} (hl : ∀ m ∈ l, m.Solid) : Books (l.foldl C.push c) := by
  induction l generalizing c with
  | nil => exact h
  | cons m l ih => exact ih (h.push hc (hl m (by simp))) hc fun x hx => hl x (List.mem_cons_of_mem _ hx)

/-- One `writev`. -/
theorem Books.wrote {c : C} (h : Books c) (hc : c.st ≠ .closed) {n : Nat} {d : List Nat} {q : List Msg} (hn : n ≤ (gather c.q).flatten.length) (hq : consume n c.q = some (d, q)) :
    Books { c with q := q, size := (c.size + 2 ^ 32 - n % 2 ^ 32) % 2 ^ 32, wire := c.wire ++ (gather c.q).flatten.take n, done := c.done ++ d } := by
  obtain ⟨hf, D, A, w, e1, e2, e3, e4⟩ := h.live hc
  obtain ⟨D', A', w', f1, f2, f3, f4⟩ := consume_split e4 hq
  have ht : (gather c.q).flatten.take n = (bytesOf c.q).take n := by
    have : bytesOf c.q = (gather c.q).flatten ++ ((c.q.flatMap Msg.blocks).drop 16).flatten := by
      rw [← blocks_flatten, gather, ← List.flatten_append, List.take_append_drop]
    rw [this, List.take_append_of_le_length hn]
  have hle : n ≤ (bytesOf c.q).length := by
    have : bytesOf c.q = (gather c.q).flatten ++ ((c.q.flatMap Msg.blocks).drop 16).flatten := by
      rw [← blocks_flatten, gather, ← List.flatten_append, List.take_append_drop]
    rw [this, List.length_append]; omega
  refine ⟨fun _ => ⟨hf, D ++ D', A', w', ?_, ?_, ?_, f4⟩, fun hh => absurd hh hc, ?_, (consume_blocks h.solid hq).2⟩
  · show c.acc = _; rw [e1, f1, List.append_assoc]
  · show c.done ++ d = _; rw [e2, f2, List.map_append]
  · show c.wire ++ _ = _; rw [ht, e3, bytesOf_append, List.append_assoc, f3, List.append_assoc]
  · show (c.size + 2 ^ 32 - n % 2 ^ 32) % 2 ^ 32 = (bytesOf q).length % 2 ^ 32
    rw [consume_bytes hq, List.length_drop, h.size]
    omega

/-- The loop, entered with all blocks but `index` still in the queue. -/
theorem loop_inv {total : Nat} {outs : List Out} {c : C} {index : Nat} (h : Books c) (hc : c.st ≠ .closed) (hd : c.direct = true)
    (ha : c.st = .connecting → c.armed = true) (hi : index + (c.q.flatMap Msg.blocks).length = total) :
    c.loop total index outs ≠ .ub ∧ ∀ c' r, c.loop total index outs = .ret c' r → Inv c' ∧ (r = false → c'.st = .closed) ∧ (r = true → c'.st = c.st) ∧ c'.acc = c.acc := by
  have stop : total ≤ index → Inv c := by
    intro hle
    refine ⟨h, ?_, (fun _ hf => by rw [hd] at hf; cases hf), ha⟩
    intro _ _
    rw [← blocks_flatten, List.length_eq_zero_iff.1 (show (c.q.flatMap Msg.blocks).length = 0 by omega)]
    rfl
  induction outs generalizing c index with
  | nil =>
    rw [C.loop]
    split
    · rename_i hle
      exact ⟨(by intro e; cases e), (by intro c' r e; cases e; exact ⟨stop hle, (by intro e; cases e), fun _ => rfl, rfl⟩)⟩
    · exact ⟨(by intro e; cases e), (by intro c' r e; cases e)⟩
  | cons o outs ih =>
    rw [C.loop]
    split
    · rename_i hle
      exact ⟨(by intro e; cases e), (by intro c' r e; cases e; exact ⟨stop hle, (by intro e; cases e), fun _ => rfl, rfl⟩)⟩
    · rename_i hlt
      cases o with
      | intr => exact ih h hc hd ha hi stop
      | again =>
        refine ⟨(by intro e; cases e), ?_⟩
        intro c' r e
        cases e
        exact ⟨⟨h.flags _ _, (fun _ hf => by cases hf), fun _ _ => rfl, fun _ => rfl⟩, (by intro e; cases e), fun _ => rfl, rfl⟩
      | err =>
        refine ⟨(by intro e; cases e), ?_⟩
        intro c' r e
        cases e
        have := (h.flags false c.armed).close
        refine ⟨.ofClosed this.1 this.2, fun _ => this.2, (by intro e; cases e), ?_⟩
        unfold C.close
        split <;> rfl
      | ok n =>
        dsimp only
        split
        · exact ⟨(by intro e; cases e), (by intro c' r e; cases e)⟩
        · rename_i hn
          have hn : n ≤ (gather c.q).flatten.length := by omega
          have hg : (gather c.q).flatten = ((c.q.flatMap Msg.blocks).take 16).flatten := rfl
          have hle : n ≤ (bytesOf c.q).length := by
            rw [← blocks_flatten, ← List.take_append_drop 16 (c.q.flatMap Msg.blocks), List.flatten_append, List.length_append, ← hg]; omega
          obtain ⟨d, q, hq⟩ := consume_some n c.q hle
          rw [hq]
          dsimp only
          have hb := h.wrote hc hn hq
          split
          · refine ⟨(by intro e; cases e), ?_⟩
            intro c' r e
            cases e
            exact ⟨⟨hb.flags _ _, (fun _ hf => by cases hf), fun _ _ => rfl, fun _ => rfl⟩, (by intro e; cases e), fun _ => rfl, rfl⟩
          · rename_i hfull
            have hnn : n = ((c.q.flatMap Msg.blocks).take 16).flatten.length := by rw [← hg]; omega
            have hbl : q.flatMap Msg.blocks = (c.q.flatMap Msg.blocks).drop 16 := by
              rw [(consume_blocks h.solid hq).1, hnn]
              apply skip_take
              intro b hb'
              obtain ⟨m, hm, hb'⟩ := List.mem_flatMap.1 hb'
              exact h.solid m hm b hb'
            have hi' : index + (gather c.q).length + (q.flatMap Msg.blocks).length = total := by
              rw [hbl, gather, List.length_take, List.length_drop]; omega
            refine ih hb hc hd ha hi' ?_
            intro hle
            refine ⟨hb, ?_, (fun _ hf => by rw [show c.direct = false from hf] at hd; cases hd), ha⟩
            intro _ _
            show bytesOf q = []
            rw [← blocks_flatten, List.length_eq_zero_iff.1 (show (q.flatMap Msg.blocks).length = 0 by omega)]
            rfl

theorem write_inv {outs : List Out} {c : C} (h : Books c) (hc : c.st ≠ .closed) (ha : c.st = .connecting → c.armed = true) :
    c.write outs ≠ .ub ∧ ∀ c' r, c.write outs = .ret c' r → Inv c' ∧ (r = false → c'.st = .closed) ∧ (r = true → c'.st = c.st) ∧ c'.acc = c.acc := by
  unfold C.write
  dsimp only
  split
  · rename_i hq
    refine ⟨(by intro e; cases e), ?_⟩
    intro c' r e
    cases e
    exact ⟨⟨h.flags _ _, (fun _ _ => by show bytesOf c.q = []; rw [hq]; rfl), (fun _ hf => by cases hf), ha⟩, (by intro e; cases e), fun _ => rfl, rfl⟩
  · exact loop_inv (h.flags true c.armed) hc rfl ha (by simp)

theorem handleWrite_inv {pre : Pre} {outs : List Out} {c : C} (h : Books c) (hp : pre.Solid) (hcl : c.st = .closed → Inv c) :
    c.handleWrite pre outs ≠ .ub ∧ ∀ c' r, c.handleWrite pre outs = .ret c' r → Inv c' ∧ (r = false → c'.st = .closed) ∧ (r = true → c'.st ≠ .closed) ∧ c.acc <+: c'.acc := by
  unfold C.handleWrite
  split
  · rename_i hc
    refine ⟨(by intro e; cases e), ?_⟩
    intro c' r e
    cases e
    exact ⟨hcl hc, fun _ => hc, (by intro e; cases e), List.prefix_refl _⟩
  · rename_i hc
    have := write_inv (outs := outs) h (by rw [hc]; intro e; cases e) (by rw [hc]; intro e; cases e)
    refine ⟨this.1, fun c' r e => ?_⟩
    obtain ⟨h1, h2, h3, h4⟩ := this.2 c' r e
    exact ⟨h1, h2, (fun hr => by rw [h3 hr, hc]; intro e; cases e), by rw [h4]; exact List.prefix_refl _⟩
  · rename_i hc
    cases pre with
    | fail =>
      refine ⟨(by intro e; cases e), ?_⟩
      intro c' r e
      cases e
      refine ⟨.ofClosed h.close.1 h.close.2, fun _ => h.close.2, (by intro e; cases e), ?_⟩
      unfold C.close
      split <;> exact List.prefix_refl _
    | pending =>
      have := write_inv (outs := outs) (h.flags c.direct true) (by show c.st ≠ _; rw [hc]; intro e; cases e) (fun _ => rfl)
      refine ⟨this.1, fun c' r e => ?_⟩
      obtain ⟨h1, h2, h3, h4⟩ := this.2 c' r e
      exact ⟨h1, h2, (fun hr => by rw [h3 hr]; show c.st ≠ _; rw [hc]; intro e; cases e), by rw [h4]; exact List.prefix_refl _⟩
    | up l =>
      have hb : Books ({ c with st := .connected } : C) :=
        ⟨fun _ => h.live (by rw [hc]; intro e; cases e), (fun e => by cases e), h.size, h.solid⟩
      have hb := hb.pushes (by intro e; cases e) hp
      obtain ⟨s1, s2, s3⟩ := pushes_same l ({ c with st := .connected } : C)
      have := write_inv (outs := outs) hb (by rw [s1]; intro e; cases e) (by rw [s1]; intro e; cases e)
      refine ⟨this.1, fun c' r e => ?_⟩
      obtain ⟨h1, h2, h3, h4⟩ := this.2 c' r e
      refine ⟨h1, h2, (fun hr => by rw [h3 hr, s1]; intro e; cases e), ?_⟩
      rw [h4]
      have : ∀ (l : List Msg) (c : C), c.acc <+: (l.foldl C.push c).acc := by
        intro l
        induction l with
        | nil => intro c; exact List.prefix_refl _
        | cons m l ih => intro c; exact (List.prefix_append _ _).trans (ih (c.push m))
      exact this l ({ c with st := .connected } : C)

theorem send_inv {m : Msg} {pre : Pre} {outs : List Out} {c : C} (h : Inv c) (hm : m.Solid) (hp : pre.Solid) (hc : c.st ≠ .closed) :
    c.send m pre outs ≠ .ub ∧ ∀ c' r, c.send m pre outs = .ret c' r → Inv c' ∧ (r = true → c'.st ≠ .closed ∧ c.acc ++ [m] <+: c'.acc) ∧
      (r = false → (c' = c ∧ c.st = .connecting ∧ 1024 ≤ c.q.length) ∨ (c'.st = .closed ∧ c.acc ++ [m] <+: c'.acc)) := by
  unfold C.send
  split
  · rename_i hfull
    refine ⟨(by intro e; cases e), ?_⟩
    intro c' r e
    cases e
    exact ⟨h, (by intro e; cases e), fun _ => .inl ⟨rfl, hfull⟩⟩
  · have hb := h.books.push hc hm
    have key := handleWrite_inv (pre := pre) (outs := outs) hb hp (fun e => absurd e hc)
    have key2 : (c.push m).handleWrite pre outs ≠ .ub ∧ ∀ c' r, (c.push m).handleWrite pre outs = .ret c' r → Inv c' ∧ (r = true → c'.st ≠ .closed ∧ c.acc ++ [m] <+: c'.acc) ∧
      (r = false → (c' = c ∧ c.st = .connecting ∧ 1024 ≤ c.q.length) ∨ (c'.st = .closed ∧ c.acc ++ [m] <+: c'.acc)) := by
      refine ⟨key.1, fun c' r e => ?_⟩
      obtain ⟨h1, h2, h3, h4⟩ := key.2 c' r e
      exact ⟨h1, fun hr => ⟨h3 hr, h4⟩, fun hr => .inr ⟨h2 hr, h4⟩⟩
    dsimp only
    split
    · exact key2
    · rename_i hnc
      have hnc' : c.st ≠ .connecting := hnc
      split
      · exact key2
      · split
        · refine ⟨(by intro e; cases e), ?_⟩
          intro c' r e
          cases e
          exact ⟨⟨hb.flags _ _, (fun _ hf => by cases hf), fun _ _ => rfl, fun _ => rfl⟩, fun _ => ⟨hc, List.prefix_refl _⟩, (by intro e; cases e)⟩
        · rename_i hd
          have hd : c.direct = false := by simpa [C.push] using hd
          refine ⟨(by intro e; cases e), ?_⟩
          intro c' r e
          cases e
          exact ⟨⟨hb, (fun _ hf => by rw [show c.direct = true from hf] at hd; cases hd), fun _ _ => h.arm hc hd, fun hw => absurd hw hnc'⟩, fun _ => ⟨hc, List.prefix_refl _⟩, (by intro e; cases e)⟩

theorem step_inv {c : C} (h : Inv c) {i : In} (hf : i.Fit c) : c.step i ≠ .ub ∧ ∀ c' r, c.step i = .ret c' r → Inv c' := by
  cases i with
  | send m pre outs =>
    have := send_inv (pre := pre) (outs := outs) h hf.2.1 hf.2.2 hf.1
    exact ⟨this.1, fun c' r e => (this.2 c' r e).1⟩
  | event pre outs =>
    have := handleWrite_inv (pre := pre) (outs := outs) (h.books.flags c.direct false) hf
      (fun e => .ofClosed (h.books.flags c.direct false) e)
    exact ⟨this.1, fun c' r e => (this.2 c' r e).1⟩
  | close =>
    refine ⟨(by intro e; cases e), ?_⟩
    intro c' r e
    cases e
    exact .ofClosed h.books.close.1 h.books.close.2

theorem Reach.inv {c : C} (h : Reach true c) : Inv c := by
  induction h with
  | client =>
    exact ⟨⟨fun _ => ⟨rfl, [], [], [], rfl, rfl, rfl, .inl ⟨rfl, rfl⟩⟩, (fun e => by cases e), rfl, (fun m hm => by cases hm)⟩, fun _ _ => rfl, fun _ _ => rfl, fun _ => rfl⟩
  | server =>
    exact ⟨⟨fun _ => ⟨rfl, [], [], [], rfl, rfl, rfl, .inl ⟨rfl, rfl⟩⟩, (fun e => by cases e), rfl, (fun m hm => by cases hm)⟩, fun _ _ => rfl, fun _ _ => rfl, fun _ => rfl⟩
  | step _ i hf hs ih => exact (step_inv ih (hf rfl)).2 _ _ hs

/-! ## Properties -/

/-- **C100a.** The bytes on the wire are those of the messages that `Send` took, in this order, from the first one on. -/
theorem C100_wire {c : C} (h : Reach true c) : c.wire <+: c.acc.flatMap Msg.bytes := by
  show c.wire <+: bytesOf c.acc
  by_cases hc : c.st = .closed
  · obtain ⟨-, D, A, w, q, e1, -, -, e3, e4⟩ := h.inv.books.over hc
    rw [e1, e3, bytesOf_append, e4.bytes, ← List.append_assoc]
    exact List.prefix_append _ _
  · obtain ⟨-, D, A, w, e1, -, e3, e4⟩ := h.inv.books.live hc
    rw [e1, e3, bytesOf_append, e4.bytes, ← List.append_assoc]
    exact List.prefix_append _ _

/-- **C100b.** Messages are reported in order and at most once. Those that are reported as written have been written. On an open connection none has failed; when it is closed all others have. -/
theorem C100_reports {c : C} (h : Reach true c) : c.done <+: c.acc.map Msg.id ∧ (c.acc.take c.done.length).flatMap Msg.bytes <+: c.wire ∧
    (c.st ≠ .closed → c.failed = []) ∧ (c.st = .closed → c.done ++ c.failed = c.acc.map Msg.id) := by
  have take : ∀ D A : List Msg, (D ++ A).take (D.map Msg.id).length = D := by intro D A; simp
  by_cases hc : c.st = .closed
  · obtain ⟨-, D, A, w, q, e1, e2, e5, e3, e4⟩ := h.inv.books.over hc
    refine ⟨?_, ?_, fun hh => absurd hc hh, fun _ => ?_⟩
    · rw [e1, e2, List.map_append]; exact List.prefix_append _ _
    · rw [e1, e2, take, e3]; exact List.prefix_append _ _
    · rw [e1, e2, e5, List.map_append]
  · obtain ⟨hf, D, A, w, e1, e2, e3, e4⟩ := h.inv.books.live hc
    refine ⟨?_, ?_, fun _ => hf, fun hh => absurd hh hc⟩
    · rw [e1, e2, List.map_append]; exact List.prefix_append _ _
    · rw [e1, e2, take, e3]; exact List.prefix_append _ _

/-- **C100c.** A message that has been written is reported at once, if it has any bytes: the first one that is not reported is not on the wire. -/
theorem C100_prompt {c : C} (h : Reach true c) {m : Msg} (hm : c.acc[c.done.length]? = some m) (hb : m.bytes ≠ []) :
    c.wire.length < ((c.acc.take (c.done.length + 1)).flatMap Msg.bytes).length := by
  have key : ∀ (D A : List Msg) (w : List Nat) (q : List Msg), c.acc = D ++ A → c.done = D.map Msg.id → c.wire = bytesOf D ++ w → Split A w q →
      c.wire.length < (bytesOf (c.acc.take (c.done.length + 1))).length := by
    intro D A w q e1 e2 e3 e4
    rw [e1, e2, List.length_map] at hm
    rw [List.getElem?_append_right (Nat.le_refl _), Nat.sub_self] at hm
    cases A with
    | nil => cases hm
    | cons a A =>
      have : a = m := by simpa using hm
      subst this
      rw [e1, e2, e3, List.length_map, List.take_append, List.take_of_length_le (by omega), show D.length + 1 - D.length = 1 by omega, bytesOf_append]
      simp only [List.take_succ_cons, List.take_zero, bytesOf_cons, bytesOf_nil, List.append_nil, List.length_append]
      rcases e4 with ⟨rfl, -⟩ | ⟨a1, a', r, hA, -, -, eb, hne⟩
      · have := List.length_pos_iff.2 hb
        simp; omega
      · cases hA
        have := List.length_pos_iff.2 hne
        rw [eb, List.length_append]; omega
  show _ < (bytesOf _).length
  by_cases hc : c.st = .closed
  · obtain ⟨-, D, A, w, q, e1, e2, -, e3, e4⟩ := h.inv.books.over hc
    exact key D A w q e1 e2 e3 e4
  · obtain ⟨-, D, A, w, e1, e2, e3, e4⟩ := h.inv.books.live hc
    exact key D A w _ e1 e2 e3 e4

/-- **C100d.** Nothing is left behind: if an open connection has taken bytes that are not on the wire, a write event will come. -/
theorem C100_event {c : C} (h : Reach true c) (hc : c.st ≠ .closed) (hw : c.wire ≠ c.acc.flatMap Msg.bytes) : c.armed = true := by
  cases hd : c.direct with
  | false => exact h.inv.arm hc hd
  | true =>
    have hq := h.inv.idle hc hd
    obtain ⟨-, D, A, w, e1, -, e3, e4⟩ := h.inv.books.live hc
    refine absurd ?_ hw
    show c.wire = bytesOf c.acc
    rw [e1, e3, bytesOf_append, e4.bytes, hq, List.append_nil]

/-- **C100e.** When `Send` returns 0 it has taken the message and the connection is open. When it returns -1 either nothing has changed, because 1024 messages wait for a connection that is
being made, or the connection is closed and the message is among those that were reported. -/
theorem C100_send {c c' : C} {r : Bool} (h : Reach true c) {m : Msg} {pre : Pre} {outs : List Out} (hf : (In.send m pre outs).Fit c) (hs : c.send m pre outs = .ret c' r) :
    (r = true → c'.st ≠ .closed ∧ c.acc ++ [m] <+: c'.acc) ∧
    (r = false → (c' = c ∧ c.st = .connecting ∧ 1024 ≤ c.q.length) ∨ (c'.st = .closed ∧ c.acc ++ [m] <+: c'.acc ∧ m.id ∈ c'.done ++ c'.failed)) := by
  obtain ⟨h1, h2, h3⟩ := (send_inv (pre := pre) (outs := outs) h.inv hf.2.1 hf.2.2 hf.1).2 c' r hs
  refine ⟨h2, fun hr => ?_⟩
  rcases h3 hr with h3 | ⟨h4, h5⟩
  · exact .inl h3
  · refine .inr ⟨h4, h5, ?_⟩
    have h' : Reach true c' := h.step (.send m pre outs) (fun _ => hf) hs
    rw [(C100_reports h').2.2.2 h4]
    exact List.mem_map_of_mem (h5.subset (by simp))

/-- **C100f.** No call takes the front of an empty queue, and `send_data_size_` is the number of bytes in the queue. -/
theorem C100_safe {c : C} (h : Reach true c) : (∀ i : In, i.Fit c → c.step i ≠ .ub) ∧ c.size = ((c.q.flatMap Msg.bytes).length) % 2 ^ 32 :=
  ⟨fun _ hf => (step_inv h.inv hf).1, h.inv.books.size⟩

/-- **C100g.** Unless the connection is closed, a read event gives all bytes that have arrived to the checker and leaves none in the socket; bytes are never given twice or out of order. -/
theorem C100_read {r r' : Rx} {rooms : List Nat} (hb : r.buf = []) (h : r.event rooms = some r') :
    (r'.closed = true ∧ r'.seen = r.seen) ∨ (r'.closed = false ∧ r'.data = [] ∧ r'.buf = [] ∧ r'.seen = r.seen ++ r.data) := by
  unfold Rx.event at h
  split at h
  · cases h; rename_i hc; exact .inl ⟨hc, rfl⟩
  · rename_i hc
    have hc : r.closed = false := by simpa using hc
    have key : ∀ (rooms : List Nat) (r : Rx) (got : Nat) (r' : Rx) (ret : Int), r.closed = false → got = r.buf.length → r.read got rooms = some (r', ret) →
        r'.seen = r.seen ∧ ((r'.closed = true ∧ ret < 0) ∨ (r'.closed = false ∧ r'.data = [] ∧ r'.buf = r.buf ++ r.data ∧ ret = r'.buf.length)) := by
      intro rooms
      induction rooms with
      | nil => intro r got r' ret _ _ h; cases h
      | cons room l ih =>
        intro r got r' ret hc hg h
        rw [Rx.read] at h
        split at h
        · rename_i hd
          split at h
          · cases h; exact ⟨rfl, .inl ⟨rfl, by decide⟩⟩
          · cases h; exact ⟨rfl, .inr ⟨hc, hd, by rw [hd, List.append_nil], by rw [hg]⟩⟩
        · dsimp only at h
          split at h
          · rename_i hlt
            cases h
            refine ⟨rfl, .inr ⟨hc, ?_, ?_, ?_⟩⟩
            · show r.data.drop (min room r.data.length) = []
              rw [List.drop_eq_nil_of_le (by omega)]
            · show r.buf ++ r.data.take (min room r.data.length) = _
              rw [List.take_of_length_le (by omega)]
            · show _ = ((r.buf ++ r.data.take (min room r.data.length)).length : Int)
              rw [List.length_append, List.length_take]; omega
          · have := ih ({ r with data := r.data.drop (min room r.data.length), buf := r.buf ++ r.data.take (min room r.data.length) } : Rx) _ r' ret hc (by show _ = (r.buf ++ r.data.take (min room r.data.length)).length; rw [List.length_append, List.length_take]; omega) h
            refine ⟨this.1, this.2.imp id fun ⟨a, b, c, d⟩ => ⟨a, b, ?_, d⟩⟩
            rw [c]
            show r.buf ++ r.data.take (min room r.data.length) ++ r.data.drop (min room r.data.length) = _
            rw [List.append_assoc, List.take_append_drop]
    split at h
    · cases h
    · rename_i r1 ret he
      obtain ⟨h1, h2⟩ := key rooms r 0 r1 ret hc (by rw [hb]; rfl) he
      cases h
      rcases h2 with ⟨h2, h3⟩ | ⟨h2, h3, h4, h5⟩
      · rw [if_neg (by omega)]; exact .inl ⟨h2, h1⟩
      · right
        rw [hb, List.nil_append] at h4
        split
        · exact ⟨h2, h3, rfl, by rw [h1, h4]⟩
        · have : r1.buf = [] := List.length_eq_zero_iff.1 (by omega)
          exact ⟨h2, h3, this, by rw [h1, ← h4, this, List.append_nil]⟩

/-- **C100h.** If the peer has not closed its side, the connection stays open. -/
theorem C100_read_open {r r' : Rx} {rooms : List Nat} (hc : r.closed = false) (hf : r.fin = false) (h : r.event rooms = some r') : r'.closed = false := by
  have key : ∀ (rooms : List Nat) (r : Rx) (got : Nat) (r' : Rx) (ret : Int), r.closed = false → r.fin = false → r.read got rooms = some (r', ret) → r'.closed = false := by
    intro rooms
    induction rooms with
    | nil => intro r got r' ret _ _ h; cases h
    | cons room l ih =>
      intro r got r' ret hc hf h
      rw [Rx.read] at h
      split at h
      · rw [if_neg (by rw [hf]; decide)] at h; cases h; exact hc
      · dsimp only at h
        split at h
        · cases h; exact hc
        · exact ih ({ r with data := r.data.drop (min room r.data.length), buf := r.buf ++ r.data.take (min room r.data.length) } : Rx) _ _ _ hc hf h
  unfold Rx.event at h
  rw [if_neg (by rw [hc]; decide)] at h
  split at h
  · cases h
  · rename_i r1 ret he
    have := key _ _ _ _ _ hc hf he
    cases h
    split <;> exact this

/-! ## Runs -/

/-- A client connection: a message is sent before it is made, the kernel takes two bytes, then the rest together with a second message. -/
example : ∃ c, Reach true c ∧ c.wire = [1, 2, 3, 4, 5] ∧ c.done = [7, 8] ∧ c.st = .connected ∧ c.direct = true := by
  have h := (Reach.client (fit := true)).step (.send ⟨7, [[1, 2], [3]]⟩ .pending [.intr, .again]) (fun _ => ⟨by decide, by decide, trivial⟩) rfl
  have h := h.step (.event (.up []) [.ok 2]) (fun _ => by simp [In.Fit, Pre.Solid]) rfl
  have h := h.step (.send ⟨8, [[4], [5]]⟩ .fail []) (fun _ => ⟨by decide, by decide, trivial⟩) rfl
  have h := h.step (.event .fail [.ok 3]) (fun _ => trivial) rfl
  exact ⟨_, h, by decide +kernel, by decide +kernel, by decide +kernel, by decide +kernel⟩

/-- A server connection that fails when two bytes of the first of two messages are written. -/
example : ∃ c, Reach true c ∧ c.wire = [1, 2] ∧ c.done = [] ∧ c.failed = [7, 8] ∧ c.st = .closed := by
  have h := (Reach.server (fit := true)).step (.send ⟨7, [[1, 2], [3]]⟩ .fail []) (fun _ => ⟨by decide, by decide, trivial⟩) rfl
  have h := h.step (.send ⟨8, [[4], [5]]⟩ .fail []) (fun _ => ⟨by decide, by decide, trivial⟩) rfl
  have h := h.step (.event .fail [.ok 2]) (fun _ => trivial) rfl
  have h := h.step (.event .fail [.err]) (fun _ => trivial) rfl
  exact ⟨_, h, by decide +kernel, by decide +kernel, by decide +kernel, by decide +kernel⟩

/-- **C101a.** `Send` on a closed connection returns 0; the message is never written and never reported. -/
theorem C101_closed_partial {c : C} (hc : c.st = .closed) (hd : c.direct = false) (hs : c.size = 0) (hq : c.q = []) (m : Msg) (hm : m.bytes.length < 8192) (pre : Pre) (outs : List Out) :
    c.send m pre outs = .ret (c.push m) true ∧
    ∀ i c' r, (c.push m).step i = .ret c' r → c'.st = .closed ∧ c'.wire = c.wire ∧ c'.done = c.done ∧ c'.failed = c.failed := by
  have hs' : (c.push m).size = m.bytes.length := by
    show (c.size + m.bytes.length) % 2 ^ 32 = _; rw [hs]; omega
  have hq' : (c.push m).q = [m] := by show c.q ++ [m] = _; rw [hq]; rfl
  have hc' : (c.push m).st = .closed := hc
  have hd' : (c.push m).direct = false := hd
  constructor
  · unfold C.send
    rw [if_neg (by rw [hc]; intro e; cases e.1)]
    dsimp only
    rw [if_neg (by rw [hc']; intro e; cases e), if_neg (by rw [hs', hq']; simp; omega), if_neg (by rw [hd']; decide)]
  · have hw : ∀ (d : C) pre outs, d.st = .closed → d.handleWrite pre outs = .ret d false := by
      intro d pre outs hd; unfold C.handleWrite; rw [hd]
    intro i c' r e
    cases i with
    | send m' pre outs =>
      have e : (c.push m).send m' pre outs = .ret c' r := e
      unfold C.send at e
      rw [if_neg (by rw [hc']; intro e; cases e.1)] at e
      dsimp only at e
      rw [if_neg (by show c.st ≠ _; rw [hc]; intro e; cases e)] at e
      split at e
      · rw [hw _ _ _ (show ((c.push m).push m').st = _ from hc)] at e
        cases e; exact ⟨hc, rfl, rfl, rfl⟩
      · split at e
        · cases e; exact ⟨hc, rfl, rfl, rfl⟩
        · cases e; exact ⟨hc, rfl, rfl, rfl⟩
    | event pre outs =>
      have e : ({ c.push m with armed := false } : C).handleWrite pre outs = .ret c' r := e
      rw [hw ({ c.push m with armed := false } : C) pre outs hc] at e
      cases e; exact ⟨hc, rfl, rfl, rfl⟩
    | close =>
      have e : R.ret (c.push m).close true = .ret c' r := e
      unfold C.close at e
      rw [if_pos hc'] at e
      cases e; exact ⟨hc, rfl, rfl, rfl⟩

example : ∃ c, Reach true c ∧ c.st = .closed ∧ c.direct = false ∧ c.size = 0 ∧ c.q = [] :=
  ⟨_, (Reach.server (fit := true)).step .close (fun _ => trivial) rfl, rfl, rfl, rfl, rfl⟩

/-- **C101b.** When the connect timer fires, every waiting message is reported as failed twice. -/
theorem C101_twice_partial {c : C} (hc : c.st = .connecting) (hf : c.failed = []) : c.timeout.failed = c.q.map Msg.id ++ c.q.map Msg.id := by
  unfold C.timeout
  rw [if_pos hc]
  unfold C.close
  rw [if_neg (by show c.st ≠ _; rw [hc]; intro e; cases e), hf]
  rfl

/-- **C101c.** An empty message is not reported when its turn has come and everything is written. -/
theorem C101_empty_partial : ∃ c, Reach true c ∧ c.st = .connected ∧ c.acc = [⟨7, []⟩] ∧ c.done = [] ∧ c.armed = false ∧ c.direct = true := by
  have h := (Reach.server (fit := true)).step (.send ⟨7, []⟩ .fail []) (fun _ => ⟨by decide, by decide, trivial⟩) rfl
  have h := h.step (.event .fail []) (fun _ => trivial) rfl
  exact ⟨_, h, by decide +kernel, by decide +kernel, by decide +kernel, by decide +kernel, by decide +kernel⟩

/-- **C101d.** Empty blocks are counted as written each time they are offered: bytes behind them stay in the queue, and no event will come. -/
theorem C101_blocks_partial : ∃ c, Reach false c ∧ c.st = .connected ∧ c.wire = [1] ∧ c.acc.flatMap Msg.bytes = [1, 2] ∧ c.armed = false ∧ c.direct = true := by
  have h := (Reach.server (fit := false)).step (.send ⟨7, [1] :: (List.replicate 16 [] ++ [[2]])⟩ .fail []) (by intro e; cases e) rfl
  have h := h.step (.event .fail [.ok 1, .ok 0]) (by intro e; cases e) rfl
  exact ⟨_, h, by decide +kernel, by decide +kernel, by decide +kernel, by decide +kernel, by decide +kernel⟩

/-- **C101e.** Bytes that fill the read buffer to its end and are followed by the end of the stream are thrown away: the checker never sees them. -/
theorem C101_lost_partial {r : Rx} (hc : r.closed = false) (hd : r.data ≠ []) (hf : r.fin = true) (l : List Nat) (room : Nat) :
    ∃ r', r.event (r.data.length :: room :: l) = some r' ∧ r'.closed = true ∧ r'.seen = r.seen ∧ r'.buf = [] := by
  obtain ⟨x, xs, hx⟩ := List.exists_cons_of_ne_nil hd
  refine ⟨{ r with data := [], buf := [], closed := true }, ?_, rfl, rfl, rfl⟩
  unfold Rx.event
  rw [if_neg (by rw [hc]; decide), Rx.read, hx]
  simp [Rx.read, hf]

end Verif.Reactor.Conn
