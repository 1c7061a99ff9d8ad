import Verif.Queue.DequeSpec
/-!
# Invariant of the work-stealing deques
-/

namespace Verif.Queue.Deque

open Verif.Lin

variable {V : Type}

/-- `log p`: the item at position `p`; the contents are the positions `top .. B-1`. -/
structure Ghost (V : Type) where
  log : Int → V
  B : Int

/-- Steps only the owner takes. -/
def ownerPC : PC V → Bool
  | .uTop _ | .uGrow .. | .uWrite _ | .uPub _ | .pPre | .pSet | .pTop _ | .pTake _ | .pLast _ | .pCas .. | .pRestore .. => true
  | _ => false

/-- `bottom_` between operations of the owner; the second case is the damage left by a lost race in
`BoundedSPMCQueue::Dequeue`. -/
def Settled (kind : Kind) (c : Conf V) (g : Ghost V) : Prop :=
  c.bot = g.B ∨ (kind = .bounded ∧ c.bot = g.B - 1 ∧ c.top = g.B)

def OwnInv (kind : Kind) (c : Conf V) (g : Ghost V) : PC V → Prop
  | .uGrow _ t => c.bot = g.B ∧ t ≤ c.top ∧ c.bot - t ≤ c.cap c.cur ∧ kind = .unbounded
  | .uWrite _ => c.bot = g.B ∧ g.B - c.top < c.cap c.cur
  | .uPub v => c.bot = g.B ∧ g.B - c.top < c.cap c.cur ∧ c.arr c.cur (c.bot % c.cap c.cur) = v
  | .pSet => Settled kind c g ∧ (kind ≠ .unbounded → 0 < c.bot)
  | .pTop b => c.bot = b ∧ (b + 1 = g.B ∨ (kind = .bounded ∧ b + 2 = g.B ∧ c.top = g.B))
  | .pTake b => c.bot = b ∧ g.B = b
  | .pLast b => c.bot = b ∧ g.B = b + 1 ∧ b ≤ c.top
  | .pCas b v => c.bot = b ∧ g.B = b + 1 ∧ b ≤ c.top ∧ (c.top = b → v = g.log b)
  | .pRestore b _ => c.bot = b ∧ (g.B = b + 1 ∨ (kind = .bounded ∧ b + 2 = g.B ∧ c.top = g.B))
  | _ => Settled kind c g

def ThfInv (c : Conf V) (g : Ghost V) : PC V → Prop
  | .sPre t => t ≤ c.top
  | .sBot t => t ≤ c.top
  | .sArr t => t ≤ c.top ∧ (c.top = t → t < g.B)
  | .sRead t a => t ≤ c.top ∧ a ≤ c.cur ∧ (c.top = t → t < g.B ∧ c.arr a (t % c.cap a) = g.log t)
  | .sCas t v => t ≤ c.top ∧ (c.top = t → t < g.B ∧ v = g.log t)
  | _ => True

structure Inv (kind : Kind) (c : Conf V) (g : Ghost V) : Prop where
  capPos : ∀ a, 0 < c.cap a
  le : c.top ≤ g.B
  room : g.B - c.top ≤ c.cap c.cur
  slot : ∀ p, c.top ≤ p → p < g.B → c.arr c.cur (p % c.cap c.cur) = g.log p
  botLe : c.bot ≤ g.B
  nn : kind ≠ .unbounded → 0 ≤ c.bot ∧ 0 ≤ c.top
  own : OwnInv kind c g (c.pc 0)
  thr : ∀ th, ThfInv c g (c.pc th)
  others : ∀ th, th ≠ 0 → ownerPC (c.pc th) = false

theorem emod_ne {p q c : Int} (h1 : p < q) (h2 : q - p < c) : p % c ≠ q % c := by
  intro h
  have hd : c ∣ q - p := Int.dvd_of_emod_eq_zero (Int.emod_eq_emod_iff_emod_sub_eq_zero.1 h.symm)
  have := Int.le_of_dvd (by omega) hd
  omega

theorem setSlot_same (f : Int → V) (i : Int) (v : V) : setSlot f i v i = v := by simp [setSlot]
theorem setSlot_ne (f : Int → V) {i j : Int} (v : V) (h : j ≠ i) : setSlot f i v j = f j := by simp [setSlot, h]

theorem copyLoop_spec (old : Int → V) (cap t : Int) (d : Int → V) (n : Nat) (hn : (n : Int) ≤ 2 * cap) (p : Int)
    (h1 : t ≤ p) (h2 : p < t + n) : copyLoop old cap t d n (p % (2 * cap)) = old (p % cap) := by
  induction n with
  | zero => omega
  | succ n ih =>
    unfold copyLoop
    by_cases e : p = t + n
    · subst e; exact setSlot_same ..
    · rw [setSlot_ne]
      · exact ih (by omega) (by omega)
      · exact emod_ne (by omega) (by omega)

/-- Moving one thread without touching anything else. -/
theorem Inv.move {kind : Kind} {c : Conf V} {g : Ghost V} (i : Inv kind c g) (th : Nat) (x : PC V)
    (h0 : th = 0 → OwnInv kind c g x) (h1 : ThfInv c g x) (h2 : ownerPC x = true → th = 0) :
    Inv kind { c with pc := upd c.pc th x } g where
  capPos := i.capPos
  le := i.le
  room := i.room
  slot := i.slot
  botLe := i.botLe
  nn := i.nn
  own := by
    by_cases e : th = 0
    · subst e; simp only [upd_same]
      have := h0 rfl
      cases x <;> exact this
    · simp only [upd_ne _ _ (Ne.symm e)]
      have := i.own
      cases h : c.pc 0 <;> rw [h] at this <;> exact this
  thr := by
    intro th'
    by_cases e : th' = th
    · subst e; simp only [upd_same]
      cases x <;> exact h1
    · simp only [upd_ne _ _ e]
      have := i.thr th'
      cases h : c.pc th' <;> rw [h] at this <;> exact this
  others := by
    intro th' hne
    by_cases e : th' = th
    · subst e; simp only [upd_same]
      cases hx : ownerPC x with
      | false => rfl
      | true => exact absurd (h2 hx) hne
    · simp only [upd_ne _ _ e]; exact i.others _ hne

/-- A thread taking an owner's step is thread 0. -/
theorem Inv.owner {kind : Kind} {c : Conf V} {g : Ghost V} (i : Inv kind c g) {th : Nat}
    (h : ownerPC (c.pc th) = true) : th = 0 := by
  rcases Nat.eq_zero_or_pos th with h0 | h0
  · exact h0
  · have := i.others th (by omega); rw [h] at this; cases this

/-- Generic rebuilding for steps of the owner that change the shared state. -/
theorem Inv.ownerStep {kind : Kind} {c : Conf V} {g : Ghost V} (i : Inv kind c g) (c' : Conf V) (g' : Ghost V) (x : PC V)
    (hpc : c'.pc = upd c.pc 0 x) (capPos : ∀ a, 0 < c'.cap a) (le : c'.top ≤ g'.B)
    (room : g'.B - c'.top ≤ c'.cap c'.cur)
    (slot : ∀ p, c'.top ≤ p → p < g'.B → c'.arr c'.cur (p % c'.cap c'.cur) = g'.log p)
    (botLe : c'.bot ≤ g'.B) (nn : kind ≠ .unbounded → 0 ≤ c'.bot ∧ 0 ≤ c'.top) (own : OwnInv kind c' g' x)
    (thx : ThfInv c' g' x) (thr : ∀ th, th ≠ 0 → ThfInv c g (c.pc th) → ThfInv c' g' (c.pc th)) :
    Inv kind c' g' where
  capPos := capPos
  le := le
  room := room
  slot := slot
  botLe := botLe
  nn := nn
  own := by rw [hpc, upd_same]; exact own
  thr := by
    intro th
    rw [hpc]
    by_cases e : th = 0
    · subst e; rw [upd_same]; exact thx
    · rw [upd_ne _ _ e]; exact thr th e (i.thr th)
  others := by
    intro th hne
    rw [hpc, upd_ne _ _ hne]; exact i.others th hne

theorem Inv.grow {kind : Kind} {c : Conf V} {g : Ghost V} (i : Inv kind c g) (v : V) (t : Int) (d : Int → V)
    (hp : c.pc 0 = .uGrow v t) :
    Inv kind { c with
      arr := upd c.arr (c.cur + 1) (copyLoop (c.arr c.cur) (c.cap c.cur) t d (c.bot - t).toNat)
      cap := upd c.cap (c.cur + 1) (2 * c.cap c.cur)
      cur := c.cur + 1
      pc := upd c.pc 0 (.uWrite v) } g := by
  have ho := i.own
  rw [hp] at ho
  obtain ⟨o1, o2, o3, rfl⟩ := ho
  have hcp := i.capPos c.cur
  have hroom := i.room
  have hle := i.le
  refine i.ownerStep _ g (.uWrite v) rfl ?_ hle ?_ ?_ i.botLe (fun h => absurd rfl h) ?_ trivial ?_
  · intro a
    by_cases e : a = c.cur + 1
    · subst e; simp only [upd_same]; omega
    · simp only [upd_ne _ _ e]; exact i.capPos a
  · simp only [upd_same]; omega
  · intro p h1 h2
    simp only [upd_same]
    have h1 : c.top ≤ p := h1
    rw [copyLoop_spec _ _ _ _ _ (by omega) p (by omega) (by omega)]
    exact i.slot p h1 h2
  · refine ⟨o1, ?_⟩
    simp only [upd_same]; omega
  · intro th hne ht
    cases hq : c.pc th <;> rw [hq] at ht <;> try exact ht
    rename_i t' a
    obtain ⟨t1, t2, t3⟩ := ht
    refine ⟨t1, Nat.le_succ_of_le t2, ?_⟩
    have e : a ≠ c.cur + 1 := by omega
    simp only [upd_ne _ _ e]
    exact t3

theorem Inv.write {kind : Kind} {c : Conf V} {g : Ghost V} (i : Inv kind c g) (v : V) (hp : c.pc 0 = .uWrite v) :
    Inv kind { c with
      arr := upd c.arr c.cur (setSlot (c.arr c.cur) (c.bot % c.cap c.cur) v)
      pc := upd c.pc 0 (.uPub v) } g := by
  have ho := i.own
  rw [hp] at ho
  obtain ⟨o1, o2⟩ := ho
  refine i.ownerStep _ g (.uPub v) rfl i.capPos i.le i.room ?_ i.botLe i.nn ?_ trivial ?_
  · intro p h1 h2
    have h1 : c.top ≤ p := h1
    simp only [upd_same]
    rw [setSlot_ne _ _ (emod_ne (by omega) (by omega))]
    exact i.slot p h1 h2
  · refine ⟨o1, o2, ?_⟩
    simp only [upd_same, setSlot_same]
  · intro th hne ht
    cases hq : c.pc th <;> rw [hq] at ht <;> try exact ht
    rename_i t' a
    obtain ⟨t1, t2, t3⟩ := ht
    refine ⟨t1, t2, ?_⟩
    intro e
    have e : c.top = t' := e
    obtain ⟨t4, t5⟩ := t3 e
    refine ⟨t4, ?_⟩
    by_cases ea : a = c.cur
    · subst ea
      simp only [upd_same]
      rw [setSlot_ne _ _ (emod_ne (by omega) (by omega))]
      exact t5
    · simp only [upd_ne _ _ ea]; exact t5

theorem Inv.pub {kind : Kind} {c : Conf V} {g : Ghost V} (i : Inv kind c g) (v : V) (hp : c.pc 0 = .uPub v) :
    Inv kind { c with bot := c.bot + 1, pc := upd c.pc 0 (.done .ok) } ⟨setSlot g.log g.B v, g.B + 1⟩ := by
  have ho := i.own
  rw [hp] at ho
  obtain ⟨o1, o2, o3⟩ := ho
  have hle := i.le
  refine i.ownerStep _ _ (.done .ok) rfl i.capPos ?_ ?_ ?_ ?_ ?_ ?_ trivial ?_
  · show c.top ≤ g.B + 1; omega
  · show g.B + 1 - c.top ≤ c.cap c.cur; omega
  · intro p h1 h2
    have h2 : p < g.B + 1 := h2
    show c.arr c.cur (p % c.cap c.cur) = setSlot g.log g.B v p
    by_cases e : p = g.B
    · subst e; rw [setSlot_same, ← o1]; exact o3
    · rw [setSlot_ne _ _ e]; exact i.slot p h1 (by omega)
  · show c.bot + 1 ≤ g.B + 1; omega
  · intro hk; have := i.nn hk; exact ⟨by show 0 ≤ c.bot + 1; omega, this.2⟩
  · exact .inl (by show c.bot + 1 = g.B + 1; omega)
  · intro th hne ht
    cases hq : c.pc th <;> rw [hq] at ht <;> try exact ht
    · exact ⟨ht.1, fun e => by have := ht.2 e; show _ < g.B + 1; omega⟩
    · refine ⟨ht.1, ht.2.1, fun e => ?_⟩
      have h := ht.2.2 e
      refine ⟨by have := h.1; show _ < g.B + 1; omega, ?_⟩
      show _ = setSlot g.log g.B v _
      rw [setSlot_ne _ _ (by have := h.1; omega)]; exact h.2
    · refine ⟨ht.1, fun e => ?_⟩
      have h := ht.2 e
      refine ⟨by have := h.1; show _ < g.B + 1; omega, ?_⟩
      show _ = setSlot g.log g.B v _
      rw [setSlot_ne _ _ (by have := h.1; omega)]; exact h.2

/-- Steps of the owner that change `bottom_` only. -/
theorem Inv.setBot {kind : Kind} {c : Conf V} {g : Ghost V} (i : Inv kind c g) (b : Int) (x : PC V)
    (hb : b ≤ g.B) (hnn : kind ≠ .unbounded → 0 ≤ b) (ho : OwnInv kind { c with bot := b } g x)
    (hx : ThfInv c g x) :
    Inv kind { c with bot := b, pc := upd c.pc 0 x } g := by
  refine i.ownerStep _ g x rfl i.capPos i.le i.room i.slot hb (fun h => ⟨hnn h, (i.nn h).2⟩) ?_ ?_ ?_
  · cases x <;> exact ho
  · cases x <;> exact hx
  · intro th hne ht
    cases hq : c.pc th <;> rw [hq] at ht <;> exact ht

/-- `Pop` with more than one item left: position `b` leaves the queue when `top_` is loaded. -/
theorem Inv.take {kind : Kind} {c : Conf V} {g : Ghost V} (i : Inv kind c g) (b : Int) (hp : c.pc 0 = .pTop b)
    (hlt : c.top < b) : g.B = b + 1 ∧ Inv kind { c with pc := upd c.pc 0 (.pTake b) } ⟨g.log, b⟩ := by
  have ho := i.own
  rw [hp] at ho
  obtain ⟨o1, o2⟩ := ho
  have hB : g.B = b + 1 := by rcases o2 with h | ⟨-, h1, h2⟩ <;> omega
  have hroom := i.room
  refine ⟨hB, i.ownerStep _ _ (.pTake b) rfl i.capPos ?_ ?_ ?_ ?_ i.nn ⟨o1, rfl⟩ trivial ?_⟩
  · show c.top ≤ b; omega
  · show b - c.top ≤ c.cap c.cur; omega
  · intro p h1 h2
    have h2 : p < b := h2
    exact i.slot p h1 (by omega)
  · show c.bot ≤ b; omega
  · intro th hne ht
    cases hq : c.pc th <;> rw [hq] at ht <;> try exact ht
    · exact ⟨ht.1, fun e => by have e : c.top = _ := e; show _ < b; omega⟩
    · exact ⟨ht.1, ht.2.1, fun e => ⟨by have e : c.top = _ := e; show _ < b; omega, (ht.2.2 e).2⟩⟩
    · exact ⟨ht.1, fun e => ⟨by have e : c.top = _ := e; show _ < b; omega, (ht.2 e).2⟩⟩

/-- `top_` moves on: a successful compare-and-swap by any thread. -/
theorem Inv.advance {kind : Kind} {c : Conf V} {g : Ghost V} (i : Inv kind c g) (th : Nat) (x : PC V)
    (hlt : c.top < g.B) (h0 : th = 0 → OwnInv kind { c with top := c.top + 1 } g x)
    (hx : ThfInv { c with top := c.top + 1 } g x) (hown : ownerPC x = true → th = 0) :
    Inv kind { c with top := c.top + 1, pc := upd c.pc th x } g where
  capPos := i.capPos
  le := by show c.top + 1 ≤ g.B; omega
  room := by have := i.room; show g.B - (c.top + 1) ≤ c.cap c.cur; omega
  slot := by
    intro p h1 h2
    have h1 : c.top + 1 ≤ p := h1
    exact i.slot p (by omega) h2
  botLe := i.botLe
  nn := by intro h; have := i.nn h; exact ⟨this.1, by show 0 ≤ c.top + 1; omega⟩
  own := by
    by_cases e : th = 0
    · subst e; simp only [upd_same]
      have := h0 rfl
      cases x <;> exact this
    · simp only [upd_ne _ _ (Ne.symm e)]
      have ho := i.own
      have hs : Settled kind c g → Settled kind { c with top := c.top + 1, pc := upd c.pc th x } g := by
        rintro (h | ⟨-, -, h⟩)
        · exact .inl h
        · omega
      cases hq : c.pc 0 <;> rw [hq] at ho <;> try exact hs ho
      · exact ⟨ho.1, by have := ho.2.1; show _ ≤ c.top + 1; omega, ho.2.2⟩
      · exact ⟨ho.1, by have := ho.2; show g.B - (c.top + 1) < c.cap c.cur; omega⟩
      · exact ⟨ho.1, by have := ho.2.1; show g.B - (c.top + 1) < c.cap c.cur; omega, ho.2.2⟩
      · exact ⟨hs ho.1, ho.2⟩
      · refine ⟨ho.1, ?_⟩
        rcases ho.2 with h | ⟨-, -, h⟩
        · exact .inl h
        · omega
      · exact ho
      · exact ⟨ho.1, ho.2.1, by have := ho.2.2; show _ ≤ c.top + 1; omega⟩
      · refine ⟨ho.1, ho.2.1, by have := ho.2.2.1; show _ ≤ c.top + 1; omega, fun e => ?_⟩
        have e : c.top + 1 = _ := e
        have := ho.2.2.1
        omega
      · refine ⟨ho.1, ?_⟩
        rcases ho.2 with h | ⟨-, -, h⟩
        · exact .inl h
        · omega
  thr := by
    intro th'
    by_cases e : th' = th
    · subst e; simp only [upd_same]
      cases x <;> exact hx
    · simp only [upd_ne _ _ e]
      have ht := i.thr th'
      cases hq : c.pc th' <;> rw [hq] at ht <;> try exact ht
      · have ht : _ ≤ c.top := ht
        show _ ≤ c.top + 1; omega
      · have ht : _ ≤ c.top := ht
        show _ ≤ c.top + 1; omega
      · have h1 := ht.1
        exact ⟨by show _ ≤ c.top + 1; omega, fun e => by have e : c.top + 1 = _ := e; omega⟩
      · have h1 := ht.1
        exact ⟨by show _ ≤ c.top + 1; omega, ht.2.1, fun e => by have e : c.top + 1 = _ := e; omega⟩
      · have h1 := ht.1
        exact ⟨by show _ ≤ c.top + 1; omega, fun e => by have e : c.top + 1 = _ := e; omega⟩
  others := by
    intro th' hne
    by_cases e : th' = th
    · subst e; simp only [upd_same]
      cases hx : ownerPC x with
      | false => rfl
      | true => exact absurd (hown hx) hne
    · simp only [upd_ne _ _ e]; exact i.others _ hne

/-! ## The contents as a list -/

/-- The items at positions `t .. t+n-1`. -/
def seg (log : Int → V) (t : Int) (n : Nat) : List V := (List.range n).map (fun j : Nat => log (t + j))

theorem seg_length (log : Int → V) (t : Int) (n : Nat) : (seg log t n).length = n := by simp [seg]

theorem seg_succ_last (log : Int → V) (t : Int) (n : Nat) : seg log t (n + 1) = seg log t n ++ [log (t + n)] := by
  simp [seg, List.range_succ]

theorem seg_succ_head (log : Int → V) (t : Int) (n : Nat) : seg log t (n + 1) = log t :: seg log (t + 1) n := by
  simp only [seg, List.range_succ_eq_map, List.map_cons, List.map_map, Int.natCast_zero, Int.add_zero]
  congr 1
  apply List.map_congr_left
  intro a _
  simp only [Function.comp_apply, Nat.succ_eq_add_one, Int.natCast_add, Int.natCast_one]
  congr 1; omega

theorem seg_congr {log log' : Int → V} {t : Int} {n : Nat} (h : ∀ p, t ≤ p → p < t + n → log p = log' p) :
    seg log t n = seg log' t n := by
  apply List.map_congr_left
  intro a ha
  have := List.mem_range.1 ha
  exact h _ (by omega) (by omega)

end Verif.Queue.Deque
