import Verif.Queue.DequeLemmas
import Verif.Common.Conservation
/-!
# Properties C20, C21 and C22: the work-stealing deques
-/

namespace Verif.Queue.Deque

open Verif.Lin

variable {V : Type}

/-- What the specification says about an operation at `pc`: called, or already in effect with its result. -/
def PhaseOf (c : Conf V) : PC V → Phase (Op V) (Res V) → Prop
  | .idle, p => p = .idle
  | .uTop v, p | .uGrow v _, p | .uWrite v, p | .uPub v, p => p = .called (.push v)
  | .pPre, p | .pSet, p | .pTop _, p | .pLast _, p | .pCas .., p => p = .called .pop
  | .pTake b, p => p = .effected (.val (c.arr c.cur (b % c.cap c.cur)))
  | .pRestore _ r, p | .done r, p => p = .effected r
  | .sTop, p | .sPre _, p | .sBot _, p | .sArr _, p | .sRead .., p | .sCas .., p => p = .called .steal

/-- The specification a variant is proved against. -/
def specOf (kind : Kind) (cap : Nat) : Spec (Op V) (Res V) (List V) :=
  match kind with
  | .unbounded => deque none false
  | .bounded => deque (some cap) true
  | .localQ => deque (some cap) false

/-- Concrete configuration against specification state. -/
def Rel (kind : Kind) (cap : Nat) (c : Conf V) (s : State (Op V) (Res V) (List V)) : Prop :=
  ∃ g, Inv kind c g ∧ (kind ≠ .unbounded → c.cap c.cur = cap) ∧ s.abs = seg g.log c.top (g.B - c.top).toNat ∧
    ∀ th, PhaseOf c (c.pc th) (s.phase th)

theorem inv_init (kind : Kind) (cap : Int) (hcap : 0 < cap) (d : V) (log : Int → V) :
    Inv kind (init kind cap d) ⟨log, (init kind cap d).bot⟩ where
  capPos := fun _ => hcap
  le := Int.le_refl _
  room := by show (init kind cap d).bot - (init kind cap d).bot ≤ cap; omega
  slot := by
    intro p h1 h2
    have h1 : (init kind cap d).bot ≤ p := h1
    have h2 : p < (init kind cap d).bot := h2
    omega
  botLe := Int.le_refl _
  nn := by intro _; cases kind <;> simp [init]
  own := .inl rfl
  thr := fun _ => trivial
  others := fun _ _ => rfl

theorem PhaseOf.congr {c c' : Conf V} {x : PC V} {p : Phase (Op V) (Res V)} (h : PhaseOf c x p)
    (h2 : ∀ b, x = .pTake b → c'.arr c'.cur (b % c'.cap c'.cur) = c.arr c.cur (b % c.cap c.cur)) : PhaseOf c' x p := by
  cases x <;> try exact h
  show p = _
  rw [h2 _ rfl]; exact h

theorem phases_upd {c c' : Conf V} {pc : Nat → PC V} {ph : Nat → Phase (Op V) (Res V)} {th : Nat} {x : PC V}
    {p : Phase (Op V) (Res V)} (h : ∀ t, PhaseOf c (pc t) (ph t))
    (h2 : ∀ t, t ≠ th → ∀ b, pc t = .pTake b → c'.arr c'.cur (b % c'.cap c'.cur) = c.arr c.cur (b % c.cap c.cur))
    (hx : PhaseOf c' x p) : ∀ t, PhaseOf c' (upd pc th x t) (upd ph th p t) := by
  intro t
  by_cases e : t = th
  · subst e; simp only [upd_same]; exact hx
  · simp only [upd_ne _ _ e]; exact (h t).congr (h2 t e)

theorem phases_upd' {c c' : Conf V} {pc : Nat → PC V} {ph : Nat → Phase (Op V) (Res V)} {th : Nat} {x : PC V}
    (h : ∀ t, PhaseOf c (pc t) (ph t))
    (h2 : ∀ t, t ≠ th → ∀ b, pc t = .pTake b → c'.arr c'.cur (b % c'.cap c'.cur) = c.arr c.cur (b % c.cap c.cur))
    (hx : PhaseOf c' x (ph th)) : ∀ t, PhaseOf c' (upd pc th x t) (ph t) := by
  intro t
  by_cases e : t = th
  · subst e; simp only [upd_same]; exact hx
  · simp only [upd_ne _ _ e]; exact (h t).congr (h2 t e)

theorem spec_pop_null {kind : Kind} {cap : Nat} : specOf (V := V) kind cap [] .pop .null [] := by
  cases kind <;> exact ⟨rfl, rfl⟩

theorem spec_pop_val {kind : Kind} {cap : Nat} {q : List V} {v : V} : specOf kind cap (q ++ [v]) .pop (.val v) q := by
  cases kind <;> rfl

theorem spec_steal_val {kind : Kind} {cap : Nat} {q : List V} {v : V} : specOf kind cap (v :: q) .steal (.val v) q := by
  cases kind <;> rfl

theorem spec_steal_null {kind : Kind} {cap : Nat} {q : List V} : specOf kind cap q .steal .null q := by
  cases kind <;> rfl

theorem spec_push_ok {kind : Kind} {cap : Nat} {q : List V} {v : V} (h : kind ≠ .unbounded → q.length < cap) :
    specOf kind cap q (.push v) .ok (q ++ [v]) := by
  cases kind
  · exact ⟨rfl, fun _ h => by cases h⟩
  · exact ⟨rfl, fun n hn => by cases hn; exact h (by simp)⟩
  · exact ⟨rfl, fun n hn => by cases hn; exact h (by simp)⟩

/-- Every internal step is matched by the specification. -/
theorem sim_tau {kind : Kind} {cap : Nat} {c c' : Conf V} {s : State (Op V) (Res V) (List V)} {th : Nat} {d : Int → V}
    (h : Rel kind cap c s) (hs : tstep kind c th d = some c') :
    ∃ s', Sim (specOf kind cap) s none s' ∧ Rel kind cap c' s' := by
  obtain ⟨g, i, hcap, ha, hph⟩ := h
  have ht := i.thr th
  have hp := hph th
  have hle := i.le
  have same : ∀ (c' : Conf V), c'.arr = c.arr → c'.cap = c.cap → c'.cur = c.cur → ∀ t, t ≠ th → ∀ b, c.pc t = .pTake b →
      c'.arr c'.cur (b % c'.cap c'.cur) = c.arr c.cur (b % c.cap c.cur) := by
    intro c' h1 h2 h3 t _ b _; rw [h1, h2, h3]
  -- a step without effect on the shared state or the specification
  have quiet : ∀ x, (th = 0 → OwnInv kind c g x) → ThfInv c g x → (ownerPC x = true → th = 0) → PhaseOf c x (s.phase th) →
      ∃ s', Sim (specOf kind cap) s none s' ∧ Rel kind cap { c with pc := upd c.pc th x } s' := by
    intro x h1 h2 h3 h4
    exact ⟨s, .tau s, g, i.move th x h1 h2 h3, hcap, ha, phases_upd' hph (same _ rfl rfl rfl) (h4.congr (fun _ _ => rfl))⟩
  -- the operation takes effect without changing the contents
  have eff : ∀ x op r, (th = 0 → OwnInv kind c g x) → ThfInv c g x → (ownerPC x = true → th = 0) →
      s.phase th = .called op → specOf kind cap s.abs op r s.abs → PhaseOf c x (.effected r) →
      ∃ s', Sim (specOf kind cap) s none s' ∧ Rel kind cap { c with pc := upd c.pc th x } s' := by
    intro x op r h1 h2 h3 h4 h5 h6
    exact ⟨_, .eff h4 h5, g, i.move th x h1 h2 h3, hcap, ha, phases_upd hph (same _ rfl rfl rfl) (h6.congr (fun _ _ => rfl))⟩
  -- a thread that is not in the owner's code keeps the owner's invariant
  have thief : ownerPC (c.pc th) = false → (∀ v t, c.pc th ≠ .uGrow v t) → th = 0 → Settled kind c g := by
    intro h1 _ h2
    subst h2
    have := i.own
    cases hq : c.pc 0 <;> rw [hq] at this h1 <;> first | exact this | simp [ownerPC] at h1
  have hlen : s.abs.length = (g.B - c.top).toNat := by rw [ha, seg_length]
  have hnil : c.top = g.B → s.abs = [] := fun e => List.length_eq_zero_iff.1 (by omega)
  have hroom := i.room
  unfold tstep at hs
  cases hpc : c.pc th with
  | idle => rw [hpc] at hs; simp at hs
  | done r => rw [hpc] at hs; simp at hs
  | uTop v =>
    have h0 := i.owner (th := th) (by rw [hpc]; rfl)
    subst h0
    have ho := i.own
    rw [hpc] at hs hp ho; simp only [Option.some.injEq] at hs; subst hs
    have ho : Settled kind c g := ho
    unfold afterUTop
    cases kind with
    | unbounded =>
      have hb : c.bot = g.B := by
        rcases ho with h | ⟨h, -⟩
        · exact h
        · cases h
      simp only
      split
      · exact quiet _ (fun _ => ⟨hb, Int.le_refl _, by omega, rfl⟩) trivial (fun _ => rfl) hp
      · exact quiet _ (fun _ => ⟨hb, by omega⟩) trivial (fun _ => rfl) hp
    | bounded =>
      simp only
      split
      · exact eff _ (.push v) .full (fun _ => ho) trivial (fun _ => rfl) hp ⟨.inl rfl, rfl⟩ rfl
      · have hb : c.bot = g.B := by
          rcases ho with h | ⟨-, h1, h2⟩
          · exact h
          · omega
        exact quiet _ (fun _ => ⟨hb, by omega⟩) trivial (fun _ => rfl) hp
    | localQ =>
      have hb : c.bot = g.B := by
        rcases ho with h | ⟨h, -⟩
        · exact h
        · cases h
      have hc := hcap (by simp)
      simp only
      split
      · exact eff _ (.push v) .full (fun _ => ho) trivial (fun _ => rfl) hp
          ⟨.inr (by rw [hlen]; congr 1; omega), rfl⟩ rfl
      · exact quiet _ (fun _ => ⟨hb, by omega⟩) trivial (fun _ => rfl) hp
  | uGrow v t =>
    have h0 := i.owner (th := th) (by rw [hpc]; rfl)
    subst h0
    have ho := i.own
    rw [hpc] at ho
    have i' := i.grow v t d hpc
    rw [hpc] at hs hp; simp only [Option.some.injEq] at hs; subst hs
    refine ⟨s, .tau s, g, i', fun hk => absurd ho.2.2.2 hk, ha, phases_upd' hph ?_ hp⟩
    intro t' hne b hb
    have := i.others t' hne
    rw [hb] at this; cases this
  | uWrite v =>
    have h0 := i.owner (th := th) (by rw [hpc]; rfl)
    subst h0
    have i' := i.write v hpc
    rw [hpc] at hs hp; simp only [Option.some.injEq] at hs; subst hs
    refine ⟨s, .tau s, g, i', hcap, ha, phases_upd' hph ?_ hp⟩
    intro t' hne b hb
    have := i.others t' hne
    rw [hb] at this; cases this
  | uPub v =>
    have h0 := i.owner (th := th) (by rw [hpc]; rfl)
    subst h0
    have ho := i.own
    have i' := i.pub v hpc
    rw [hpc] at hs hp ho; simp only [Option.some.injEq] at hs; subst hs
    have hB : (g.B + 1 - c.top).toNat = (g.B - c.top).toNat + 1 := by omega
    have hpush : specOf kind cap s.abs (.push v) .ok (s.abs ++ [v]) := by
      apply spec_push_ok
      intro hk
      have := hcap hk
      have := ho.2.1
      omega
    refine ⟨_, .eff hp hpush, _, i', hcap, ?_, phases_upd hph (same _ rfl rfl rfl) rfl⟩
    show s.abs ++ [v] = seg (setSlot g.log g.B v) c.top (g.B + 1 - c.top).toNat
    rw [hB, seg_succ_last, ha]
    congr 1
    · exact seg_congr (fun p h1 h2 => (setSlot_ne _ _ (by omega)).symm)
    · rw [show c.top + ((g.B - c.top).toNat : Int) = g.B by omega, setSlot_same]
  | pPre =>
    have h0 := i.owner (th := th) (by rw [hpc]; rfl)
    subst h0
    have ho := i.own
    rw [hpc] at hs hp ho; simp only [Option.some.injEq] at hs; subst hs
    have ho : Settled kind c g := ho
    split
    · have hT : c.top = g.B := by rcases ho with h | ⟨-, h1, h2⟩ <;> omega
      refine eff _ .pop .null (fun _ => ho) trivial (fun _ => rfl) hp ?_ rfl
      rw [hnil hT]; exact spec_pop_null
    · refine quiet _ (fun _ => ⟨ho, fun hk => ?_⟩) trivial (fun _ => rfl) hp
      have := (i.nn hk).2
      omega
  | pSet =>
    have h0 := i.owner (th := th) (by rw [hpc]; rfl)
    subst h0
    have ho := i.own
    rw [hpc] at hs hp ho; simp only [Option.some.injEq] at hs; subst hs
    obtain ⟨o1, o2⟩ := ho
    have hbl := i.botLe
    refine ⟨s, .tau s, g, i.setBot (c.bot - 1) (.pTop (c.bot - 1)) (by omega) (fun hk => by have := o2 hk; omega) ?_ trivial,
      hcap, ha, phases_upd' hph (same _ rfl rfl rfl) hp⟩
    refine ⟨rfl, ?_⟩
    rcases o1 with h | ⟨h1, h2, h3⟩
    · exact .inl (by omega)
    · exact .inr ⟨h1, by omega, h3⟩
  | pTop b =>
    have h0 := i.owner (th := th) (by rw [hpc]; rfl)
    subst h0
    have ho := i.own
    have htake := i.take b hpc
    rw [hpc] at hs hp ho; simp only [Option.some.injEq] at hs; subst hs
    obtain ⟨o1, o2⟩ := ho
    unfold afterPTop
    split
    · have hT : c.top = g.B := by rcases o2 with h | ⟨-, -, h⟩ <;> omega
      refine eff _ .pop .null (fun _ => ⟨o1, ?_⟩) trivial (fun _ => rfl) hp ?_ rfl
      · rcases o2 with h | h
        · exact .inl h.symm
        · exact .inr h
      · rw [hnil hT]; exact spec_pop_null
    · split
      · refine quiet _ (fun _ => ⟨o1, ?_, by omega⟩) trivial (fun _ => rfl) hp
        rcases o2 with h | ⟨-, h0, h⟩ <;> omega
      · obtain ⟨hB, i'⟩ := htake (by omega)
        have hn : (g.B - c.top).toNat = (b - c.top).toNat + 1 := by omega
        have hsl := i.slot b (by omega) (by omega)
        have hpop : specOf kind cap s.abs .pop (.val (c.arr c.cur (b % c.cap c.cur))) (seg g.log c.top (b - c.top).toNat) := by
          rw [ha, hn, seg_succ_last, show c.top + ((b - c.top).toNat : Int) = b by omega, ← hsl]
          exact spec_pop_val
        exact ⟨_, .eff hp hpop, _, i', hcap, rfl, phases_upd hph (same _ rfl rfl rfl) rfl⟩
  | pTake b =>
    have h0 := i.owner (th := th) (by rw [hpc]; rfl)
    subst h0
    have ho := i.own
    rw [hpc] at hs hp ho; simp only [Option.some.injEq] at hs; subst hs
    exact quiet _ (fun _ => .inl (ho.1.trans ho.2.symm)) trivial (fun _ => rfl) hp
  | pLast b =>
    have h0 := i.owner (th := th) (by rw [hpc]; rfl)
    subst h0
    have ho := i.own
    rw [hpc] at hs hp ho; simp only [Option.some.injEq] at hs; subst hs
    refine quiet _ (fun _ => ⟨ho.1, ho.2.1, ho.2.2, fun e => ?_⟩) trivial (fun _ => rfl) hp
    have := ho.2.1
    exact i.slot b (by omega) (by omega)
  | pCas b v =>
    have h0 := i.owner (th := th) (by rw [hpc]; rfl)
    subst h0
    have ho := i.own
    rw [hpc] at hs hp ho; simp only at hs
    obtain ⟨o1, o2, o3, o4⟩ := ho
    split at hs
    · next h =>
      subst h
      simp only [Option.some.injEq] at hs; subst hs
      have i' := i.advance 0 (.pRestore c.top (.val v)) (by omega) (fun _ => ⟨o1, .inl o2⟩) trivial (fun _ => rfl)
      have hn : (g.B - c.top).toNat = 0 + 1 := by omega
      have hn' : (g.B - (c.top + 1)).toNat = 0 := by omega
      have hpop : specOf kind cap s.abs .pop (.val v) [] := by
        rw [ha, hn, seg_succ_head, ← o4 rfl]
        exact spec_pop_val (q := [])
      refine ⟨_, .eff hp hpop, _, i', hcap, ?_, phases_upd hph (same _ rfl rfl rfl) rfl⟩
      show [] = seg g.log (c.top + 1) (g.B - (c.top + 1)).toNat
      rw [hn']; rfl
    · next h =>
      have hT : c.top = g.B := by omega
      split at hs
      · next hk =>
        simp only [Option.some.injEq] at hs; subst hs
        refine eff _ .pop .null (fun _ => .inr ⟨hk, by omega, hT⟩) trivial (fun _ => rfl) hp ?_ rfl
        rw [hnil hT]; exact spec_pop_null
      · simp only [Option.some.injEq] at hs; subst hs
        refine eff _ .pop .null (fun _ => ⟨o1, .inl o2⟩) trivial (fun _ => rfl) hp ?_ rfl
        rw [hnil hT]; exact spec_pop_null
  | pRestore b r =>
    have h0 := i.owner (th := th) (by rw [hpc]; rfl)
    subst h0
    have ho := i.own
    rw [hpc] at hs hp ho; simp only [Option.some.injEq] at hs; subst hs
    obtain ⟨o1, o2⟩ := ho
    refine ⟨s, .tau s, g, i.setBot (b + 1) (.done r) ?_ (fun hk => ?_) ?_ trivial,
      hcap, ha, phases_upd' hph (same _ rfl rfl rfl) hp⟩
    · rcases o2 with h | ⟨-, h, -⟩ <;> omega
    · have := (i.nn hk).1; omega
    · rcases o2 with h | ⟨h1, h2, h3⟩
      · exact .inl h.symm
      · exact .inr ⟨h1, by show b + 1 = g.B - 1; omega, h3⟩
  | sTop =>
    have hset := thief (by rw [hpc]; rfl) (by rw [hpc]; intro _ _ h; cases h)
    rw [hpc] at hs hp; simp only [Option.some.injEq] at hs; subst hs
    split
    · exact quiet _ hset (Int.le_refl _) (fun h => by cases h) hp
    · exact quiet _ hset (Int.le_refl _) (fun h => by cases h) hp
  | sPre t =>
    have hset := thief (by rw [hpc]; rfl) (by rw [hpc]; intro _ _ h; cases h)
    rw [hpc] at hs hp ht; simp only [Option.some.injEq] at hs; subst hs
    split
    · exact eff _ .steal .null hset trivial (fun h => by cases h) hp spec_steal_null rfl
    · exact quiet _ hset ht (fun h => by cases h) hp
  | sBot t =>
    have hset := thief (by rw [hpc]; rfl) (by rw [hpc]; intro _ _ h; cases h)
    rw [hpc] at hs hp ht; simp only [Option.some.injEq] at hs; subst hs
    have ht : t ≤ c.top := ht
    have hbl := i.botLe
    split
    · exact quiet _ hset ⟨ht, fun _ => by omega⟩ (fun h => by cases h) hp
    · exact eff _ .steal .null hset trivial (fun h => by cases h) hp spec_steal_null rfl
  | sArr t =>
    have hset := thief (by rw [hpc]; rfl) (by rw [hpc]; intro _ _ h; cases h)
    rw [hpc] at hs hp ht; simp only [Option.some.injEq] at hs; subst hs
    refine quiet _ hset ⟨ht.1, Nat.le_refl _, fun e => ⟨ht.2 e, ?_⟩⟩ (fun h => by cases h) hp
    exact i.slot t (by omega) (ht.2 e)
  | sRead t a =>
    have hset := thief (by rw [hpc]; rfl) (by rw [hpc]; intro _ _ h; cases h)
    rw [hpc] at hs hp ht; simp only [Option.some.injEq] at hs; subst hs
    exact quiet _ hset ⟨ht.1, ht.2.2⟩ (fun h => by cases h) hp
  | sCas t v =>
    have hset := thief (by rw [hpc]; rfl) (by rw [hpc]; intro _ _ h; cases h)
    rw [hpc] at hs hp ht; simp only at hs
    split at hs
    · next h =>
      subst h
      simp only [Option.some.injEq] at hs; subst hs
      obtain ⟨t1, t2⟩ := ht.2 rfl
      have i' := i.advance th (.done (.val v)) t1 (fun h => by
        rcases hset h with h | ⟨-, -, h⟩
        · exact .inl h
        · omega) trivial (fun h => by cases h)
      have hn : (g.B - c.top).toNat = (g.B - (c.top + 1)).toNat + 1 := by omega
      have hst : specOf kind cap s.abs .steal (.val v) (seg g.log (c.top + 1) (g.B - (c.top + 1)).toNat) := by
        rw [ha, hn, seg_succ_head, ← t2]
        exact spec_steal_val
      exact ⟨_, .eff hp hst, _, i', hcap, rfl, phases_upd hph (same _ rfl rfl rfl) rfl⟩
    · split at hs
      · simp only [Option.some.injEq] at hs; subst hs
        exact quiet _ hset (Int.le_refl _) (fun h => by cases h) hp
      · simp only [Option.some.injEq] at hs; subst hs
        exact eff _ .steal .null hset trivial (fun h => by cases h) hp spec_steal_null rfl

theorem sim_step {kind : Kind} {cap : Nat} {c c' : Conf V} {s : State (Op V) (Res V) (List V)} {e}
    (h : Rel kind cap c s) (hs : Step kind c e c') : ∃ s', Sim (specOf kind cap) s e s' ∧ Rel kind cap c' s' := by
  cases hs with
  | tau th d _ hst => exact sim_tau h hst
  | call th op hid hal =>
    obtain ⟨g, i, hcap, ha, hph⟩ := h
    have hp := hph th
    rw [hid] at hp
    have hset : th = 0 → Settled kind c g := by
      intro h; subst h; have := i.own; rw [hid] at this; exact this
    refine ⟨_, .call hp, g, i.move th (entry kind op) ?_ ?_ ?_, hcap, ha, phases_upd hph (fun _ _ _ _ => rfl) ?_⟩
    · intro h0
      have hset := hset h0
      cases op with
      | push v => exact hset
      | pop =>
        cases kind with
        | unbounded => exact ⟨hset, fun h => absurd rfl h⟩
        | bounded => exact ⟨hset, fun _ => hal.2 rfl⟩
        | localQ => exact hset
      | steal => exact hset
    · cases op <;> cases kind <;> trivial
    · intro ho
      cases op with
      | push v => exact hal
      | pop => exact hal.1
      | steal => cases ho
    · cases op <;> cases kind <;> rfl
  | ret th r hd =>
    obtain ⟨g, i, hcap, ha, hph⟩ := h
    have hp := hph th
    rw [hd] at hp
    refine ⟨_, .ret hp, g, i.move th .idle ?_ trivial (fun h => by cases h), hcap, ha, phases_upd hph (fun _ _ _ _ => rfl) rfl⟩
    intro h; subst h; have := i.own; rw [hd] at this; exact this

/-- All three variants, every execution. -/
theorem linearizable_all (kind : Kind) (cap : Nat) (hcap : 0 < cap) (d : V) (h : List (Vis (Op V) (Res V))) (c : Conf V)
    (he : Exec (Step kind) (init kind cap d) h c) :
    ∃ ext s, Run (specOf kind cap) ⟨[], fun _ => .idle⟩ ext s ∧ ext.filterMap Ext.vis = h ∧ Rel kind cap c s := by
  induction he with
  | start =>
    refine ⟨[], _, .nil _, rfl, _, inv_init kind cap (by omega) d (fun _ => d), fun _ => rfl, ?_, fun _ => rfl⟩
    show [] = seg _ (init kind cap d).bot ((init kind cap d).bot - (init kind cap d).bot).toNat
    rw [Int.sub_self]; rfl
  | step _ hst ih =>
    obtain ⟨ext, s, h1, h2, h3⟩ := ih
    obtain ⟨s', ⟨ext', g1, g2⟩, g3⟩ := sim_step h3 hst
    exact ⟨ext ++ ext', s', h1.append g1, by rw [List.filterMap_append, h2, g2], g3⟩

/-! ## Counting items -/

/-- Number of `Push` calls with an item satisfying `P`. -/
def pushed (P : V → Bool) (h : List (Vis (Op V) (Res V))) : Nat :=
  h.countP (fun e => match e with | .call _ (.push v) => P v | _ => false)

/-- Number of returns handing out an item satisfying `P`. -/
def handed (P : V → Bool) (h : List (Vis (Op V) (Res V))) : Nat :=
  h.countP (fun e => match e with | .ret _ (.val v) => P v | _ => false)

/-- Number of `Push` calls that returned success. -/
def succeeded (h : List (Vis (Op V) (Res V))) : Nat :=
  h.countP (fun e => match e with | .ret _ .ok => true | _ => false)

def fIn (P : V → Bool) : Op V → Int
  | .push v => if P v then 1 else 0
  | _ => 0

def gOut (P : V → Bool) : Res V → Int
  | .val v => if P v then -1 else 0
  | _ => 0

theorem total_eq (P : V → Bool) (h : List (Vis (Op V) (Res V))) :
    total (fIn P) (gOut P) h = pushed P h - handed P h := by
  induction h with
  | nil => rfl
  | cons e h ih =>
    rw [total_cons, ih]
    rcases e with ⟨t, op⟩ | ⟨t, r⟩
    · cases op <;> simp only [pushed, handed, List.countP_cons, contrib, fIn] <;> split <;> simp_all <;> omega
    · cases r <;> simp only [pushed, handed, List.countP_cons, contrib, gOut] <;> split <;> simp_all <;> omega

theorem spec_count (kind : Kind) (cap : Nat) (P : V → Bool) (q : List V) (op : Op V) (r : Res V) (q' : List V)
    (h : specOf kind cap q op r q') :
    (q'.countP P : Int) ≤ q.countP P + fIn P op + gOut P r ∧
      (kind = .unbounded → (q'.countP P : Int) = q.countP P + fIn P op + gOut P r) := by
  have h : ∃ c w, (kind = .unbounded → c = none ∧ w = false) ∧ deque c w q op r q' := by
    cases kind
    · exact ⟨_, _, fun _ => ⟨rfl, rfl⟩, h⟩
    · exact ⟨_, _, (fun e => nomatch e), h⟩
    · exact ⟨_, _, (fun e => nomatch e), h⟩
  obtain ⟨c, w, hk, h⟩ := h
  have step : (q'.countP P : Int) = q.countP P + fIn P op + gOut P r ∨ (r = .full ∧ q' = q ∧ kind ≠ .unbounded) := by
    cases op <;> cases r <;> try exact False.elim h
    · obtain ⟨rfl, -⟩ := h
      left
      simp only [List.countP_append, List.countP_cons, List.countP_nil, fIn, gOut]
      split <;> simp
    · obtain ⟨h1, rfl⟩ := h
      right
      refine ⟨rfl, rfl, fun e => ?_⟩
      obtain ⟨rfl, rfl⟩ := hk e
      rcases h1 with h1 | h1 <;> cases h1
    · have h : q = q' ++ [_] := h
      subst h
      left
      simp only [List.countP_append, List.countP_cons, List.countP_nil, fIn, gOut]
      split <;> simp <;> omega
    · obtain ⟨-, rfl⟩ := h
      left; simp [fIn, gOut]
    · have h : q = _ :: q' := h
      subst h
      left
      simp only [List.countP_cons, fIn, gOut]
      split <;> simp <;> omega
    · have h : q' = q := h
      subst h
      left; simp [fIn, gOut]
  rcases step with h | ⟨rfl, rfl, hu⟩
  · exact ⟨by omega, fun _ => h⟩
  · refine ⟨?_, fun h => absurd h hu⟩
    have : 0 ≤ fIn P op := by
      unfold fIn
      split
      · split <;> omega
      · omega
    simp only [gOut]; omega

/-- **C20/C21/C22.**  For every set `P` of items: at any moment, no more items of `P` have been handed out (to the
owner and all thieves together) than pushed.  With `P` a single item pushed once: it is handed out at most once. -/
theorem at_most_once (kind : Kind) (cap : Nat) (hcap : 0 < cap) (d : V) (h : List (Vis (Op V) (Res V))) (c : Conf V)
    (he : Exec (Step kind) (init kind cap d) h c) (P : V → Bool) : handed P h ≤ pushed P h := by
  obtain ⟨ext, s, h1, h2, -⟩ := linearizable_all kind cap hcap d h c he
  have := total_nonneg (spec := specOf kind cap) (fIn P) (gOut P) (fun q => (q.countP P : Int))
    (fun q op r q' h => (spec_count kind cap P q op r q' h).1) (fun _ => by omega)
    (fun op => by cases op <;> simp only [fIn] <;> (try split) <;> omega)
    (fun r => by cases r <;> simp only [gOut] <;> (try split) <;> omega) (a := []) rfl ⟨ext, s, h1, h2⟩
  rw [total_eq] at this
  omega

/-! ## Operations when nobody else is active -/

theorem Exec.tau {kind : Kind} {i c c' : Conf V} {h} (th : Nat) (d : Int → V) (he : Exec (Step kind) i h c)
    (hs : tstep kind c th d = some c') : Exec (Step kind) i h c' := by
  have := Exec.step he (.tau c th d c' hs)
  simpa using this

theorem idle_upd {pc : Nat → PC V} (hid : ∀ t, pc t = .idle) (th : Nat) : ∀ t, upd pc th .idle t = .idle := by
  intro t
  by_cases e : t = th
  · subst e; simp only [upd_same]
  · simp only [upd_ne _ _ e, hid]

theorem upd_upd {α : Type} (f : Nat → α) (t : Nat) (a b : α) : upd (upd f t a) t b = upd f t b := by
  funext s
  by_cases e : s = t
  · subst e; rw [upd_same, upd_same]
  · rw [upd_ne _ _ e, upd_ne _ _ e, upd_ne _ _ e]

/-- A steal on a quiescent queue returns the oldest item, or nothing if there is none. -/
theorem solo_steal {kind : Kind} {ini c : Conf V} {g : Ghost V} {h} (he : Exec (Step kind) ini h c) (i : Inv kind c g)
    (hid : ∀ t, c.pc t = .idle) (th : Nat) (hB : c.bot = g.B) :
    ∃ c', Exec (Step kind) ini (h ++ [.call th .steal, .ret th (if c.top < g.B then .val (g.log c.top) else .null)]) c' ∧
      ∀ t, c'.pc t = .idle := by
  have e0 := Exec.step he (.call c th .steal (hid th) trivial)
  have hd : Int → V := c.arr 0
  by_cases hlt : c.top < g.B
  · rw [if_pos hlt]
    have hsl := i.slot c.top (Int.le_refl _) hlt
    have key : ∃ c', Exec (Step kind) ini (h ++ (some (Vis.call th .steal)).toList) c' ∧
        c' = { c with pc := upd c.pc th (.sBot c.top) } := by
      by_cases hk : kind = .localQ
      · subst hk
        have e1 := Exec.tau th hd e0 (by simp only [tstep, upd_same, entry, if_true]; rfl)
        have e2 := Exec.tau th hd e1 (by
          simp only [tstep, upd_same]
          rw [if_neg (by omega)])
        exact ⟨_, e2, by simp only [upd_upd]⟩
      · have e1 := Exec.tau th hd e0 (by simp only [tstep, upd_same, entry, hk, if_false]; rfl)
        exact ⟨_, e1, by simp only [upd_upd]⟩
    obtain ⟨c1, e2, rfl⟩ := key
    have e3 := Exec.tau th hd e2 (by
      simp only [tstep, upd_same]
      rw [if_pos (by omega)])
    have e4 := Exec.tau th hd e3 (by simp only [tstep, upd_same]; rfl)
    have e5 := Exec.tau th hd e4 (by simp only [tstep, upd_same]; rfl)
    have e6 := Exec.tau th hd e5 (by simp only [tstep, upd_same, if_true]; rfl)
    have e7 := Exec.step e6 (.ret _ th (.val (g.log c.top)) (by simp only [upd_same]; rw [hsl]))
    refine ⟨_, by simpa using e7, ?_⟩
    simp only [upd_upd]
    exact idle_upd hid th
  · rw [if_neg hlt]
    by_cases hk : kind = .localQ
    · subst hk
      have e1 := Exec.tau th hd e0 (by simp only [tstep, upd_same, entry, if_true]; rfl)
      have e2 := Exec.tau th hd e1 (by
        simp only [tstep, upd_same]
        rw [if_pos (by omega)])
      have e3 := Exec.step e2 (.ret _ th .null (by simp only [upd_same]))
      refine ⟨_, by simpa using e3, ?_⟩
      simp only [upd_upd]
      exact idle_upd hid th
    · have e1 := Exec.tau th hd e0 (by simp only [tstep, upd_same, entry, hk, if_false]; rfl)
      have e2 := Exec.tau th hd e1 (by
        simp only [tstep, upd_same]
        rw [if_neg (by omega)])
      have e3 := Exec.step e2 (.ret _ th .null (by simp only [upd_same]))
      refine ⟨_, by simpa using e3, ?_⟩
      simp only [upd_upd]
      exact idle_upd hid th

/-- A pop on a quiescent queue returns the newest item, or nothing if there is none. -/
theorem solo_pop {kind : Kind} {ini c : Conf V} {g : Ghost V} {h} (he : Exec (Step kind) ini h c) (i : Inv kind c g)
    (hid : ∀ t, c.pc t = .idle) (hB : c.bot = g.B) (hpos : kind = .bounded → 0 < c.bot) :
    ∃ c', Exec (Step kind) ini (h ++ [.call 0 .pop, .ret 0 (if c.top < g.B then .val (g.log (g.B - 1)) else .null)]) c' ∧
      ∀ t, c'.pc t = .idle := by
  have e0 := Exec.step he (.call c 0 .pop (hid 0) ⟨rfl, hpos⟩)
  have hd : Int → V := c.arr 0
  have hle := i.le
  by_cases hlt : c.top < g.B
  · rw [if_pos hlt]
    have hsl := i.slot (g.B - 1) (by omega) (by omega)
    rw [← hB] at hsl
    have key : ∃ c', Exec (Step kind) ini (h ++ (some (Vis.call 0 .pop)).toList) c' ∧
        c' = { c with pc := upd c.pc 0 .pSet } := by
      by_cases hk : kind = .localQ
      · subst hk
        have e1 := Exec.tau 0 hd e0 (by
          simp only [tstep, upd_same, entry, if_true]
          rw [if_neg (by omega)])
        exact ⟨_, e1, by simp only [upd_upd]⟩
      · exact ⟨_, e0, by simp only [entry, hk, if_false]⟩
    obtain ⟨c1, e1, rfl⟩ := key
    have e2 := Exec.tau 0 hd e1 (by simp only [tstep, upd_same]; rfl)
    have e3 := Exec.tau 0 hd e2 (by simp only [tstep, upd_same]; rfl)
    by_cases hone : c.top = c.bot - 1
    · simp only [afterPTop, hone, Int.lt_irrefl, gt_iff_lt, if_false, if_true] at e3
      have e4 := Exec.tau 0 hd e3 (by simp only [tstep, upd_same]; rfl)
      have e5 := Exec.tau 0 hd e4 (by simp only [tstep, upd_same, if_true]; rfl)
      have e6 := Exec.tau 0 hd e5 (by simp only [tstep, upd_same]; rfl)
      have e7 := Exec.step e6 (.ret _ 0 (.val (g.log (g.B - 1))) (by simp only [upd_same]; rw [hsl, ← hB]))
      refine ⟨_, by simpa using e7, ?_⟩
      simp only [upd_upd]
      exact idle_upd hid 0
    · have hpt : afterPTop (V := V) (c.bot - 1) c.top = .pTake (c.bot - 1) := by
        unfold afterPTop
        rw [if_neg (by omega), if_neg (by omega)]
      simp only [hpt] at e3
      have e4 := Exec.tau 0 hd e3 (by simp only [tstep, upd_same]; rfl)
      have e7 := Exec.step e4 (.ret _ 0 (.val (g.log (g.B - 1))) (by simp only [upd_same]; rw [hsl, ← hB]))
      refine ⟨_, by simpa using e7, ?_⟩
      simp only [upd_upd]
      exact idle_upd hid 0
  · rw [if_neg hlt]
    by_cases hk : kind = .localQ
    · subst hk
      have e1 := Exec.tau 0 hd e0 (by
        simp only [tstep, upd_same, entry, if_true]
        rw [if_pos (by omega)])
      have e3 := Exec.step e1 (.ret _ 0 .null (by simp only [upd_same]))
      refine ⟨_, by simpa using e3, ?_⟩
      simp only [upd_upd]
      exact idle_upd hid 0
    · have e1 := Exec.tau 0 hd e0 (by simp only [tstep, upd_same, entry, hk, if_false]; rfl)
      have e2 := Exec.tau 0 hd e1 (by
        simp only [tstep, upd_same, afterPTop]
        rw [if_pos (by omega)])
      have e4 := Exec.tau 0 hd e2 (by simp only [tstep, upd_same]; rfl)
      have e3 := Exec.step e4 (.ret _ 0 .null (by simp only [upd_same]))
      refine ⟨_, by simpa using e3, ?_⟩
      simp only [upd_upd]
      exact idle_upd hid 0

/-- A push on a quiescent queue that is not full succeeds. -/
theorem solo_push {kind : Kind} {ini c : Conf V} {g : Ghost V} {h} (he : Exec (Step kind) ini h c) (i : Inv kind c g)
    (hid : ∀ t, c.pc t = .idle) (hB : c.bot = g.B) (v : V)
    (hroom : kind ≠ .unbounded → g.B - c.top < c.cap c.cur) :
    ∃ c', Exec (Step kind) ini (h ++ [.call 0 (.push v), .ret 0 .ok]) c' ∧ ∀ t, c'.pc t = .idle := by
  have e0 := Exec.step he (.call c 0 (.push v) (hid 0) rfl)
  have hd : Int → V := c.arr 0
  have hle := i.le
  have e1 := Exec.tau 0 hd e0 (by simp only [tstep, upd_same, entry]; rfl)
  have key : ∃ c', Exec (Step kind) ini (h ++ (some (Vis.call 0 (.push v))).toList) c' ∧ c'.pc = upd c.pc 0 (.uWrite v) := by
    by_cases hg : kind = .unbounded ∧ c.cap c.cur - 1 < c.bot - c.top
    · obtain ⟨rfl, hg⟩ := hg
      have : afterUTop .unbounded (c.cap c.cur) c.bot c.top v = .uGrow v c.top := by simp only [afterUTop, if_pos hg]
      simp only [this] at e1
      have e2 := Exec.tau 0 hd e1 (by simp only [tstep, upd_same]; rfl)
      exact ⟨_, e2, by simp only [upd_upd]⟩
    · have : afterUTop kind (c.cap c.cur) c.bot c.top v = .uWrite v := by
        cases kind with
        | unbounded => simp only [afterUTop]; rw [if_neg (fun h => hg ⟨rfl, h⟩)]
        | bounded => have := hroom (by simp); simp only [afterUTop]; rw [if_neg (by omega)]
        | localQ => have := hroom (by simp); simp only [afterUTop]; rw [if_neg (by omega)]
      simp only [this] at e1
      exact ⟨_, e1, by simp only [upd_upd]⟩
  obtain ⟨c1, e2, hpc⟩ := key
  have e3 := Exec.tau 0 hd e2 (by simp only [tstep, hpc, upd_same]; rfl)
  have e4 := Exec.tau 0 hd e3 (by simp only [tstep, upd_same]; rfl)
  have e5 := Exec.step e4 (.ret _ 0 .ok (by simp only [upd_same]))
  refine ⟨_, by simpa using e5, ?_⟩
  simp only [upd_upd]
  exact idle_upd hid 0

/-! ## C20 -/

/-- **C20.**  Every history of `UnboundedSPMCQueue` — one owner, any number of thieves, arrays growing while thieves
run — is linearizable for a double-ended queue: `Push` and `Pop` at one end, `Steal` at the other, `Pop` reporting
"nothing" only when the queue is empty. -/
theorem C20_unbounded_linearizable (cap : Nat) (hcap : 0 < cap) (d : V) (h : List (Vis (Op V) (Res V))) (c : Conf V)
    (he : Exec (Step .unbounded) (init .unbounded cap d) h c) : Linearizable (deque none false) [] h := by
  obtain ⟨ext, s, h1, h2, -⟩ := linearizable_all .unbounded cap hcap d h c he
  exact ⟨ext, s, h1, h2⟩

/-- **C20, at most once.** -/
theorem C20_unbounded_at_most_once (cap : Nat) (hcap : 0 < cap) (d : V) (h : List (Vis (Op V) (Res V))) (c : Conf V)
    (he : Exec (Step .unbounded) (init .unbounded cap d) h c) (P : V → Bool) : handed P h ≤ pushed P h :=
  at_most_once .unbounded cap hcap d h c he P

/-- **C20, nothing is lost.**  When no operation is in progress there is a list `q`, holding exactly the items pushed
and not handed out, such that a steal now returns its first item, a pop its last one, and a push succeeds. -/
theorem C20_unbounded_nothing_lost (cap : Nat) (hcap : 0 < cap) (d : V) (h : List (Vis (Op V) (Res V))) (c : Conf V)
    (he : Exec (Step .unbounded) (init .unbounded cap d) h c) (hid : ∀ t, c.pc t = .idle) :
    ∃ q : List V, (∀ P, pushed P h = handed P h + q.countP P) ∧
      (∀ th, ∃ c', Exec (Step .unbounded) (init .unbounded cap d)
        (h ++ [.call th .steal, .ret th (match q.head? with | some v => .val v | none => .null)]) c' ∧ ∀ t, c'.pc t = .idle) ∧
      (∃ c', Exec (Step .unbounded) (init .unbounded cap d)
        (h ++ [.call 0 .pop, .ret 0 (match q.getLast? with | some v => .val v | none => .null)]) c' ∧ ∀ t, c'.pc t = .idle) ∧
      (∀ v, ∃ c', Exec (Step .unbounded) (init .unbounded cap d) (h ++ [.call 0 (.push v), .ret 0 .ok]) c' ∧
        ∀ t, c'.pc t = .idle) := by
  obtain ⟨ext, s, h1, h2, g, i, -, ha, hph⟩ := linearizable_all .unbounded cap hcap d h c he
  have hs : ∀ t, s.phase t = .idle := by
    intro t; have := hph t; rw [hid t] at this; exact this
  have hB : c.bot = g.B := by
    have := i.own; rw [hid 0] at this
    rcases this with h | ⟨h, -⟩
    · exact h
    · cases h
  have hle := i.le
  refine ⟨s.abs, ?_, ?_, ?_, ?_⟩
  · intro P
    have := total_exact (spec := specOf .unbounded cap) (fIn P) (gOut P) (fun q => (q.countP P : Int))
      (fun q op r q' h => (spec_count .unbounded cap P q op r q' h).2 rfl) h1 hs
    rw [h2, total_eq] at this
    simp only [List.countP_nil] at this
    omega
  · intro th
    obtain ⟨c', e, hc⟩ := solo_steal he i hid th hB
    refine ⟨c', ?_, hc⟩
    rw [ha]
    by_cases hlt : c.top < g.B
    · rw [if_pos hlt] at e
      rw [show (g.B - c.top).toNat = (g.B - (c.top + 1)).toNat + 1 by omega, seg_succ_head]
      exact e
    · rw [if_neg hlt] at e
      rw [show (g.B - c.top).toNat = 0 by omega]
      exact e
  · obtain ⟨c', e, hc⟩ := solo_pop he i hid hB (fun h => by cases h)
    refine ⟨c', ?_, hc⟩
    rw [ha]
    by_cases hlt : c.top < g.B
    · rw [if_pos hlt] at e
      rw [show (g.B - c.top).toNat = (g.B - 1 - c.top).toNat + 1 by omega, seg_succ_last, List.getLast?_concat,
        show c.top + ((g.B - 1 - c.top).toNat : Int) = g.B - 1 by omega]
      exact e
    · rw [if_neg hlt] at e
      rw [show (g.B - c.top).toNat = 0 by omega]
      exact e
  · intro v
    exact solo_push he i hid hB v (fun h => absurd rfl h)

/-! ## C22 -/

/-- **C22.**  Every history of `LocalQueue` is linearizable for a double-ended queue of capacity `cap`, in which `Push`
fails only when `cap` fibers are queued. -/
theorem C22_local_linearizable (cap : Nat) (hcap : 0 < cap) (d : V) (h : List (Vis (Op V) (Res V))) (c : Conf V)
    (he : Exec (Step .localQ) (init .localQ cap d) h c) : Linearizable (deque (some cap) false) [] h := by
  obtain ⟨ext, s, h1, h2, -⟩ := linearizable_all .localQ cap hcap d h c he
  exact ⟨ext, s, h1, h2⟩

/-- **C22, at most once.** -/
theorem C22_local_at_most_once (cap : Nat) (hcap : 0 < cap) (d : V) (h : List (Vis (Op V) (Res V))) (c : Conf V)
    (he : Exec (Step .localQ) (init .localQ cap d) h c) (P : V → Bool) : handed P h ≤ pushed P h :=
  at_most_once .localQ cap hcap d h c he P

/-- Positions never go below 0, so the integers of the model agree with the `size_t` of the code. -/
theorem C22_no_wrap (cap : Nat) (hcap : 0 < cap) (d : V) (h : List (Vis (Op V) (Res V))) (c : Conf V)
    (he : Exec (Step .localQ) (init .localQ cap d) h c) : 0 ≤ c.bot ∧ 0 ≤ c.top := by
  obtain ⟨-, -, -, -, g, i, -, -⟩ := linearizable_all .localQ cap hcap d h c he
  exact i.nn (by simp)

def gLen : Res V → Int
  | .ok => 1
  | .val _ => -1
  | _ => 0

theorem spec_len (cap : Nat) (q : List V) (op : Op V) (r : Res V) (q' : List V) (h : deque (some cap) false q op r q') :
    (q'.length : Int) = q.length + 0 + gLen r := by
  cases op <;> cases r <;> try exact False.elim h
  · obtain ⟨rfl, -⟩ := h; simp [gLen]
  · obtain ⟨-, rfl⟩ := h; simp [gLen]
  · have h : q = q' ++ [_] := h
    subst h
    simp only [List.length_append, List.length_cons, List.length_nil, gLen]
    omega
  · obtain ⟨-, rfl⟩ := h; simp [gLen]
  · have h : q = _ :: q' := h
    subst h
    simp only [List.length_cons, gLen]
    omega
  · have h : q' = q := h
    subst h; simp [gLen]

/-- **C22, nothing is lost.**  When no operation is in progress there is a list `q` with as many fibers as were pushed
successfully and not handed out, such that a steal now returns its first fiber, a pop its last one, and a push
succeeds if fewer than `cap` are queued. -/
theorem C22_local_nothing_lost (cap : Nat) (hcap : 0 < cap) (d : V) (h : List (Vis (Op V) (Res V))) (c : Conf V)
    (he : Exec (Step .localQ) (init .localQ cap d) h c) (hid : ∀ t, c.pc t = .idle) :
    ∃ q : List V, succeeded h = handed (fun _ => true) h + q.length ∧
      (∀ th, ∃ c', Exec (Step .localQ) (init .localQ cap d)
        (h ++ [.call th .steal, .ret th (match q.head? with | some v => .val v | none => .null)]) c' ∧ ∀ t, c'.pc t = .idle) ∧
      (∃ c', Exec (Step .localQ) (init .localQ cap d)
        (h ++ [.call 0 .pop, .ret 0 (match q.getLast? with | some v => .val v | none => .null)]) c' ∧ ∀ t, c'.pc t = .idle) ∧
      (q.length < cap → ∀ v, ∃ c', Exec (Step .localQ) (init .localQ cap d) (h ++ [.call 0 (.push v), .ret 0 .ok]) c' ∧
        ∀ t, c'.pc t = .idle) := by
  obtain ⟨ext, s, h1, h2, g, i, hc, ha, hph⟩ := linearizable_all .localQ cap hcap d h c he
  have hs : ∀ t, s.phase t = .idle := by
    intro t; have := hph t; rw [hid t] at this; exact this
  have hB : c.bot = g.B := by
    have := i.own; rw [hid 0] at this
    rcases this with h | ⟨h, -⟩
    · exact h
    · cases h
  have hle := i.le
  refine ⟨s.abs, ?_, ?_, ?_, ?_⟩
  · have := total_exact (spec := specOf .localQ cap) (fun _ => 0)
      gLen (fun q => (q.length : Int))
      (fun q op r q' h => spec_len cap q op r q' h) h1 hs
    rw [h2] at this
    have cnt : ∀ l : List (Vis (Op V) (Res V)), total (fun _ => 0) gLen l =
          (succeeded l : Int) - handed (fun _ => true) l := by
      intro l
      induction l with
      | nil => rfl
      | cons e l ih =>
        rw [total_cons, ih]
        rcases e with ⟨t, op⟩ | ⟨t, r⟩
        · simp [succeeded, handed, contrib]
        · cases r <;> simp [succeeded, handed, contrib, gLen] <;> omega
    rw [cnt] at this
    simp only [List.length_nil] at this
    omega
  · intro th
    obtain ⟨c', e, hc⟩ := solo_steal he i hid th hB
    refine ⟨c', ?_, hc⟩
    rw [ha]
    by_cases hlt : c.top < g.B
    · rw [if_pos hlt] at e
      rw [show (g.B - c.top).toNat = (g.B - (c.top + 1)).toNat + 1 by omega, seg_succ_head]
      exact e
    · rw [if_neg hlt] at e
      rw [show (g.B - c.top).toNat = 0 by omega]
      exact e
  · obtain ⟨c', e, hc⟩ := solo_pop he i hid hB (fun h => by cases h)
    refine ⟨c', ?_, hc⟩
    rw [ha]
    by_cases hlt : c.top < g.B
    · rw [if_pos hlt] at e
      rw [show (g.B - c.top).toNat = (g.B - 1 - c.top).toNat + 1 by omega, seg_succ_last, List.getLast?_concat,
        show c.top + ((g.B - 1 - c.top).toNat : Int) = g.B - 1 by omega]
      exact e
    · rw [if_neg hlt] at e
      rw [show (g.B - c.top).toNat = 0 by omega]
      exact e
  · intro hl v
    refine solo_push he i hid hB v (fun hk => ?_)
    have := hc hk
    rw [ha, seg_length] at hl
    omega

/-! ## C21 -/

/-- **C21, partial.**  Executions of `BoundedSPMCQueue` in which `Dequeue` is not called while `bottom_` is 0 are
linearizable for a double-ended queue in which `Enqueue` may fail at any time; in particular (next theorem) every
item is handed out at most once.  Missing, because the code violates it (`BoundedSpmc.lean`): executions with
`bottom_ = 0`, and `Enqueue` failing only when the queue is full. -/
theorem C21_bounded_linearizable_partial (cap : Nat) (hcap : 0 < cap) (d : V) (h : List (Vis (Op V) (Res V))) (c : Conf V)
    (he : Exec (Step .bounded) (init .bounded cap d) h c) :
    Linearizable (deque (some cap) true) [] h ∧ 0 ≤ c.bot ∧ 0 ≤ c.top := by
  obtain ⟨ext, s, h1, h2, g, i, -, -⟩ := linearizable_all .bounded cap hcap d h c he
  exact ⟨⟨ext, s, h1, h2⟩, i.nn (by simp)⟩

theorem C21_bounded_at_most_once_partial (cap : Nat) (hcap : 0 < cap) (d : V) (h : List (Vis (Op V) (Res V))) (c : Conf V)
    (he : Exec (Step .bounded) (init .bounded cap d) h c) (P : V → Bool) : handed P h ≤ pushed P h :=
  at_most_once .bounded cap hcap d h c he P

/-! Non-vacuity: the owner pushes two items (the array of size 1 grows), a thief takes one, the owner the other. -/

/-- A schedule. -/
inductive Act (V : Type)
  | call (th : Nat) (op : Op V)
  | tau (th : Nat)
  | ret (th : Nat)

/-- Is the call possible? -/
def callOk (kind : Kind) (c : Conf V) (th : Nat) (op : Op V) : Bool :=
  (match c.pc th with | .idle => true | _ => false) &&
  (match op with
    | .push _ => th == 0
    | .pop => th == 0 && (kind != .bounded || decide (0 < c.bot))
    | .steal => true)

/-- Play a schedule, collecting the visible history. -/
def play (kind : Kind) (d : Int → V) : List (Act V) → Conf V → Option (List (Vis (Op V) (Res V)) × Conf V)
  | [], c => some ([], c)
  | .call th op :: l, c =>
    if callOk kind c th op then
      (play kind d l { c with pc := upd c.pc th (entry kind op) }).map (fun x => (.call th op :: x.1, x.2))
    else none
  | .tau th :: l, c => (tstep kind c th d).bind (fun c' => play kind d l c')
  | .ret th :: l, c =>
    match c.pc th with
    | .done r => (play kind d l { c with pc := upd c.pc th .idle }).map (fun x => (.ret th r :: x.1, x.2))
    | _ => none

theorem play_sound {kind : Kind} {d : Int → V} {ini : Conf V} (l : List (Act V)) :
    ∀ {c : Conf V} {h h'} {c'}, Exec (Step kind) ini h c → play kind d l c = some (h', c') →
      Exec (Step kind) ini (h ++ h') c' := by
  induction l with
  | nil =>
    intro c h h' c' he hp
    simp only [play, Option.some.injEq, Prod.mk.injEq] at hp
    obtain ⟨rfl, rfl⟩ := hp
    simpa using he
  | cons a l ih =>
    intro c h h' c' he hp
    cases a with
    | call th op =>
      simp only [play] at hp
      split at hp
      · next hok =>
        simp only [Option.map_eq_some_iff, Prod.exists, Prod.mk.injEq] at hp
        obtain ⟨h1, c1, hp, rfl, rfl⟩ := hp
        have hid : c.pc th = .idle := by
          simp only [callOk, Bool.and_eq_true] at hok
          have := hok.1
          split at this
          · assumption
          · cases this
        have hal : allowed kind c th op := by
          simp only [callOk, Bool.and_eq_true] at hok
          have := hok.2
          cases op with
          | push v => simpa [allowed] using this
          | pop =>
            simp only [Bool.and_eq_true, beq_iff_eq, Bool.or_eq_true, bne_iff_ne, decide_eq_true_eq] at this
            refine ⟨this.1, fun h => ?_⟩
            rcases this.2 with h2 | h2
            · exact absurd h h2
            · exact h2
          | steal => trivial
        have := ih (Exec.step he (.call c th op hid hal)) hp
        simpa using this
      · cases hp
    | tau th =>
      simp only [play, Option.bind_eq_some_iff] at hp
      obtain ⟨c1, h1, hp⟩ := hp
      exact ih (Exec.tau th d he h1) hp
    | ret th =>
      simp only [play] at hp
      split at hp
      · next r hr =>
        simp only [Option.map_eq_some_iff, Prod.exists, Prod.mk.injEq] at hp
        obtain ⟨h1, c1, hp, rfl, rfl⟩ := hp
        have := ih (Exec.step he (.ret c th r hr)) hp
        simpa using this
      · cases hp

theorem play_exec {kind : Kind} {d : Int → V} {ini : Conf V} {l : List (Act V)} {h}
    (hp : (play kind d l ini).map (·.1) = some h) : ∃ c, Exec (Step kind) ini h c := by
  simp only [Option.map_eq_some_iff, Prod.exists, exists_and_right, exists_eq_right] at hp
  obtain ⟨c, hp⟩ := hp
  exact ⟨c, by simpa using play_sound l Exec.start hp⟩

example : ∃ c, Exec (Step .unbounded) (init .unbounded 1 0)
    [.call 0 (.push 7), .ret 0 .ok, .call 0 (.push 8), .ret 0 .ok, .call 4 .steal, .ret 4 (.val 7),
      .call 0 .pop, .ret 0 (.val 8)] c :=
  play_exec (d := fun _ => 99) (l :=
    [.call 0 (.push 7), .tau 0, .tau 0, .tau 0, .ret 0,
     .call 0 (.push 8), .tau 0, .tau 0, .tau 0, .tau 0, .ret 0,
     .call 4 .steal, .tau 4, .tau 4, .tau 4, .tau 4, .tau 4, .ret 4,
     .call 0 .pop, .tau 0, .tau 0, .tau 0, .tau 0, .tau 0, .ret 0]) (by decide +kernel)

example : handed (V := Nat) (· == 7) [.call 0 (.push 7), .ret 0 .ok, .call 4 .steal, .ret 4 (.val 7)] = 1 ∧
    pushed (V := Nat) (· == 7) [.call 0 (.push 7), .ret 0 .ok, .call 4 .steal, .ret 4 (.val 7)] = 1 := by decide

/-- The specification rejects an item handed out twice, and `Pop` reporting nothing on a non-empty queue. -/
example : ¬ deque (V := Nat) none false [1] .steal (.val 2) [] ∧ ¬ deque (V := Nat) none false [1] .pop .null [1] ∧
    ¬ deque (V := Nat) (some 2) false [1] (.push 3) .full [1] := by
  simp [deque]

end Verif.Queue.Deque
