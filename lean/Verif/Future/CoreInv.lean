import Verif.Future.CoreLemmas
/-!
# The global invariant of futures
-/

namespace Verif.Future.Core

variable {V E : Type} {bp : E} {s : St V E} {tr : List (Ev V E)}

theorem cons_local {i : Nat} (hl : Loc (s.fut i)) (h1 : ∀ p, (s.fut i).cons ≠ .chainV p)
    (h2 : ∀ p, (s.fut i).cons ≠ .chainE p) :
    consStep s i = (s, []) ∨ ∃ f', consStep s i = (s.put i f', []) ∧ Loc f' ∧ Silent (s.fut i) f' := by
  unfold consStep
  generalize s.fut i = f at *
  simp only []
  cases hp : f.cons with
  | free | done => simp
  | store c => exact .inr ⟨_, rfl, cons_store_local hl hp⟩
  | lock => exact .inr ⟨_, rfl, cons_lock_local hl hp⟩
  | chainR p => exact .inr ⟨_, rfl, cons_chain_local hl (.inl ⟨hp, rfl⟩)⟩
  | chainF p => exact .inr ⟨_, rfl, cons_chain_local hl (.inr ⟨hp, rfl⟩)⟩
  | chainV p => exact absurd hp (h1 p)
  | chainE p => exact absurd hp (h2 p)
  | sched x =>
    right
    have hx := hl.cs x hp
    rcases hs : schedStep f x with _ | ⟨f', o⟩
    · exact absurd hs (schedStep_ne_none hx.2 hl)
    · have e := cons_sched_end hl hp hs
      cases o with
      | none => exact ⟨_, by simp only [hs]; rfl, e⟩
      | some y => exact ⟨_, by simp only [hs]; rfl, e⟩

theorem Resolves.mono {tr' : List (Ev V E)} (h : ∀ e ∈ tr, e ∈ tr') {i : Nat} {r : Res V E} (hr : Resolves bp tr i r) :
    Resolves bp tr' i r := by
  induction hr with
  | make a => exact .make (h _ a)
  | set a => exact .set (h _ a)
  | broken a => exact .broken (h _ a)
  | skip a _ b => exact .skip (h _ a) b
  | chain a b _ c => exact .chain (h _ a) (h _ b) c

/-- The callback of the user has been called. -/
def Fut.Called (f : Fut V E) (r : Res V E) : Prop :=
  (∃ kind p, f.slot = some (.user kind p) ∧ calls kind r = true) ∧ f.res = some r ∧ (f.run = .over ∨ ∃ p, f.run = .user p)

structure Inv (bp : E) (s : St V E) (tr : List (Ev V E)) : Prop where
  loc : ∀ i, Loc (s.fut i)
  born : ∀ i, (s.fut i).prod = .unborn ↔ s.next ≤ i
  held : ∀ i p, (s.fut i).carry = some p → (s.fut p).prod = .held
  inj : ∀ i j p, (s.fut i).carry = some p → (s.fut j).carry = some p → i = j
  sound : ∀ i r, (s.fut i).res = some r → Resolves bp tr i r
  slotU : ∀ i kind p, (s.fut i).slot = some (.user kind p) ↔ .then_ i kind p ∈ tr
  slotC : ∀ k p, (s.fut k).slot = some (.chain p) → ∃ i kind, .then_ i kind (some p) ∈ tr ∧ .returned i k ∈ tr
  old : ∀ i kind p, .then_ i kind (some p) ∈ tr → p < s.next
  ret : ∀ i k kind p, .returned i k ∈ tr → .then_ i kind (some p) ∈ tr →
    (s.fut k).carry = some p ∨ ∃ r, (s.fut k).res = some r ∧ (s.fut p).res = some r
  skip : ∀ i p e, .then_ i .withValue (some p) ∈ tr → (s.fut i).res = some (.exc e) →
    (s.fut i).carry = some p ∨ (s.fut p).res = some (.exc e)
  retSlot : ∀ i k, .returned i k ∈ tr → ∀ kind p, (s.fut k).slot ≠ some (.user kind p)
  retFree : ∀ i k, .returned i k ∈ tr → (s.fut k).cons ≠ .free
  retRun : ∀ i k, .returned i k ∈ tr → (s.fut i).run = .over
  called : ∀ i r, .called i r ∈ tr ↔ (s.fut i).Called r
  cnt : ∀ i, tr.countP (Ev.isCalled i) ≤ 1
  cnt0 : ∀ i, ((s.fut i).run = .none ∨ ∃ c r, (s.fut i).run = .queued c r) → tr.countP (Ev.isCalled i) = 0
  set : ∀ i r, .set i r ∈ tr → (s.fut i).res = some r
  broken : ∀ i, .broken i ∈ tr → (s.fut i).res = some (.exc bp)
  make : ∀ i r, .make i r ∈ tr → (s.fut i).res = some r
  got : ∀ i r, .got i r ∈ tr → (s.fut i).res = some r
  ok : s.crashed = false
  ok' : .crash ∉ tr

theorem inv_init : Inv bp (init V E) [] := by
  constructor <;> first | exact fun _ => Loc.empty | simp [init, Fut.empty, Fut.carry, Fut.slot, Fut.Called]

theorem Silent.refl (f : Fut V E) : Silent f f := ⟨rfl, rfl, .rfl, .rfl, .rfl, fun _ => .rfl, id⟩

theorem Silent.called {f f' : Fut V E} (h : Silent f f') (r : Res V E) : f'.Called r ↔ f.Called r := by
  simp only [Fut.Called, h.slot, h.res, h.over, h.user]

theorem Silent.early {f f' : Fut V E} (h : Silent f f') :
    (f'.run = .none ∨ ∃ c r, f'.run = .queued c r) ↔ (f.run = .none ∨ ∃ c r, f.run = .queued c r) := by
  have h1 := h.over
  have h2 := h.user
  cases h3 : f.run <;> cases h4 : f'.run <;> simp_all

theorem Inv.congr (h : Inv bp s tr) {s' : St V E} (h1 : ∀ j, Silent (s.fut j) (s'.fut j)) (h2 : ∀ j, Loc (s'.fut j))
    (h3 : s'.next = s.next) (h4 : s'.crashed = s.crashed) : Inv bp s' tr := by
  have c := fun j => (h1 j).carry
  constructor
  · exact h2
  · intro i; rw [(h1 i).unborn, h3]; exact h.born i
  · intro i p; rw [c, (h1 p).held]; exact h.held i p
  · intro i j p; rw [c, c]; exact h.inj i j p
  · intro i r; rw [(h1 i).res]; exact h.sound i r
  · intro i kind p; rw [(h1 i).slot]; exact h.slotU i kind p
  · intro i p; rw [(h1 i).slot]; exact h.slotC i p
  · rw [h3]; exact h.old
  · intro i k kind p; rw [c, (h1 k).res, (h1 p).res]; exact h.ret i k kind p
  · intro i p e; rw [c, (h1 i).res, (h1 p).res]; exact h.skip i p e
  · intro i k; rw [(h1 k).slot]; exact h.retSlot i k
  · intro i k hr hf; exact h.retFree i k hr ((h1 k).free hf)
  · intro i k; rw [(h1 i).over]; exact h.retRun i k
  · intro i r; rw [(h1 i).called]; exact h.called i r
  · exact h.cnt
  · intro i; rw [(h1 i).early]; exact h.cnt0 i
  · intro i r; rw [(h1 i).res]; exact h.set i r
  · intro i; rw [(h1 i).res]; exact h.broken i
  · intro i r; rw [(h1 i).res]; exact h.make i r
  · intro i r; rw [(h1 i).res]; exact h.got i r
  · rw [h4]; exact h.ok
  · exact h.ok'

@[simp] theorem put_fut (s : St V E) (i : Nat) (f : Fut V E) (j : Nat) :
    (s.put i f).fut j = if j = i then f else s.fut j := rfl

@[simp] theorem put_next (s : St V E) (i : Nat) (f : Fut V E) : (s.put i f).next = s.next := rfl

@[simp] theorem put_crashed (s : St V E) (i : Nat) (f : Fut V E) : (s.put i f).crashed = s.crashed := rfl

theorem Inv.silent (h : Inv bp s tr) {i : Nat} {f' : Fut V E} (hl : Loc f') (hs : Silent (s.fut i) f') :
    Inv bp (s.put i f') tr := by
  refine h.congr ?_ ?_ rfl rfl
  · intro j
    by_cases hj : j = i
    · subst hj; simpa using hs
    · simp [hj, Silent.refl]
  · intro j
    by_cases hj : j = i
    · subst hj; simpa using hl
    · simp [hj, h.loc]

/-- A harmless event. -/
theorem Inv.got' (h : Inv bp s tr) {i : Nat} {r : Res V E} (hr : (s.fut i).res = some r) : Inv bp s (tr ++ [.got i r]) := by
  obtain ⟨a1, a2, a3, a4, a5, a6, a7, a8, a9, a10, b1, b2, a11, a12, a13, a14, a15, a16, a17, a18, a19, a20⟩ := h
  have hm : ∀ e, (∀ r, e ≠ .got i r) → (e ∈ tr ++ [.got i r] ↔ e ∈ tr) := by
    intro e he
    have := he r
    simp [this]
  have hth : ∀ j kind p, Ev.then_ j kind p ∈ tr ++ [.got i r] ↔ .then_ j kind p ∈ tr := fun _ _ _ => hm _ (by simp)
  have hre : ∀ j k, Ev.returned j k ∈ tr ++ [.got i r] ↔ .returned j k ∈ tr := fun _ _ => hm _ (by simp)
  have hca : ∀ j k, Ev.called j k ∈ tr ++ [.got i r] ↔ .called j k ∈ tr := fun _ _ => hm _ (by simp)
  have hcnt : ∀ j, (tr ++ [Ev.got i r]).countP (Ev.isCalled j) = tr.countP (Ev.isCalled j) := by
    intro j; simp [List.countP_append, Ev.isCalled]
  constructor <;> (try simp only [hth, hre, hca, hcnt]) <;> try assumption
  · intro i r hr
    exact (a5 i r hr).mono (by simp +contextual)
  · intro j r' h; exact a15 j r' ((hm _ (by simp)).1 h)
  · intro j h; exact a16 j ((hm _ (by simp)).1 h)
  · intro j r' h; exact a17 j r' ((hm _ (by simp)).1 h)
  · intro j r' h
    simp at h
    rcases h with h | ⟨rfl, rfl⟩
    · exact a18 _ _ h
    · exact hr
  · intro h; exact a20 ((hm _ (by simp)).1 h)

/-- A new future. -/
theorem Inv.alloc (h : Inv bp s tr) {f : Fut V E} {evs : List (Ev V E)} (hl : Loc f) (hb : f.prod ≠ .unborn)
    (hc : f.cons = .free) (hcb : f.callback = none) (hrun : f.run = .none)
    (he : (f.res = none ∧ evs = []) ∨ ∃ r, f.res = some r ∧ evs = [.make s.next r]) :
    Inv bp { s.put s.next f with next := s.next + 1 } (tr ++ evs) := by
  have hn : s.fut s.next = Fut.empty V E := (h.loc _).unborn ((h.born _).2 (Nat.le_refl _))
  have hslot : f.slot = none := by simp [Fut.slot, hc, hcb]
  have hcarry : f.carry = none := by simp [Fut.carry, hslot, hrun]
  have hncalled : ∀ r, ¬ f.Called r := by simp [Fut.Called, hslot]
  have hslot0 : (s.fut s.next).slot = none := by simp [hn, Fut.slot, Fut.empty]
  have hcarry0 : (s.fut s.next).carry = none := by simp [hn, Fut.slot, Fut.empty, Fut.carry]
  have hres0 : (s.fut s.next).res = none := by simp [hn, Fut.empty]
  have hrun0 : (s.fut s.next).run = .none := by simp [hn, Fut.empty]
  have hmem : ∀ e, e ∈ tr ++ evs ↔ e ∈ tr ∨ ∃ r, f.res = some r ∧ e = .make s.next r := by
    intro e
    rcases he with ⟨a, rfl⟩ | ⟨r, a, rfl⟩ <;> simp [a]
  have hcnt : ∀ i, (tr ++ evs).countP (Ev.isCalled i) = tr.countP (Ev.isCalled i) := by
    intro i
    rcases he with ⟨a, rfl⟩ | ⟨r, a, rfl⟩ <;> simp [List.countP_append, Ev.isCalled]
  clear he
  obtain ⟨a1, a2, a3, a4, a5, a6, a7, a8, a9, a10, b1, b2, a11, a12, a13, a14, a15, a16, a17, a18, a19, a20⟩ := h
  constructor <;> (try simp only [hmem, hcnt, put_fut, put_next, put_crashed])
  · intro i; split
    · exact hl
    · exact a1 i
  · intro i
    have := a2 i
    split
    · simp [hb]; omega
    · rw [this]; omega
  · intro i p
    have := a3 i p
    split
    · simp [hcarry]
    · intro h
      have h2 := this h
      have : p ≠ s.next := by rintro rfl; simp [hn, Fut.empty] at h2
      simp [this, h2]
  · intro i j p
    split <;> split <;> simp_all
    exact a4 i j p
  · intro i r
    split
    · intro hr; subst_vars
      exact .make ((hmem _).2 (.inr ⟨r, hr, rfl⟩))
    · intro hr; exact (a5 i r hr).mono fun e he => (hmem e).2 (.inl he)
  · intro i kind p
    have := a6 i kind p
    split <;> simp_all
  · intro i p
    have := a7 i p
    split <;> simp_all
  · intro i kind p h
    have := a8 i kind p
    simp at h
    exact Nat.lt_succ_of_lt (this h)
  · intro i k kind p h1 h2
    simp at h1 h2
    have := a9 i k kind p h1 h2
    have hp : p ≠ s.next := Nat.ne_of_lt (a8 _ _ _ h2)
    simp [hp]
    by_cases hk : k = s.next
    · subst hk; simp [hcarry0, hres0] at this
    · simpa [hk] using this
  · intro i p e h1 h2
    simp at h1
    have hp : p ≠ s.next := Nat.ne_of_lt (a8 _ _ _ h1)
    simp [hp]
    by_cases hk : i = s.next
    · subst hk
      have := (a6 _ _ _).2 h1
      simp [hslot0] at this
    · simp [hk] at h2 ⊢
      exact a10 i p e h1 h2
  · intro i k h kind p
    simp at h
    by_cases hk : k = s.next
    · subst hk; simp [hslot]
    · simp only [hk, ↓reduceIte]; exact b1 i k h kind p
  · intro i k h
    simp at h
    by_cases hk : k = s.next
    · subst hk
      have := b2 i _ h
      simp [hn, Fut.empty] at this
    · simp only [hk, ↓reduceIte]; exact b2 i k h
  · intro i k h
    simp at h
    have := a11 i k h
    have hk : i ≠ s.next := by rintro rfl; simp [hrun0] at this
    simp [hk, this]
  · intro i r
    have := a12 i r
    by_cases hk : i = s.next
    · subst hk
      have h0 : ¬ (s.fut s.next).Called r := by simp [Fut.Called, hslot0]
      simp [hncalled, this, h0]
    · simp [hk, this]
  · exact a13
  · intro i
    have := a14 i
    by_cases hk : i = s.next
    · subst hk
      intro _
      exact this (.inl hrun0)
    · simpa [hk] using this
  · intro i r h
    simp at h
    have := a15 i r h
    have hk : i ≠ s.next := by rintro rfl; simp [hres0] at this
    simp [hk, this]
  · intro i h
    simp at h
    have := a16 i h
    have hk : i ≠ s.next := by rintro rfl; simp [hres0] at this
    simp [hk, this]
  · intro i r h
    rcases h with h | ⟨r', h1, h2⟩
    · have := a17 i r h
      have hk : i ≠ s.next := by rintro rfl; simp [hres0] at this
      simp [hk, this]
    · simp at h2
      simp [h2.1, h1, h2.2]
  · intro i r h
    simp at h
    have := a18 i r h
    have hk : i ≠ s.next := by rintro rfl; simp [hres0] at this
    simp [hk, this]
  · exact a19
  · simp [a20]

/-- User code sets a promise or abandons it. -/
theorem Inv.setUser (h : Inv bp s tr) {i : Nat} {r : Res V E} {e : Ev V E} (hp : (s.fut i).prod = .user)
    (he : e = .set i r ∨ (e = .broken i ∧ r = .exc bp)) :
    Inv bp (s.put i { s.fut i with prod := .write r, res := some r }) (tr ++ [e]) := by
  have hres : (s.fut i).res = none := (h.loc i).res.2 (by simp [hp])
  have hslot : ({ s.fut i with prod := .write r, res := some r } : Fut V E).slot = (s.fut i).slot := rfl
  have hcarry : ({ s.fut i with prod := .write r, res := some r } : Fut V E).carry = (s.fut i).carry := rfl
  have hcons : ({ s.fut i with prod := .write r, res := some r } : Fut V E).cons = (s.fut i).cons := rfl
  have hrunn : (s.fut i).run = .none := by
    by_cases h' : (s.fut i).run = .none
    · exact h'
    · have := ((h.loc i).run h').1
      simp [hp] at this
  have hrun : ({ s.fut i with prod := .write r, res := some r } : Fut V E).run = .none := hrunn
  have hl : Loc ({ s.fut i with prod := .write r, res := some r } : Fut V E) := by
    have hl := h.loc i
    have he := hl.early (.inl hres)
    have hns : ∀ x, (s.fut i).cons ≠ .sched x := by
      intro x hx
      have := (hl.cs x hx).1
      simp [hp] at this
    obtain ⟨h1, h2, h3, h4, h5, h6, h7, h8, h9, h10, h11, h12, h13, h14, h15, h16, h17, h18, h19, h20⟩ := hl
    constructor <;> simp_all
  have hR : Resolves bp (tr ++ [e]) i r := by
    rcases he with rfl | ⟨rfl, rfl⟩
    · exact .set (by simp)
    · exact .broken (by simp)
  have hth : ∀ j kind p, Ev.then_ j kind p ∈ tr ++ [e] ↔ .then_ j kind p ∈ tr := by
    intros; rcases he with rfl | ⟨rfl, rfl⟩ <;> simp
  have hre : ∀ j k, Ev.returned j k ∈ tr ++ [e] ↔ .returned j k ∈ tr := by
    intros; rcases he with rfl | ⟨rfl, rfl⟩ <;> simp
  have hca : ∀ j k, Ev.called j k ∈ tr ++ [e] ↔ .called j k ∈ tr := by
    intros; rcases he with rfl | ⟨rfl, rfl⟩ <;> simp
  have hcnt : ∀ i, (tr ++ [e]).countP (Ev.isCalled i) = tr.countP (Ev.isCalled i) := by
    intro i
    rcases he with rfl | ⟨rfl, rfl⟩ <;> simp [List.countP_append, Ev.isCalled]
  generalize hf : ({ s.fut i with prod := .write r, res := some r } : Fut V E) = f at *
  have hfp : f.prod = .write r := by rw [← hf]
  have hfr : f.res = some r := by rw [← hf]
  clear hf
  obtain ⟨a1, a2, a3, a4, a5, a6, a7, a8, a9, a10, b1, b2, a11, a12, a13, a14, a15, a16, a17, a18, a19, a20⟩ := h
  constructor <;> (try simp only [hth, hre, hca, hcnt, put_fut, put_next, put_crashed])
  · intro j; split
    · exact hl
    · exact a1 j
  · intro j
    have := a2 j
    split
    · subst_vars; simp [hfp]; simpa [hp] using this
    · exact this
  · intro j p
    have : (s.fut j).carry = some p → p ≠ i := by
      intro h e; subst e
      have := a3 _ _ h
      simp [hp] at this
    have h3 := a3 j p
    split
    · subst_vars
      intro h
      rw [hcarry] at h
      simp [this h, h3 h]
    · intro h
      simp [this h, h3 h]
  · intro j j' p
    have e1 : ∀ j, (if j = i then f else s.fut j).carry = (s.fut j).carry := by
      intro j; split
      · subst_vars; exact hcarry
      · rfl
    rw [e1, e1]; exact a4 j j' p
  · intro j r'
    split
    · subst_vars; intro h
      rw [hfr] at h
      cases h; exact hR
    · intro h; exact (a5 j r' h).mono (by simp +contextual)
  · intro j kind p
    split
    · subst_vars; rw [hslot]; exact a6 _ _ _
    · exact a6 _ _ _
  · intro j p
    split
    · subst_vars; rw [hslot]; exact a7 _ _
    · exact a7 _ _
  · exact a8
  · intro j k kind p h1 h2
    rcases a9 j k kind p h1 h2 with h | ⟨r', h, h'⟩
    · left; split
      · subst_vars; rw [hcarry]; exact h
      · exact h
    · right
      refine ⟨r', ?_, ?_⟩
      · have : k ≠ i := by rintro rfl; simp [hres] at h
        simp [this, h]
      · have : p ≠ i := by rintro rfl; simp [hres] at h'
        simp [this, h']
  · intro j p e' h1 h2
    by_cases hj : j = i
    · subst hj
      left
      simp only [↓reduceIte, hcarry]
      have := (a6 _ _ _).2 h1
      simp [Fut.carry, hrunn, this, Cont.target]
    · simp only [hj, ↓reduceIte] at h2 ⊢
      rcases a10 j p e' h1 h2 with h | h
      · exact .inl h
      · right
        have : p ≠ i := by rintro rfl; simp [hres] at h
        simp [this, h]
  · intro j k h kind p
    split
    · subst_vars; rw [hslot]; exact b1 _ _ h kind p
    · exact b1 _ _ h kind p
  · intro j k h
    split
    · subst_vars; rw [hcons]; exact b2 _ _ h
    · exact b2 _ _ h
  · intro j k h
    have := a11 j k h
    have hj : j ≠ i := by rintro rfl; simp [hrunn] at this
    simp [hj, this]
  · intro j r'
    rw [a12]
    by_cases hj : j = i
    · subst hj
      simp [Fut.Called, hrun, hrunn]
    · simp [hj]
  · exact a13
  · intro j
    have := a14 j
    by_cases hj : j = i
    · subst hj
      intro _; exact this (.inl hrunn)
    · simpa [hj] using this
  · intro j r' h
    by_cases hj : j = i
    · subst hj
      have : Ev.set j r' ∉ tr := fun h => by have := a15 _ _ h; simp [hres] at this
      simp [this] at h
      rcases he with rfl | ⟨rfl, rfl⟩ <;> simp at h
      simp [hfr, h]
    · have : Ev.set j r' ∈ tr := by
        rcases he with rfl | ⟨rfl, rfl⟩ <;> simp [hj] at h <;> exact h
      simp [hj, a15 _ _ this]
  · intro j h
    by_cases hj : j = i
    · subst hj
      have : Ev.broken j ∉ tr := fun h => by have := a16 _ h; simp [hres] at this
      simp [this] at h
      rcases he with rfl | ⟨rfl, rfl⟩ <;> simp at h
      simp [hfr]
    · have : Ev.broken j ∈ tr := by
        rcases he with rfl | ⟨rfl, rfl⟩ <;> simp [hj] at h <;> exact h
      simp [hj, a16 _ this]
  · intro j r' h
    have h : Ev.make j r' ∈ tr := by rcases he with rfl | ⟨rfl, rfl⟩ <;> simpa using h
    have := a17 _ _ h
    have hj : j ≠ i := by rintro rfl; simp [hres] at this
    simp [hj, this]
  · intro j r' h
    have h : Ev.got j r' ∈ tr := by rcases he with rfl | ⟨rfl, rfl⟩ <;> simpa using h
    have := a18 _ _ h
    have hj : j ≠ i := by rintro rfl; simp [hres] at this
    simp [hj, this]
  · exact a19
  · rcases he with rfl | ⟨rfl, rfl⟩ <;> simp [a20]

/-- `Then`. -/
theorem Inv.attach (h : Inv bp s tr) {i : Nat} {kind : Kind} {p : Option Nat} (hb : (s.fut i).prod ≠ .unborn)
    (hc : (s.fut i).cons = .free)
    (hp : ∀ q, p = some q → q < s.next ∧ (s.fut q).prod = .held ∧ ∀ j, (s.fut j).carry ≠ some q) :
    Inv bp (s.put i { s.fut i with cons := .store (.user kind p) }) (tr ++ [.then_ i kind p]) := by
  obtain ⟨i1, i2, i3, i4, i5⟩ := (h.loc i).idle (by simp [hc]) (by simp [hc]) (by simp [hc])
  have hslot0 : (s.fut i).slot = none := by simp [Fut.slot, hc, i2]
  have hl : Loc ({ s.fut i with cons := .store (.user kind p) } : Fut V E) := by
    have hl := h.loc i
    have hlate : (s.fut i).prod = .lock ∨ (s.fut i).hasResult = true → (s.fut i).Avail := by
      intro h
      rcases hl.late h with h | ⟨-, -, h⟩
      · exact h
      · simp_all
    obtain ⟨h1, h2, h3, h4, h5, h6, h7, h8, h9, h10, h11, h12, h13, h14, h15, h16, h17, h18, h19, h20⟩ := hl
    clear h1 h7 h8 h9 h10 h11 h12 h13 h14 h15 h16 h17 h18 h19 h20
    refine ⟨fun h => absurd h hb, h2, h3, h4, h5, h6, fun h => .inl (hlate h), fun x h => absurd h (i5 x), ?_, ?_, ?_, ?_,
      ?_, ?_, ?_, ?_, ?_, ?_, ?_, ?_⟩ <;> clear hlate h2 h3 h4 h5 h6 <;> simp_all
  have hm : ∀ e, (∀ k q, e ≠ .then_ i k q) → (e ∈ tr ++ [.then_ i kind p] ↔ e ∈ tr) := by
    intro e he
    have := he kind p
    simp [this]
  have hre : ∀ j k, Ev.returned j k ∈ tr ++ [.then_ i kind p] ↔ .returned j k ∈ tr := fun _ _ => hm _ (by simp)
  have hca : ∀ j k, Ev.called j k ∈ tr ++ [.then_ i kind p] ↔ .called j k ∈ tr := fun _ _ => hm _ (by simp)
  have hcnt : ∀ j, (tr ++ [Ev.then_ i kind p]).countP (Ev.isCalled j) = tr.countP (Ev.isCalled j) := by
    intro j; simp [List.countP_append, Ev.isCalled]
  have hth : ∀ j k q, Ev.then_ j k q ∈ tr ++ [.then_ i kind p] ↔ .then_ j k q ∈ tr ∨ (j = i ∧ k = kind ∧ q = p) := by
    intros; simp
  generalize hf : ({ s.fut i with cons := .store (.user kind p) } : Fut V E) = f at *
  have hfs : f.slot = some (.user kind p) := by rw [← hf]; rfl
  have hfp : f.prod = (s.fut i).prod := by rw [← hf]
  have hfr : f.res = (s.fut i).res := by rw [← hf]
  have hfc : f.cons ≠ .free := by rw [← hf]; simp
  have hfrun : f.run = .none := by rw [← hf]; exact i3
  have hfcar : f.carry = p := by simp [Fut.carry, hfrun, hfs, Cont.target]
  have hcar0 : (s.fut i).carry = none := by simp [Fut.carry, i3, hslot0]
  clear hf
  have ep : ∀ j, (if j = i then f else s.fut j).prod = (s.fut j).prod := by
    intro j; split
    · subst_vars; exact hfp
    · rfl
  have er : ∀ j, (if j = i then f else s.fut j).res = (s.fut j).res := by
    intro j; split
    · subst_vars; exact hfr
    · rfl
  have erun : ∀ j, (if j = i then f else s.fut j).run = (s.fut j).run := by
    intro j; split
    · subst_vars; rw [hfrun, i3]
    · rfl
  obtain ⟨a1, a2, a3, a4, a5, a6, a7, a8, a9, a10, b1, b2, a11, a12, a13, a14, a15, a16, a17, a18, a19, a20⟩ := h
  constructor <;> (try simp only [hth, hre, hca, hcnt, put_fut, put_next, put_crashed, ep, er, erun])
  · intro j; split
    · exact hl
    · exact a1 j
  · exact a2
  · intro j q
    split
    · rw [hfcar]; intro h; exact (hp q h).2.1
    · exact a3 j q
  · intro j j' q
    have : ∀ j, p = some q → (s.fut j).carry = some q → False := fun j h h' => (hp q h).2.2 j h'
    split <;> split
    · intros; subst_vars; rfl
    · rw [hfcar]; intro h h'; exact (this _ h h').elim
    · rw [hfcar]; intro h h'; exact (this _ h' h).elim
    · exact a4 j j' q
  · intro j r h; exact (a5 j r h).mono (by simp +contextual)
  · intro j k q
    have := a6 j k q
    split
    · subst_vars
      rw [hslot0] at this
      simp only [reduceCtorEq, false_iff] at this
      simp only [hfs, this, true_and, false_or, Option.some.injEq, Cont.user.injEq]
      constructor
      · rintro ⟨rfl, rfl⟩; simp
      · rintro ⟨rfl, rfl⟩; simp
    · rename_i hj
      simp only [hj, false_and, or_false, this]
  · intro j q
    split
    · simp [hfs]
    · intro h
      obtain ⟨i', k', h1, h2⟩ := a7 j q h
      exact ⟨i', k', .inl h1, h2⟩
  · rintro j k q (h | ⟨-, -, h⟩)
    · exact a8 j k q h
    · exact (hp q h.symm).1
  · rintro j k kd q h1 (h2 | ⟨rfl, -, -⟩)
    · rcases a9 j k kd q h1 h2 with h | h
      · left
        have : k ≠ i := by rintro rfl; simp [hcar0] at h
        simp [this, h]
      · exact .inr h
    · have := a11 _ _ h1
      simp [i3] at this
  · rintro j q e (h1 | ⟨rfl, rfl, rfl⟩) h2
    · rcases a10 j q e h1 h2 with h | h
      · left
        have : j ≠ i := by rintro rfl; simp [hcar0] at h
        simp [this, h]
      · exact .inr h
    · simp [hfcar]
  · intro j k h
    have : k ≠ i := by rintro rfl; exact b2 _ _ h hc
    simp only [this, ↓reduceIte]
    exact b1 j k h
  · intro j k h
    have : k ≠ i := by rintro rfl; exact b2 _ _ h hc
    simp only [this, ↓reduceIte]
    exact b2 j k h
  · exact a11
  · intro j r
    rw [a12]
    by_cases hj : j = i
    · subst hj
      simp [Fut.Called, hfrun, i3]
    · simp [hj]
  · exact a13
  · exact a14
  · intro j r' h; exact a15 j r' ((hm _ (by simp)).1 h)
  · intro j h; exact a16 j ((hm _ (by simp)).1 h)
  · intro j r' h; exact a17 j r' ((hm _ (by simp)).1 h)
  · intro j r' h; exact a18 j r' ((hm _ (by simp)).1 h)
  · exact a19
  · intro h; exact a20 ((hm _ (by simp)).1 h)

theorem Loc.runChange {f : Fut V E} (hl : Loc f) (hr : (∃ p, f.run = .user p) ∨ ∃ c r, f.run = .queued c r) :
    Loc { f with run := .over } := by
  obtain ⟨d1, d2, d3, d4⟩ := hl.run (by rcases hr with ⟨p, h⟩ | ⟨c, r, h⟩ <;> simp [h])
  have hne : f.run ≠ .none := by rcases hr with ⟨p, h⟩ | ⟨c, r, h⟩ <;> simp [h]
  have hlate := hl.late (.inr (hl.hr.2 (.inl d1)))
  obtain ⟨h1, h2, h3, h4, h5, h6, h7, h8, h9, h10, h11, h12, h13, h14, h15, h16, h17, h18, h19, h20⟩ := hl
  clear h7
  constructor <;> simp_all [Fut.Avail]

theorem Loc.runUser {f : Fut V E} (hl : Loc f) {kind : Kind} {p : Option Nat} {r : Res V E}
    (hr : f.run = .queued (.user kind p) r) (hc : calls kind r = true) : Loc { f with run := .user p } := by
  obtain ⟨d1, d2, d3, d4⟩ := hl.run (by simp [hr])
  have hlate := hl.late (.inr (hl.hr.2 (.inl d1)))
  have hq := hl.queued _ _ hr
  obtain ⟨h1, h2, h3, h4, h5, h6, h7, h8, h9, h10, h11, h12, h13, h14, h15, h16, h17, h18, h19, h20⟩ := hl
  clear h7
  constructor <;> simp_all [Fut.Avail]

/-- The continuation of a callback that returns nothing ends. -/
theorem Inv.runOver (h : Inv bp s tr) {i : Nat}
    (hr : (s.fut i).run = .user none ∨ ∃ e, (s.fut i).run = .queued (.user .withValue none) (.exc e)) :
    Inv bp (s.put i { s.fut i with run := .over }) tr := by
  have hl := h.loc i
  have hcons : (s.fut i).cons = .done := (hl.run (by rcases hr with h | ⟨e, h⟩ <;> simp [h])).2.1
  have hlo := hl.runChange (by rcases hr with h | ⟨e, h⟩; exact .inl ⟨_, h⟩; exact .inr ⟨_, _, h⟩)
  have hcb : ∃ kind r, (s.fut i).callback = some (.user kind none) ∧ (s.fut i).res = some r ∧
      (((s.fut i).run = .user none ∧ calls kind r = true) ∨
       ((∀ p, (s.fut i).run ≠ .user p) ∧ (s.fut i).run ≠ .over ∧ calls kind r = false)) := by
    rcases hr with h | ⟨e, h⟩
    · obtain ⟨kind, r, e1, e2, e3⟩ := hl.user _ h
      exact ⟨kind, r, e1, e2, .inl ⟨h, e3⟩⟩
    · obtain ⟨e1, e2⟩ := hl.queued _ _ h
      exact ⟨_, _, e1, e2, .inr ⟨by simp [h], by simp [h], rfl⟩⟩
  obtain ⟨kind, r, e1, e2, e3⟩ := hcb
  have hslot0 : (s.fut i).slot = some (.user kind none) := by simp [Fut.slot, hcons, e1]
  have hcar0 : (s.fut i).carry = none := by
    unfold Fut.carry
    split
    · rfl
    · simp [hslot0, Cont.target]
  have hnover : (s.fut i).run ≠ .over := by rcases hr with h | ⟨e, h⟩ <;> simp [h]
  generalize hf : ({ s.fut i with run := .over } : Fut V E) = f at *
  have es : ∀ j, (if j = i then f else s.fut j).slot = (s.fut j).slot := by
    intro j; split
    · subst_vars; rfl
    · rfl
  have ep : ∀ j, (if j = i then f else s.fut j).prod = (s.fut j).prod := by
    intro j; split
    · subst_vars; rfl
    · rfl
  have er : ∀ j, (if j = i then f else s.fut j).res = (s.fut j).res := by
    intro j; split
    · subst_vars; rfl
    · rfl
  have ef : ∀ j, (if j = i then f else s.fut j).cons = (s.fut j).cons := by
    intro j; split
    · subst_vars; rfl
    · rfl
  have ec : ∀ j, (if j = i then f else s.fut j).carry = (s.fut j).carry := by
    intro j; split
    · subst_vars; rw [hcar0]; rfl
    · rfl
  have hfrun : f.run = .over := by rw [← hf]
  obtain ⟨a1, a2, a3, a4, a5, a6, a7, a8, a9, a10, b1, b2, a11, a12, a13, a14, a15, a16, a17, a18, a19, a20⟩ := h
  constructor <;> (try simp only [put_fut, put_next, put_crashed, ep, er, es, ec, ef]) <;> try assumption
  · intro j; split
    · exact hlo
    · exact a1 j
  · intro j k h
    split
    · exact hfrun
    · exact a11 j k h
  · intro j r'
    rw [a12]
    by_cases hj : j = i
    · subst hj
      have hfs := es j
      have hfr := er j
      simp only [↓reduceIte] at hfs hfr
      simp only [Fut.Called, hslot0, e2, ↓reduceIte, hfs, hfr, hfrun, true_or, and_true]
      rcases e3 with ⟨h1, h2⟩ | ⟨h1, h2, h3⟩
      · simp [h1]
      · simp only [h1, h2, exists_false, or_self, and_false, false_iff, not_and, Option.some.injEq, Cont.user.injEq]
        rintro ⟨k, p, ⟨rfl, rfl⟩, h⟩ rfl
        simp [h3] at h
    · simp [hj]
  · intro j
    have := a14 j
    by_cases hj : j = i
    · subst hj
      simp [hfrun]
    · simpa [hj] using this

/-- The callback of the user is called. -/
theorem Inv.call (h : Inv bp s tr) {i : Nat} {kind : Kind} {p : Option Nat} {r : Res V E}
    (hr : (s.fut i).run = .queued (.user kind p) r) (hc : calls kind r = true) :
    Inv bp (s.put i { s.fut i with run := .user p }) (tr ++ [.called i r]) := by
  have hl := h.loc i
  have hcons : (s.fut i).cons = .done := (hl.run (by simp [hr])).2.1
  have hlo := hl.runUser hr hc
  obtain ⟨e1, e2⟩ := hl.queued _ _ hr
  have hslot0 : (s.fut i).slot = some (.user kind p) := by simp [Fut.slot, hcons, e1]
  generalize hf : ({ s.fut i with run := .user p } : Fut V E) = f at *
  have es : ∀ j, (if j = i then f else s.fut j).slot = (s.fut j).slot := by
    intro j; split
    · subst_vars; rfl
    · rfl
  have ep : ∀ j, (if j = i then f else s.fut j).prod = (s.fut j).prod := by
    intro j; split
    · subst_vars; rfl
    · rfl
  have er : ∀ j, (if j = i then f else s.fut j).res = (s.fut j).res := by
    intro j; split
    · subst_vars; rfl
    · rfl
  have ef : ∀ j, (if j = i then f else s.fut j).cons = (s.fut j).cons := by
    intro j; split
    · subst_vars; rfl
    · rfl
  have ec : ∀ j, (if j = i then f else s.fut j).carry = (s.fut j).carry := by
    intro j; split
    · subst_vars; simp only [Fut.carry, hr]; rfl
    · rfl
  have hfrun : f.run = .user p := by rw [← hf]
  have hm : ∀ e, (∀ r, e ≠ .called i r) → (e ∈ tr ++ [.called i r] ↔ e ∈ tr) := by
    intro e he
    have := he r
    simp [this]
  have hre : ∀ j k, Ev.returned j k ∈ tr ++ [.called i r] ↔ .returned j k ∈ tr := fun _ _ => hm _ (by simp)
  have hth : ∀ j k q, Ev.then_ j k q ∈ tr ++ [.called i r] ↔ .then_ j k q ∈ tr := fun _ _ _ => hm _ (by simp)
  obtain ⟨a1, a2, a3, a4, a5, a6, a7, a8, a9, a10, b1, b2, a11, a12, a13, a14, a15, a16, a17, a18, a19, a20⟩ := h
  have h0 := a14 i (.inr ⟨_, _, hr⟩)
  constructor <;> (try simp only [hth, hre, put_fut, put_next, put_crashed, ep, er, es, ec, ef]) <;> try assumption
  · intro j; split
    · exact hlo
    · exact a1 j
  · intro j r h; exact (a5 j r h).mono (by simp +contextual)
  · intro j k h
    have := a11 j k h
    have hj : j ≠ i := by rintro rfl; simp [hr] at this
    simp [hj, this]
  · intro j r'
    simp only [List.mem_append, List.mem_singleton, Ev.called.injEq]
    rw [a12]
    by_cases hj : j = i
    · subst hj
      have hfs := es j
      have hfr := er j
      simp only [↓reduceIte] at hfs hfr
      simp only [Fut.Called, hslot0, e2, ↓reduceIte, hfs, hfr, hfrun, hr]
      constructor
      · rintro (⟨-, -, h⟩ | ⟨-, rfl⟩)
        · simp at h
        · exact ⟨⟨kind, p, rfl, hc⟩, rfl, by simp⟩
      · rintro ⟨-, h, -⟩
        cases h; exact .inr ⟨trivial, rfl⟩
    · simp [hj]
  · intro j
    simp only [List.countP_append, List.countP_cons, List.countP_nil, Ev.isCalled]
    have := a13 j
    by_cases hj : i = j
    · subst hj; simp [h0]
    · simpa [hj] using this
  · intro j
    by_cases hj : j = i
    · subst hj; simp [hfrun]
    · have hj' : ¬ i = j := fun h => hj h.symm
      simpa [hj, hj', List.countP_append, Ev.isCalled] using a14 j
  · intro j r' h; exact a15 j r' ((hm _ (by simp)).1 h)
  · intro j h; exact a16 j ((hm _ (by simp)).1 h)
  · intro j r' h; exact a17 j r' ((hm _ (by simp)).1 h)
  · intro j r' h; exact a18 j r' ((hm _ (by simp)).1 h)
  · intro h; exact a20 ((hm _ (by simp)).1 h)

/-- The callback of the user returns a future. -/
theorem Inv.retFut (h : Inv bp s tr) {i k p : Nat} (hr : (s.fut i).run = .user (some p))
    (hb : (s.fut k).prod ≠ .unborn) (hc : (s.fut k).cons = .free) :
    Inv bp ((s.put i { s.fut i with run := .over }).put k { s.fut k with cons := .chainR p }) (tr ++ [.returned i k]) := by
  have hl := h.loc i
  have hcons : (s.fut i).cons = .done := (hl.run (by simp [hr])).2.1
  have hki : k ≠ i := by rintro rfl; simp [hc] at hcons
  have hlo := hl.runChange (.inl ⟨_, hr⟩)
  obtain ⟨kind, r, e1, e2, e3⟩ := hl.user _ hr
  have hslot0 : (s.fut i).slot = some (.user kind (some p)) := by simp [Fut.slot, hcons, e1]
  have hcar0 : (s.fut i).carry = some p := by simp [Fut.carry, hr, hslot0, Cont.target]
  obtain ⟨i1, i2, i3, i4, i5⟩ := (h.loc k).idle (by simp [hc]) (by simp [hc]) (by simp [hc])
  have hslotk : (s.fut k).slot = none := by simp [Fut.slot, hc, i2]
  have hcark : (s.fut k).carry = none := by simp [Fut.carry, i3, hslotk]
  have hlk : Loc ({ s.fut k with cons := .chainR p } : Fut V E) := by
    have hl := h.loc k
    have hlate : (s.fut k).prod = .lock ∨ (s.fut k).hasResult = true → (s.fut k).Avail := by
      intro h
      rcases hl.late h with h | ⟨-, -, h⟩
      · exact h
      · simp_all
    obtain ⟨h1, h2, h3, h4, h5, h6, h7, h8, h9, h10, h11, h12, h13, h14, h15, h16, h17, h18, h19, h20⟩ := hl
    clear h1 h7 h8 h9 h10 h11 h12 h13 h14 h15 h16 h17 h18 h19 h20
    refine ⟨fun h => absurd h hb, h2, h3, h4, h5, h6, fun h => .inl (hlate h), fun x h => absurd h (i5 x), ?_, ?_, ?_, ?_,
      ?_, ?_, ?_, ?_, ?_, ?_, ?_, ?_⟩ <;> clear hlate h2 h3 h4 h5 h6 <;> simp_all
  have hm : ∀ e, (∀ r r', e ≠ .returned r r') → (e ∈ tr ++ [.returned i k] ↔ e ∈ tr) := by
    intro e he
    have := he i k
    simp [this]
  have hca : ∀ j r, Ev.called j r ∈ tr ++ [.returned i k] ↔ .called j r ∈ tr := fun _ _ => hm _ (by simp)
  have hth : ∀ j kd q, Ev.then_ j kd q ∈ tr ++ [.returned i k] ↔ .then_ j kd q ∈ tr := fun _ _ _ => hm _ (by simp)
  have hcnt : ∀ j, (tr ++ [Ev.returned i k]).countP (Ev.isCalled j) = tr.countP (Ev.isCalled j) := by
    intro j; simp [List.countP_append, Ev.isCalled]
  have hre : ∀ j l, Ev.returned j l ∈ tr ++ [.returned i k] ↔ .returned j l ∈ tr ∨ (j = i ∧ l = k) := by
    intros; simp
  generalize hf : ({ s.fut i with run := .over } : Fut V E) = f at *
  generalize hg : ({ s.fut k with cons := .chainR p } : Fut V E) = g at *
  have hfs : f.slot = (s.fut i).slot := by rw [← hf]; rfl
  have hfc : f.carry = none := by rw [← hf]; rfl
  have hfrun : f.run = .over := by rw [← hf]
  have hgs : g.slot = some (.chain p) := by rw [← hg]; rfl
  have hgrun : g.run = .none := by rw [← hg]; exact i3
  have hgc : g.carry = some p := by simp [Fut.carry, hgs, hgrun, Cont.target]
  have hgcons : g.cons ≠ .free := by rw [← hg]; simp
  have hfcons : f.cons = .done := by rw [← hf]; exact hcons
  have ep : ∀ j, (if j = k then g else if j = i then f else s.fut j).prod = (s.fut j).prod := by
    intro j; split
    · subst_vars; rfl
    · split
      · subst_vars; rfl
      · rfl
  have er : ∀ j, (if j = k then g else if j = i then f else s.fut j).res = (s.fut j).res := by
    intro j; split
    · subst_vars; rfl
    · split
      · subst_vars; rfl
      · rfl
  clear hf hg
  obtain ⟨a1, a2, a3, a4, a5, a6, a7, a8, a9, a10, b1, b2, a11, a12, a13, a14, a15, a16, a17, a18, a19, a20⟩ := h
  have hthen := (a6 _ _ _).1 hslot0
  constructor <;> (try simp only [hth, hre, hca, hcnt, put_fut, put_next, put_crashed, ep, er])
  · intro j; split
    · exact hlk
    · split
      · exact hlo
      · exact a1 j
  · exact a2
  · intro j q
    split
    · rw [hgc]; rintro h; cases h; exact a3 _ _ hcar0
    · split
      · simp [hfc]
      · exact a3 j q
  · intro j j' q
    by_cases h1 : j = k <;> by_cases h2 : j' = k
    · subst_vars; intros; rfl
    · subst h1
      by_cases h3 : j' = i
      · subst h3; simp [h2, hfc]
      · simp only [↓reduceIte, hgc, h2, h3]
        intro h h'; cases h
        exact absurd (a4 _ _ _ h' hcar0) h3
    · subst h2
      by_cases h3 : j = i
      · subst h3; simp [h1, hfc]
      · simp only [↓reduceIte, hgc, h1, h3]
        intro h h'; cases h'
        exact absurd (a4 _ _ _ h hcar0) h3
    · by_cases h3 : j = i
      · subst h3; simp [h1, hfc]
      · by_cases h4 : j' = i
        · subst h4; simp [h2, hfc]
        · simp only [h1, h2, h3, h4, ↓reduceIte]; exact a4 j j' q
  · intro j r h; exact (a5 j r h).mono (by simp +contextual)
  · intro j kd q
    rw [← a6]
    split
    · subst_vars; simp [hgs, hslotk]
    · split
      · subst_vars; rw [hfs]
      · rfl
  · intro j q
    split
    · subst_vars; rw [hgs]; intro h; cases h
      exact ⟨i, kind, hthen, .inr ⟨rfl, rfl⟩⟩
    · intro h
      have h : (s.fut j).slot = some (.chain q) := by
        split at h
        · subst_vars; rw [← hfs]; exact h
        · exact h
      obtain ⟨i', k', h1, h2⟩ := a7 j q h
      exact ⟨i', k', h1, .inl h2⟩
  · exact a8
  · rintro j l kd q (h1 | ⟨rfl, rfl⟩) h2
    · rcases a9 j l kd q h1 h2 with h | h
      · left
        have h3 : l ≠ i := by rintro rfl; exact b1 _ _ h1 _ _ hslot0
        have h4 : l ≠ k := by rintro rfl; simp [hcark] at h
        simp [h3, h4, h]
      · exact .inr h
    · left
      have := (a6 _ _ _).2 h2
      rw [hslot0] at this
      cases this
      simp [hgc]
  · intro j q e h1 h2
    rcases a10 j q e h1 h2 with h | h
    · left
      have h4 : j ≠ k := by rintro rfl; simp [hcark] at h
      have h3 : j ≠ i := by
        rintro rfl
        have := (a6 _ _ _).2 h1
        rw [hslot0] at this
        cases this
        rw [e2] at h2
        cases h2
        simp [calls] at e3
      simp [h3, h4, h]
    · exact .inr h
  · rintro j l (h | ⟨rfl, rfl⟩) kd q
    · have h3 : l ≠ i := by rintro rfl; exact b1 _ _ h _ _ hslot0
      by_cases h4 : l = k
      · simp [h4, hgs]
      · simp only [h3, h4, ↓reduceIte]
        exact b1 j l h kd q
    · simp [hgs]
  · rintro j l (h | ⟨rfl, rfl⟩)
    · split
      · exact hgcons
      · split
        · simp [hfcons]
        · exact b2 j l h
    · simp [hgcons]
  · rintro j l (h | ⟨rfl, rfl⟩)
    · have h1 := a11 j l h
      split
      · subst_vars; simp [i3] at h1
      · split
        · exact hfrun
        · exact h1
    · simp [hki.symm, hfrun]
  · intro j r'
    rw [a12]
    by_cases hj : j = i
    · subst hj
      have hfr := er j
      simp only [hki.symm, ↓reduceIte] at hfr
      simp only [hki.symm, ↓reduceIte]
      simp [Fut.Called, hfs, hfr, hfrun, hr]
    · by_cases hk : j = k
      · subst hk
        simp [Fut.Called, hgs, hslotk]
      · simp [hj, hk]
  · exact a13
  · intro j
    have := a14 j
    by_cases hj : j = i
    · subst hj
      simp [hki.symm, hfrun]
    · by_cases hk : j = k
      · subst hk
        intro _; exact this (.inl i3)
      · simpa [hj, hk] using this
  · intro j r' h; exact a15 j r' ((hm _ (by simp)).1 h)
  · intro j h; exact a16 j ((hm _ (by simp)).1 h)
  · intro j r' h; exact a17 j r' ((hm _ (by simp)).1 h)
  · intro j r' h; exact a18 j r' ((hm _ (by simp)).1 h)
  · exact a19
  · intro h; exact a20 ((hm _ (by simp)).1 h)

/-- A continuation or `ChainFuture` sets its promise. -/
theorem Inv.resolve (h : Inv bp s tr) {i p : Nat} {r : Res V E} {f : Fut V E} (hc : (s.fut i).carry = some p)
    (hip : i ≠ p) (hl : Loc f) (hfr : f.res = (s.fut i).res) (hfc : f.carry = none) (hfp : f.prod = (s.fut i).prod)
    (hsU : ∀ kind q, f.slot = some (.user kind q) ↔ (s.fut i).slot = some (.user kind q))
    (hsC : ∀ q, f.slot = some (.chain q) → (s.fut i).slot = some (.chain q))
    (hfree : f.cons ≠ .free) (hover : (s.fut i).run = .over → f.run = .over)
    (hcalled : ∀ r, f.Called r ↔ (s.fut i).Called r)
    (hearly : (f.run = .none ∨ ∃ c r, f.run = .queued c r) → ((s.fut i).run = .none ∨ ∃ c r, (s.fut i).run = .queued c r))
    (hwhy : Resolves bp tr p r) (hres : (s.fut i).res = some r) :
    ∃ s', (s.put i f).resolve p r = (s', []) ∧ Inv bp s' tr := by
  have hheld := h.held i p hc
  have hpi : p ≠ i := hip.symm
  refine ⟨(s.put i f).put p { s.fut p with prod := .write r, res := some r }, ?_, ?_⟩
  · unfold St.resolve
    simp only [put_fut, hpi, ↓reduceIte, hheld]
  have hresp : (s.fut p).res = none := (h.loc p).res.2 (by simp [hheld])
  have hrunp : (s.fut p).run = .none := by
    by_cases h' : (s.fut p).run = .none
    · exact h'
    · have := ((h.loc p).run h').1
      simp [hheld] at this
  have hlp : Loc ({ s.fut p with prod := .write r, res := some r } : Fut V E) := by
    have hl := h.loc p
    have he := hl.early (.inl hresp)
    have hns : ∀ x, (s.fut p).cons ≠ .sched x := by
      intro x hx
      have := (hl.cs x hx).1
      simp [hheld] at this
    obtain ⟨h1, h2, h3, h4, h5, h6, h7, h8, h9, h10, h11, h12, h13, h14, h15, h16, h17, h18, h19, h20⟩ := hl
    constructor <;> simp_all
  generalize hg : ({ s.fut p with prod := .write r, res := some r } : Fut V E) = g at *
  have hgs : g.slot = (s.fut p).slot := by rw [← hg]; rfl
  have hgc : g.carry = (s.fut p).carry := by rw [← hg]; rfl
  have hgrun : g.run = .none := by rw [← hg]; exact hrunp
  have hgr : g.res = some r := by rw [← hg]
  have hgp : g.prod = .write r := by rw [← hg]
  have hgcons : g.cons = (s.fut p).cons := by rw [← hg]
  clear hg
  obtain ⟨a1, a2, a3, a4, a5, a6, a7, a8, a9, a10, b1, b2, a11, a12, a13, a14, a15, a16, a17, a18, a19, a20⟩ := h
  have er : ∀ j r', (s.fut j).res = some r' → (if j = p then g else if j = i then f else s.fut j).res = some r' := by
    intro j r' h
    have : j ≠ p := by rintro rfl; simp [hresp] at h
    simp only [this, ↓reduceIte]
    split
    · subst_vars; rw [hfr]; exact h
    · exact h
  have ec : ∀ j q, (if j = p then g else if j = i then f else s.fut j).carry = some q → j ≠ i ∧ (s.fut j).carry = some q := by
    intro j q h
    split at h
    · subst_vars; rw [hgc] at h; exact ⟨hpi, h⟩
    · split at h
      · simp [hfc] at h
      · exact ⟨‹_›, h⟩
  have ec' : ∀ j q, (s.fut j).carry = some q → j ≠ i → (if j = p then g else if j = i then f else s.fut j).carry = some q := by
    intro j q h hj
    split
    · subst_vars; rw [hgc]; exact h
    · simp [hj, h]
  constructor <;> (try simp only [put_fut, put_next, put_crashed])
  · intro j; split
    · exact hlp
    · split
      · exact hl
      · exact a1 j
  · intro j
    rw [← a2]
    split
    · subst_vars; simp [hgp, hheld]
    · split
      · subst_vars; rw [hfp]
      · rfl
  · intro j q h
    obtain ⟨h1, h2⟩ := ec j q h
    have hq : q ≠ p := by rintro rfl; exact h1 (a4 _ _ _ h2 hc)
    have := a3 j q h2
    simp only [hq, ↓reduceIte]
    split
    · subst_vars; rw [hfp]; exact this
    · exact this
  · intro j j' q h h'
    exact a4 j j' q (ec j q h).2 (ec j' q h').2
  · intro j r'
    split
    · subst_vars; rw [hgr]; intro h; cases h; exact hwhy
    · split
      · subst_vars; rw [hfr]; exact a5 _ _
      · exact a5 _ _
  · intro j kd q
    rw [← a6]
    split
    · subst_vars; rw [hgs]
    · split
      · subst_vars; exact hsU kd q
      · rfl
  · intro j q h
    refine a7 j q ?_
    split at h
    · subst_vars; rw [← hgs]; exact h
    · split at h
      · subst_vars; exact hsC q h
      · exact h
  · exact a8
  · intro j l kd q h1 h2
    rcases a9 j l kd q h1 h2 with h | ⟨r', h3, h4⟩
    · by_cases hl : l = i
      · subst hl
        rw [hc] at h
        cases h
        right
        refine ⟨r, er _ _ hres, by simp [hgr]⟩
      · exact .inl (ec' l q h hl)
    · exact .inr ⟨r', er _ _ h3, er _ _ h4⟩
  · intro j q e h1 h2
    by_cases hjp : j = p
    · subst hjp
      -- the continuation of `p` has not run
      left
      apply ec' _ _ _ hpi
      have := (a6 _ _ _).2 h1
      simp [Fut.carry, hrunp, this, Cont.target]
    · have h2' : (s.fut j).res = some (.exc e) := by
        simp only [hjp, ↓reduceIte] at h2
        split at h2
        · subst_vars; rw [← hfr]; exact h2
        · exact h2
      rcases a10 j q e h1 h2' with h | h
      · by_cases hj : j = i
        · subst hj
          rw [hc] at h
          cases h
          right
          simp only [↓reduceIte, hgr, ← hres, h2']
        · exact .inl (ec' j q h hj)
      · exact .inr (er _ _ h)
  · intro j l h kd q
    have := b1 j l h kd q
    split
    · subst_vars; rw [hgs]; exact this
    · split
      · subst_vars
        intro h'
        exact this ((hsU kd q).1 h')
      · exact this
  · intro j l h
    have := b2 j l h
    split
    · subst_vars; rw [hgcons]; exact this
    · split
      · exact hfree
      · exact this
  · intro j l h
    have := a11 j l h
    split
    · subst_vars; simp [hrunp] at this
    · split
      · subst_vars; exact hover this
      · exact this
  · intro j r'
    rw [a12]
    by_cases hj : j = p
    · subst hj; simp [Fut.Called, hgrun, hrunp]
    · by_cases hji : j = i
      · subst hji; simp [hj, hcalled]
      · simp [hj, hji]
  · exact a13
  · intro j
    have := a14 j
    by_cases hj : j = p
    · subst hj; intro _; exact this (.inl hrunp)
    · by_cases hji : j = i
      · subst hji
        simp only [hj, ↓reduceIte]
        intro h; exact this (hearly h)
      · simpa [hj, hji] using this
  · intro j r' h; exact er _ _ (a15 j r' h)
  · intro j h; exact er _ _ (a16 j h)
  · intro j r' h; exact er _ _ (a17 j r' h)
  · intro j r' h; exact er _ _ (a18 j r' h)
  · exact a19
  · exact a20

end Verif.Future.Core
