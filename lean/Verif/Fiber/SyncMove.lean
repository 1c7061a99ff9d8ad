import Verif.Fiber.SyncInv
/-!
# How the parts of the invariant change in a step
-/

namespace Verif.Fiber.Sync

theorem nodup_bound {l : List Nat} {n : Nat} (h : l.Nodup) (hl : ∀ x ∈ l, x < n) : l.length ≤ n := by
  have := List.Nodup.length_le_of_subset (l₂ := List.range n) h (fun x hx => List.mem_range.2 (hl x hx))
  simpa using this

/-! ## `slow_path_lock_` -/

def PSlow (s : St) : Prop := ∀ t, s.slow = some t ↔ (s.pc t).hs = true

theorem PSlow.same {s s' : St} (h : PSlow s) (he : s'.slow = s.slow) (hc : ∀ u, (s'.pc u).hs = (s.pc u).hs) : PSlow s' := by
  intro u; rw [he, hc]; exact h u

theorem PSlow.take {s s' : St} {t : Nat} (h : PSlow s) (h0 : s.slow = none) (h1 : s'.slow = some t)
    (hc : ∀ u, u ≠ t → (s'.pc u).hs = (s.pc u).hs) (ht : (s'.pc t).hs = true) : PSlow s' := by
  intro u
  by_cases hu : u = t
  · subst hu; simp [h1, ht]
  · have := h u
    rw [h1, hc u hu]
    rw [h0] at this
    constructor
    · intro he; exact absurd (Option.some.inj he).symm hu
    · intro he; exact absurd (this.2 he) (by simp)

theorem PSlow.drop {s s' : St} {t : Nat} (h : PSlow s) (h0 : (s.pc t).hs = true) (h1 : s'.slow = none)
    (hc : ∀ u, u ≠ t → (s'.pc u).hs = (s.pc u).hs) (ht : (s'.pc t).hs = false) : PSlow s' := by
  intro u
  have := (h t).2 h0
  by_cases hu : u = t
  · subst hu; simp [h1, ht]
  · rw [h1, hc u hu]
    constructor
    · intro he; simp at he
    · intro he; have h2 := (h u).2 he; rw [this] at h2; exact absurd (Option.some.inj h2).symm hu

/-! ## `scheduler_lock` -/

def PSlk (s : St) : Prop := ∀ w r, s.slk w = some r ↔ Holds s w r

/-- What the holding of `scheduler_lock`s depends on is the same for `u`. -/
def HSame (s s' : St) (u : Nat) : Prop := (s'.pc u).self (s'.fib u) = (s.pc u).self (s.fib u) ∧ (s'.pc u).rs = (s.pc u).rs

theorem PSlk.same {s s' : St} (h : PSlk s) (he : s'.slk = s.slk) (hc : ∀ u, HSame s s' u) (ht : s'.tm = s.tm)
    (ho : s'.town = s.town) : PSlk s' := by
  intro w r
  rw [he, h w r]
  cases r with
  | thr t => simp only [Holds, (hc t).1, (hc t).2]
  | tim g => simp only [Holds, ht, ho]

theorem PSlk.take {s s' : St} {t : Nat} (h : PSlk s) (h0 : s.slk t = none) (h1 : s'.slk = upd s.slk t (some (.thr t)))
    (hc : ∀ u, u ≠ t → HSame s s' u) (hs : (s'.pc t).self (s'.fib t) = true) (hr : (s.pc t).rs = none)
    (hr' : (s'.pc t).rs = none) (ht : s'.tm = s.tm) (ho : s'.town = s.town) : PSlk s' := by
  intro w r
  rw [h1]
  by_cases hw : w = t
  · subst hw
    rw [upd_same]
    cases r with
    | thr u =>
      by_cases hu : u = w
      · subst hu; simp [Holds, hs]
      · have := h w (.thr u)
        rw [h0] at this
        simp only [Holds, (hc u hu).1, (hc u hu).2] at this ⊢
        constructor
        · intro he; simp at he; exact absurd he.symm hu
        · intro he; exact absurd (this.2 he) (by simp)
    | tim g =>
      have := h w (.tim g)
      rw [h0] at this
      simp only [Holds, ht, ho] at this ⊢
      constructor
      · intro he; simp at he
      · intro he; exact absurd (this.2 he) (by simp)
  · rw [upd_ne _ _ hw, h w r]
    cases r with
    | thr u =>
      by_cases hu : u = t
      · subst hu; simp [Holds, hr, hr', (Ne.symm hw : u ≠ w)]
      · simp only [Holds, (hc u hu).1, (hc u hu).2]
    | tim g => simp only [Holds, ht, ho]

theorem PSlk.drop {s s' : St} {t : Nat} (h : PSlk s) (h0 : (s.pc t).self (s.fib t) = true) (h1 : s'.slk = upd s.slk t none)
    (hc : ∀ u, u ≠ t → HSame s s' u) (hs : (s'.pc t).self (s'.fib t) = false) (hr : (s.pc t).rs = none)
    (hr' : (s'.pc t).rs = none) (ht : s'.tm = s.tm) (ho : s'.town = s.town) : PSlk s' := by
  intro w r
  have h2 := (h t (.thr t)).2 (.inl ⟨rfl, h0⟩)
  rw [h1]
  by_cases hw : w = t
  · subst hw
    rw [upd_same]
    cases r with
    | thr u =>
      by_cases hu : u = w
      · subst hu; simp [Holds, hs, hr']
      · have := h w (.thr u)
        rw [h2] at this
        simp only [Holds, (hc u hu).1, (hc u hu).2] at this ⊢
        constructor
        · intro he; simp at he
        · intro he; have := this.2 he; simp at this; exact absurd this.symm hu
    | tim g =>
      have := h w (.tim g)
      rw [h2] at this
      simp only [Holds, ht, ho] at this ⊢
      constructor
      · intro he; simp at he
      · intro he; have := this.2 he; simp at this
  · rw [upd_ne _ _ hw, h w r]
    cases r with
    | thr u =>
      by_cases hu : u = t
      · subst hu; simp [Holds, hr, hr', (Ne.symm hw : u ≠ w)]
      · simp only [Holds, (hc u hu).1, (hc u hu).2]
    | tim g => simp only [Holds, ht, ho]

theorem PSlk.takeOf {s s' : St} {t x : Nat} (h : PSlk s) (h0 : s.slk x = none) (h1 : s'.slk = upd s.slk x (some (.thr t)))
    (hc : ∀ u, u ≠ t → HSame s s' u) (hs : (s'.pc t).self (s'.fib t) = (s.pc t).self (s.fib t)) (hr : (s.pc t).rs = none)
    (hr' : (s'.pc t).rs = some x) (ht : s'.tm = s.tm) (ho : s'.town = s.town) : PSlk s' := by
  intro w r
  rw [h1]
  by_cases hw : w = x
  · subst hw
    rw [upd_same]
    cases r with
    | thr u =>
      by_cases hu : u = t
      · subst hu; simp [Holds, hr']
      · have := h w (.thr u)
        rw [h0] at this
        simp only [Holds, (hc u hu).1, (hc u hu).2] at this ⊢
        constructor
        · intro he; simp at he; exact absurd he.symm hu
        · intro he; exact absurd (this.2 he) (by simp)
    | tim g =>
      have := h w (.tim g)
      rw [h0] at this
      simp only [Holds, ht, ho] at this ⊢
      constructor
      · intro he; simp at he
      · intro he; exact absurd (this.2 he) (by simp)
  · rw [upd_ne _ _ hw, h w r]
    cases r with
    | thr u =>
      by_cases hu : u = t
      · subst hu; simp [Holds, hr, hr', hs, (Ne.symm hw : x ≠ w)]
      · simp only [Holds, (hc u hu).1, (hc u hu).2]
    | tim g => simp only [Holds, ht, ho]

theorem PSlk.dropOf {s s' : St} {t x : Nat} (h : PSlk s) (h0 : (s.pc t).rs = some x) (h1 : s'.slk = upd s.slk x none)
    (hx : x ≠ t) (hc : ∀ u, u ≠ t → HSame s s' u) (hs : (s'.pc t).self (s'.fib t) = (s.pc t).self (s.fib t))
    (hr' : (s'.pc t).rs = none) (ht : s'.tm = s.tm) (ho : s'.town = s.town) : PSlk s' := by
  intro w r
  have h2 := (h x (.thr t)).2 (.inr h0)
  rw [h1]
  by_cases hw : w = x
  · subst hw
    rw [upd_same]
    cases r with
    | thr u =>
      by_cases hu : u = t
      · subst hu; simp [Holds, hr', hx.symm]
      · have := h w (.thr u)
        rw [h2] at this
        simp only [Holds, (hc u hu).1, (hc u hu).2] at this ⊢
        constructor
        · intro he; simp at he
        · intro he; have := this.2 he; simp at this; exact absurd this.symm hu
    | tim g =>
      have := h w (.tim g)
      rw [h2] at this
      simp only [Holds, ht, ho] at this ⊢
      constructor
      · intro he; simp at he
      · intro he; have := this.2 he; simp at this
  · rw [upd_ne _ _ hw, h w r]
    cases r with
    | thr u =>
      by_cases hu : u = t
      · subst hu; simp [Holds, h0, hr', hs, (Ne.symm hw : x ≠ w)]
      · simp only [Holds, (hc u hu).1, (hc u hu).2]
    | tim g => simp only [Holds, ht, ho]

/-! ## Pointers to wait blocks -/

def PM (s : St) : Prop := ∀ w r, s.mref w = some r ↔ ∃ t, r = .thr t ∧ (s.pc t).mc = some w

theorem PM.same {s s' : St} (h : PM s) (he : s'.mref = s.mref) (hc : ∀ u, (s'.pc u).mc = (s.pc u).mc) : PM s' := by
  intro w r; rw [he, h w r]; simp only [hc]

theorem PM.take {s s' : St} {t x : Nat} (h : PM s) (h0 : s.mref x = none) (h1 : s'.mref = upd s.mref x (some (.thr t)))
    (hc : ∀ u, u ≠ t → (s'.pc u).mc = (s.pc u).mc) (hm : (s.pc t).mc = none) (hm' : (s'.pc t).mc = some x) : PM s' := by
  intro w r
  have hw := h w r
  rw [h1]
  by_cases hx : w = x
  · subst hx
    rw [upd_same]
    rw [h0] at hw
    constructor
    · intro he; exact ⟨t, (Option.some.inj he).symm, hm'⟩
    · rintro ⟨u, he, hu⟩
      by_cases hut : u = t
      · rw [he, hut]
      · rw [hc u hut] at hu; exact absurd (hw.2 ⟨u, he, hu⟩) (by simp)
  · rw [upd_ne _ _ hx, hw]
    constructor
    · rintro ⟨u, he, hu⟩
      refine ⟨u, he, ?_⟩
      by_cases hut : u = t
      · rw [hut, hm] at hu; simp at hu
      · rw [hc u hut]; exact hu
    · rintro ⟨u, he, hu⟩
      refine ⟨u, he, ?_⟩
      by_cases hut : u = t
      · rw [hut, hm'] at hu; exact absurd (Option.some.inj hu).symm hx
      · rw [← hc u hut]; exact hu

theorem PM.drop {s s' : St} {t x : Nat} (h : PM s) (h0 : (s.pc t).mc = some x) (h1 : s'.mref = upd s.mref x none)
    (hc : ∀ u, u ≠ t → (s'.pc u).mc = (s.pc u).mc) (hm' : (s'.pc t).mc = none) : PM s' := by
  intro w r
  have hw := h w r
  have h2 := (h x (.thr t)).2 ⟨t, rfl, h0⟩
  rw [h1]
  by_cases hx : w = x
  · subst hx
    rw [upd_same]
    rw [h2] at hw
    constructor
    · intro he; simp at he
    · rintro ⟨u, he, hu⟩
      by_cases hut : u = t
      · rw [hut, hm'] at hu; simp at hu
      · rw [hc u hut] at hu
        have := hw.2 ⟨u, he, hu⟩
        rw [he] at this; simp at this; exact absurd this.symm hut
  · rw [upd_ne _ _ hx, hw]
    constructor
    · rintro ⟨u, he, hu⟩
      refine ⟨u, he, ?_⟩
      by_cases hut : u = t
      · rw [hut, h0] at hu; exact absurd (Option.some.inj hu).symm hx
      · rw [hc u hut]; exact hu
    · rintro ⟨u, he, hu⟩
      refine ⟨u, he, ?_⟩
      by_cases hut : u = t
      · rw [hut, hm'] at hu; simp at hu
      · rw [← hc u hut]; exact hu

def PC (s : St) : Prop := ∀ w r, s.cref w = some r ↔ CPtr s w r

theorem PC.same {s s' : St} (h : PC s) (he : s'.cref = s.cref) (hc : ∀ u, (s'.pc u).cc = (s.pc u).cc) (ht : s'.tm = s.tm)
    (ho : s'.town = s.town) : PC s' := by
  intro w r; rw [he, h w r]; cases r <;> simp only [CPtr, hc, ht, ho]

theorem PC.take {s s' : St} {t x : Nat} (h : PC s) (h0 : s.cref x = none) (h1 : s'.cref = upd s.cref x (some (.thr t)))
    (hc : ∀ u, u ≠ t → (s'.pc u).cc = (s.pc u).cc) (hm : (s.pc t).cc = none) (hm' : (s'.pc t).cc = some x) (ht : s'.tm = s.tm)
    (ho : s'.town = s.town) : PC s' := by
  intro w r
  have hw := h w r
  rw [h1]
  by_cases hx : w = x
  · subst hx
    rw [upd_same]
    rw [h0] at hw
    cases r with
    | thr u =>
      simp only [CPtr] at hw ⊢
      by_cases hut : u = t
      · subst hut; simp [hm']
      · rw [hc u hut]
        constructor
        · intro he; simp at he; exact absurd he.symm hut
        · intro he; exact absurd (hw.2 he) (by simp)
    | tim g =>
      simp only [CPtr, ht, ho] at hw ⊢
      constructor
      · intro he; simp at he
      · intro he; exact absurd (hw.2 he) (by simp)
  · rw [upd_ne _ _ hx, hw]
    cases r with
    | thr u =>
      simp only [CPtr]
      by_cases hut : u = t
      · subst hut; simp [hm, hm', (Ne.symm hx : x ≠ w)]
      · rw [hc u hut]
    | tim g => simp only [CPtr, ht, ho]

theorem PC.drop {s s' : St} {t x : Nat} (h : PC s) (h0 : (s.pc t).cc = some x) (h1 : s'.cref = upd s.cref x none)
    (hc : ∀ u, u ≠ t → (s'.pc u).cc = (s.pc u).cc) (hm' : (s'.pc t).cc = none) (ht : s'.tm = s.tm)
    (ho : s'.town = s.town) : PC s' := by
  intro w r
  have hw := h w r
  have h2 := (h x (.thr t)).2 h0
  rw [h1]
  by_cases hx : w = x
  · subst hx
    rw [upd_same]
    rw [h2] at hw
    cases r with
    | thr u =>
      simp only [CPtr] at hw ⊢
      by_cases hut : u = t
      · subst hut; simp [hm']
      · rw [hc u hut]
        constructor
        · intro he; simp at he
        · intro he; have := hw.2 he; simp at this; exact absurd this.symm hut
    | tim g =>
      simp only [CPtr, ht, ho] at hw ⊢
      constructor
      · intro he; simp at he
      · intro he; have := hw.2 he; simp at this
  · rw [upd_ne _ _ hx, hw]
    cases r with
    | thr u =>
      simp only [CPtr]
      by_cases hut : u = t
      · subst hut; simp [h0, hm', (Ne.symm hx : x ≠ w)]
      · rw [hc u hut]
    | tim g => simp only [CPtr, ht, ho]

end Verif.Fiber.Sync
