import Verif.Sync.NotifierStep4

/-! C142: the notifier of schedulers. -/

namespace Verif.Sync.Notifier

/-- Later. -/
inductive Run (n : Nat) : S → S → Prop
  | refl {s : S} : Run n s s
  | step {s t u : S} (h : Run n s t) (hs : Step n t u) (hl : Lag u) : Run n s u

theorem Run.reach {n : Nat} {s t : S} (h : Run n s t) (hr : Reach n s) : Reach n t := by
  induction h with
  | refl => exact hr
  | step _ hs hl ih => exact .step ih hs hl

theorem Run.trans {n : Nat} {s t u : S} (h : Run n s t) (h' : Run n t u) : Run n s u := by
  induction h' with
  | refl => exact h
  | step _ hs hl ih => exact .step ih hs hl

/-- A waiter that has not been told to return from `Park`. -/
def S.waits (s : S) (i : Nat) : Prop := (s.wk i).late = true ∧ s.st i ≠ .yes

/-- Of every waiter that waits: it is on the stack, or exactly one notifier will wake it. One that sleeps although it was signalled is about to be woken. -/
theorem C142_parked {n : Nat} {s : S} (hn : n < 65535) (h : Reach n s) (i : Nat) :
    (s.waits i → (i ∈ s.L ∧ ∀ j, i ∉ s.U j) ∨ (i ∉ s.L ∧ ∃ j, i ∈ s.U j ∧ ∀ k, i ∈ s.U k → k = j)) ∧
    (s.wk i = .sleep → s.st i = .yes → ∃ j o, s.nt j = .nf i true o) := by
  have I := h.inv hn
  refine ⟨fun ⟨h1, h2⟩ => ?_, I.nfy i⟩
  rcases I.sig i h1 with hL | ⟨j, hj⟩ | hy
  · exact .inl ⟨hL, fun j => I.lu i j hL⟩
  · exact .inr ⟨fun hL => I.lu i j hL hj, j, hj, fun k hk => I.uu i k j hk hj⟩
  · exact absurd hy h2

/-- What is still to come of `Notify(true)`. -/
def Pend (s : S) (j v : Nat) : Prop :=
  (s.ver j = v ∧ (s.nt j = .start true ∨ (∃ x e l, s.nt j = .ns true x e l) ∨ ∃ x e l y, s.nt j = .nc true x e l y)) ∨ v ≤ s.fl

theorem look_nt (s : S) (j : Nat) (a : Bool) : (s.look j a).nt = upd s.nt j (if easy s.word then .idle else .ns a s.word s.E s.L) := by
  unfold S.look S.flush S.t; cases a <;> split <;> simp_all

theorem look_fl (s : S) (j : Nat) (a : Bool) : (s.look j a).fl = if easy s.word && a then max s.fl (s.ver j) else s.fl := by
  unfold S.look S.flush S.t; cases a <;> split <;> simp_all

theorem look_ver (s : S) (j : Nat) (a : Bool) : (s.look j a).ver = s.ver ∧ (s.look j a).wk = s.wk := by
  unfold S.look S.flush S.t; cases a <;> split <;> simp_all

theorem swap_nt (s : S) (j : Nat) (a : Bool) (x y : Nat) :
    (s.swap j a x y).nt = upd s.nt j (if a then (if stk x = 65535 then .idle else .up (some (stk x))) else if wts x ≠ 0 then .idle else if stk x = 65535 then .idle else .cut (stk x)) := by
  unfold S.swap S.flush S.t; cases a <;> simp <;> split <;> simp_all

theorem swap_fl (s : S) (j : Nat) (a : Bool) (x y : Nat) : (s.swap j a x y).fl = if a then max s.fl (s.ver j) else s.fl := by
  unfold S.swap S.flush S.t; cases a <;> simp <;> split <;> simp_all

theorem swap_ver (s : S) (j : Nat) (a : Bool) (x y : Nat) : (s.swap j a x y).ver = s.ver ∧ (s.swap j a x y).wk = s.wk := by
  unfold S.swap S.flush S.t; cases a <;> simp <;> split <;> simp_all

theorem ring_nt (s : S) (w j : Nat) (x : N) : ((if s.wk w = .sleep then s.w w .park else s).t j x).nt = upd s.nt j x := by
  split <;> rfl

theorem ring_wk (s : S) (w j : Nat) (x : N) (i : Nat) : ((if s.wk w = .sleep then s.w w .park else s).t j x).wk i = if s.wk w = .sleep ∧ i = w then .park else s.wk i := by
  split
  next h => show upd s.wk w .park i = _; rw [upd_apply]; simp [h]
  next h => simp [h]; rfl

theorem Pend.step {n : Nat} {s s' : S} {j v : Nat} (h : Pend s j v) (hs : Step n s s') : Pend s' j v := by
  simp only [Pend] at *
  cases hs <;> simp only [S.w, S.t, look_nt, look_fl, look_ver, swap_nt, swap_fl, swap_ver, upd_apply] at * <;> grind

theorem Pend.run {n : Nat} {s s' : S} {j v : Nat} (h : Pend s j v) (r : Run n s s') : Pend s' j v := by
  induction r with
  | refl => exact h
  | step _ hs _ ih => exact ih.step hs

theorem fl_mono {n : Nat} {s s' : S} {v : Nat} (h : v ≤ s.fl) (r : Run n s s') : v ≤ s'.fl := by
  induction r with
  | refl => exact h
  | step _ hs _ ih =>
    cases hs <;> simp only [S.w, S.t, look_fl, swap_fl] at * <;> grind

/-- No wake-up is lost: when `Notify(true)` was called (in `s`) and has returned (in `t`), then from then on a waiter that waits has tested the predicate after all changes before that call, or a notifier has it in its hands and will wake it;
and one that has tested it before and has not yet gone to wait returns without waiting as soon as it looks. -/
theorem C142_all {n : Nat} {s t u : S} (hn : n < 65535) (h : Reach n s) (j : Nat) (hj : s.nt j = .idle) (hl : Lag { s.t j (.start true) with ver := upd s.ver j s.V })
    (r : Run n { s.t j (.start true) with ver := upd s.ver j s.V } t) (ht : t.nt j = .idle) (r' : Run n t u) (i : Nat) :
    (u.waits i → s.V ≤ u.saw i ∨ ∃ k, i ∈ u.U k) ∧
    ((u.wk i).early = true → u.wk i ≠ .pre → u.saw i < s.V → 0 < diff u.word (u.ep i) ∧ diff u.word (u.ep i) < 2 ^ 31) := by
  have p : Pend { s.t j (.start true) with ver := upd s.ver j s.V } j s.V := .inl ⟨upd_same .., .inl (upd_same ..)⟩
  have hf : s.V ≤ t.fl := by
    rcases p.run r with ⟨-, h1 | ⟨x, e, l, h1⟩ | ⟨x, e, l, y, h1⟩⟩ | h1
    · rw [ht] at h1; cases h1
    · rw [ht] at h1; cases h1
    · rw [ht] at h1; cases h1
    · exact h1
  have hu := fl_mono hf r'
  have hr : Reach n u := r'.reach (r.reach (.step h (.notify j true hj) hl))
  have I := hr.inv hn
  refine ⟨fun hw => ?_, fun he hp hs => ?_⟩
  · rcases (C142_parked hn hr i).1 hw with ⟨hL, -⟩ | ⟨-, k, hk, -⟩
    · exact .inl (Nat.le_trans hu (I.seenL i hL))
    · exact .inr ⟨k, hk⟩
  · have hm : i ∉ u.P := fun hm => by have := I.seenP i hm hp; omega
    have h1 := I.pout i he hm
    have h2 := hr.lag.wait i he
    have h3 := diff_eq (fresh hn I he).1 (I.ept i he) (by omega) (by omega)
    omega

/-- In particular: when nobody is notifying, whoever waits has seen all that was notified. -/
theorem C142_quiet {n : Nat} {s t u : S} (hn : n < 65535) (h : Reach n s) (j : Nat) (hj : s.nt j = .idle) (hl : Lag { s.t j (.start true) with ver := upd s.ver j s.V })
    (r : Run n { s.t j (.start true) with ver := upd s.ver j s.V } t) (ht : t.nt j = .idle) (r' : Run n t u) (hq : ∀ k, u.nt k = .idle) (i : Nat) (hw : u.waits i) :
    s.V ≤ u.saw i := by
  have I := (r'.reach (r.reach (.step h (.notify j true hj) hl))).inv hn
  rcases (C142_all hn h j hj hl r ht r' i).1 hw with h1 | ⟨k, hk⟩
  · exact h1
  · rw [I.u0 k (.inl (hq k))] at hk; simp at hk

/-- `Notify(false)` releases exactly one: the first of those that have prepared, which then returns without waiting; if there is none, the one that went to wait last, which only this notifier will wake. -/
theorem C142_one {n : Nat} {s : S} (hn : n < 65535) (h : Reach n s) {j x e y : Nat} {l : List Nat} (hj : s.nt j = .nc false x e l y) (hx : s.word = x) :
    (∃ w r, s.P = w :: r ∧ (s.swap j false x y).P = r ∧ (s.swap j false x y).L = s.L ∧ (s.swap j false x y).U = s.U ∧
      0 < diff (s.swap j false x y).word (s.ep w) ∧ diff (s.swap j false x y).word (s.ep w) < 2 ^ 31) ∨
    (s.P = [] ∧ ∃ w r, s.L = w :: r ∧ (s.swap j false x y).P = [] ∧ (s.swap j false x y).L = r ∧ (s.swap j false x y).U = upd s.U j [w]) := by
  have I := h.inv hn
  obtain ⟨he, k1, k2, k3, hy⟩ := at_swap hn I h.lag hj hx
  cases hP : s.P with
  | nil =>
    refine .inr ⟨rfl, ?_⟩
    have h0 : wts x = 0 := by rw [k1, hP]; rfl
    cases hL : s.L with
    | nil => simp [hP, hL] at k3
    | cons w r =>
      have hw : stk x = w := by rw [k2, hL]; rfl
      refine ⟨w, r, rfl, ?_, ?_, ?_⟩ <;> simp [S.swap, S.t, h0, hw, hP, hL]
  | cons w r =>
    have h0 : wts x ≠ 0 := by rw [k1, hP]; simp
    have hm : w ∈ s.P := by rw [hP]; simp
    have hE := I.pin w hm
    have htk : s.tk w = s.E := by have := I.tick; rw [hP] at this; exact this.1
    refine .inl ⟨w, r, rfl, by simp [S.swap, h0, hP], by simp [S.swap, h0, S.t], by simp [S.swap, h0, S.t], ?_⟩
    have hwd : (s.swap j false x y).word = y := by simp [S.swap, h0]
    simp only [Bool.false_eq_true, if_false, hP, List.cons_ne_nil, List.tail_cons] at hy
    have hp := plen I
    rw [hP] at hp
    simp only [List.length_cons] at hp
    have h3 := diff_eq (x := y) (e := s.E + 1) (t := s.tk w) (ep := s.ep w) (by rw [hy, epo_wd (by omega) (top_lt hn I)]) (I.ept w hE) (by omega) (by omega)
    rw [hwd]
    omega

/-- Whoever has prepared and looks: returns if it was released; may decide if it is the first; has to wait for another only if there is one whose turn it is. -/
theorem C142_turn {n : Nat} {s : S} (hn : n < 65535) (h : Reach n s) (i : Nat) (hi : (s.wk i).early = true) :
    (i ∉ s.P ↔ 0 < diff s.word (s.ep i) ∧ diff s.word (s.ep i) < 2 ^ 31) ∧
    (diff s.word (s.ep i) = 0 ↔ s.P.head? = some i) ∧
    (2 ^ 31 ≤ diff s.word (s.ep i) → ∃ k, k ≠ i ∧ (s.wk k).early = true ∧ diff s.word (s.ep k) = 0) := by
  have I := h.inv hn
  have hd : ∀ k, (s.wk k).early = true → (diff s.word (s.ep k) = 0 ↔ s.E = s.tk k) ∧ (2 ^ 31 ≤ diff s.word (s.ep k) ↔ s.E < s.tk k) := fun k hk => by
    have h1 := fresh hn I hk
    have h2 := h.lag.wait k hk
    exact diff_eq h1.1 (I.ept k hk) (by omega) (by omega)
  have h0 := hd i hi
  refine ⟨⟨fun hm => ?_, fun hm hp => ?_⟩, ⟨fun hz => ?_, fun hh => ?_⟩, fun hb => ?_⟩
  · have := I.pout i hi hm; omega
  · have := (I.tick.bound hp).1; omega
  · have he := h0.1.1 hz
    have hm : i ∈ s.P := Classical.byContradiction fun hm => by have := I.pout i hi hm; omega
    rw [I.tick.first hm he.symm]; rfl
  · cases hP : s.P with
    | nil => rw [hP] at hh; cases hh
    | cons w r =>
      rw [hP] at hh
      have hw : w = i := by simpa using hh
      have := I.tick
      rw [hP] at this
      exact h0.1.2 (hw ▸ this.1.symm)
  · have hlt := h0.2.1 hb
    have hm : i ∈ s.P := Classical.byContradiction fun hm => by have := I.pout i hi hm; omega
    cases hP : s.P with
    | nil => rw [hP] at hm; simp at hm
    | cons w r =>
      have ht := I.tick
      rw [hP] at ht
      have hw := I.pin w (by rw [hP]; simp)
      have h1 := ht.1
      exact ⟨w, by rintro rfl; omega, hw, (hd w hw).1.2 ht.1.symm⟩

/-- The assertions hold, and a waiter that is looked up exists. -/
structure Idx (n : Nat) (s : S) : Prop where
  ns : ∀ j a x e l, s.nt j = .ns a x e l → stk x = 65535 ∨ stk x < n
  nc : ∀ j a x e l y, s.nt j = .nc a x e l y → stk x = 65535 ∨ stk x < n
  sn : ∀ i c x e, s.wk i = .sn c x e → stk x = 65535 ∨ stk x < n
  cs : ∀ i c x e, s.wk i = .cs c x e → stk x = 65535 ∨ stk x < n

theorem Idx.step {n : Nat} {s s' : S} (h : Idx n s) (hw : stk s.word = 65535 ∨ stk s.word < n) (hs : Step n s s') : Idx n s' := by
  obtain ⟨h1, h2, h3, h4⟩ := h
  cases hs <;> constructor <;> (try simp only [ring_nt, ring_wk]) <;> (try simp only [S.w, S.t, look_nt, look_ver, swap_nt, swap_ver, upd_apply] at *) <;> grind

theorem Reach.idx {n : Nat} {s : S} (hn : n < 65535) (h : Reach n s) : Idx n s := by
  induction h with
  | init => constructor <;> simp [S.init]
  | @step s s' h hs _ ih =>
    refine ih.step ?_ hs
    have I := h.inv hn
    rw [I.word, stk_wd (top_lt hn I)]
    cases e : s.L with
    | nil => exact .inl rfl
    | cons a r => exact .inr (late_lt I (i := a) (by rw [e]; simp))

theorem C142_safe {n : Nat} {s : S} (hn : n < 65535) (h : Reach n s) :
    s.bad = false ∧ (∀ i c x e, s.wk i = .sn c x e → stk x = 65535 ∨ stk x < n) ∧ (∀ j a x e l, s.nt j = .ns a x e l → stk x = 65535 ∨ stk x < n) :=
  ⟨(h.inv hn).good, (h.idx hn).sn, (h.idx hn).ns⟩

/-- What notifier `k` alone does: the others do not move, and a waiter at most wakes. -/
structure Alone (s t : S) (k : Nat) : Prop where
  nt : ∀ j, j ≠ k → t.nt j = s.nt j
  wk : ∀ i, t.wk i = s.wk i ∨ (s.wk i = .sleep ∧ t.wk i = .park)
  same : t.E = s.E ∧ t.tk = s.tk ∧ t.L = s.L ∧ t.P = s.P
  yes : ∀ i, s.st i = .yes → t.st i = .yes

theorem Alone.refl (s : S) (k : Nat) : Alone s s k := ⟨fun _ _ => rfl, fun _ => .inl rfl, ⟨rfl, rfl, rfl, rfl⟩, fun _ h => h⟩

theorem Alone.trans {s t u : S} {k : Nat} (h : Alone s t k) (h' : Alone t u k) : Alone s u k := by
  obtain ⟨a1, a2, ⟨a3, a4, a5, a6⟩, a7⟩ := h
  obtain ⟨b1, b2, ⟨b3, b4, b5, b6⟩, b7⟩ := h'
  constructor <;> grind

/-- No snapshot of the word is used any more. -/
def N.unp : N → Bool
  | .ns _ _ _ _ => false
  | .nc _ _ _ _ _ => false
  | _ => true

theorem Alone.lag {s t : S} {k : Nat} (h : Alone s t k) (hl : Lag s) (hk : (t.nt k).unp = true) : Lag t := by
  obtain ⟨a1, a2, ⟨a3, a4, -, -⟩, -⟩ := h
  obtain ⟨b1, b2, b3⟩ := hl
  constructor
  · grind [W.early]
  · grind
  · intro j a x e l y hj
    by_cases hjk : j = k
    · subst hjk
      rcases hj with hj | hj
      · rw [hj] at hk; cases hk
      · rw [hj] at hk; cases hk
    · rw [a1 j hjk] at hj
      rw [a3]; exact b3 j a x e l y hj

/-- The end of a turn of the loop of `Unpark`. -/
theorem turn1 {n : Nat} {s : S} {k w : Nat} {b : Bool} {o : Option Nat} (hl : Lag s) (hk : s.nt k = .nf w b o) :
    ∃ t, Run n s t ∧ Alone s t k ∧ t.nt k = .up o ∧ t.st = s.st ∧ (b = true ∨ s.wk w ≠ .sleep → t.wk w ≠ .sleep) ∧ t.nx = s.nx ∧ t.U = s.U := by
  cases b with
  | true =>
    have e : ((if s.wk w = .sleep then s.w w .park else s).t k (.up o)).nt k = .up o := by rw [ring_nt]; exact upd_same ..
    have A : Alone s ((if s.wk w = .sleep then s.w w .park else s).t k (.up o)) k := by
      refine ⟨fun j hj => ?_, fun i => ?_, ?_, ?_⟩
      · rw [ring_nt]; exact upd_ne _ _ hj
      · rw [ring_wk]
        split
        next h => exact .inr ⟨h.2 ▸ h.1, rfl⟩
        · exact .inl rfl
      · split <;> exact ⟨rfl, rfl, rfl, rfl⟩
      · split <;> exact fun _ h => h
    refine ⟨_, .step .refl (.ring k w o hk) (A.lag hl (congrArg N.unp e)), A, e, ?_, fun _ => ?_, ?_, ?_⟩
    · split <;> rfl
    · rw [ring_wk]
      split
      · simp
      · next h => exact fun c => h ⟨c, rfl⟩
    · split <;> rfl
    · split <;> rfl
  | false =>
    have e : (s.t k (.up o)).nt k = .up o := upd_same ..
    have A : Alone s (s.t k (.up o)) k := ⟨fun j hj => upd_ne _ _ hj, fun _ => .inl rfl, ⟨rfl, rfl, rfl, rfl⟩, fun _ h => h⟩
    exact ⟨_, .step .refl (.quiet k w o hk) (A.lag hl (congrArg N.unp e)), A, e, rfl, fun h => h.resolve_left (by simp), rfl, rfl⟩

/-- From the lock on. -/
theorem turn2 {n : Nat} {s : S} {k w : Nat} {o : Option Nat} (hl : Lag s) (hk : s.nt k = .sg w o) (hw : s.wk w = .sleep → s.st w = .waiting) :
    ∃ t, Run n s t ∧ Alone s t k ∧ t.nt k = .up o ∧ t.st w = .yes ∧ t.wk w ≠ .sleep ∧ t.nx = s.nx ∧ t.U k = (s.U k).erase w := by
  obtain ⟨s2, r2, A2, e2, x2, u2, t2, w2⟩ : ∃ s2, Run n s s2 ∧ Alone s s2 k ∧ s2.nt k = .nf w (decide (s.st w = .waiting)) o ∧ s2.nx = s.nx ∧ s2.U k = (s.U k).erase w ∧ s2.st w = .yes ∧ s2.wk = s.wk := by
    have A : Alone s { s.t k (.nf w (decide (s.st w = .waiting)) o) with st := upd s.st w .yes, U := upd s.U k ((s.U k).erase w) } k :=
      ⟨fun j hj => upd_ne _ _ hj, fun _ => .inl rfl, ⟨rfl, rfl, rfl, rfl⟩, fun i h => by
        show upd s.st w .yes i = .yes
        rw [upd_apply]; split
        · rfl
        · exact h⟩
    have e : ({ s.t k (.nf w (decide (s.st w = .waiting)) o) with st := upd s.st w .yes, U := upd s.U k ((s.U k).erase w) } : S).nt k = .nf w (decide (s.st w = .waiting)) o := upd_same ..
    exact ⟨_, .step .refl (.signal k w o hk) (A.lag hl (congrArg N.unp e)), A, e, rfl, upd_same .., upd_same .., rfl⟩
  obtain ⟨s3, r3, A3, e3, t3, w3, x3, u3⟩ := turn1 (n := n) (A2.lag hl (congrArg N.unp e2)) e2
  refine ⟨s3, r2.trans r3, A2.trans A3, e3, by rw [t3]; exact t2, w3 ?_, by rw [x3, x2], by rw [u3, u2]⟩
  by_cases h : s.st w = .waiting
  · exact .inl (by simp [h])
  · exact .inr (by rw [w2]; exact fun c => h (hw c))

/-- A whole turn. -/
theorem turn3 {n : Nat} {s : S} {k w : Nat} (hl : Lag s) (hk : s.nt k = .up (some w)) (hw : s.wk w = .sleep → s.st w = .waiting) :
    ∃ t, Run n s t ∧ Alone s t k ∧ t.nt k = .up (s.nx w) ∧ t.st w = .yes ∧ t.wk w ≠ .sleep ∧ t.nx = s.nx ∧ t.U k = (s.U k).erase w := by
  have A : Alone s (s.t k (.sg w (s.nx w))) k := ⟨fun j hj => upd_ne _ _ hj, fun _ => .inl rfl, ⟨rfl, rfl, rfl, rfl⟩, fun _ h => h⟩
  have e : (s.t k (.sg w (s.nx w))).nt k = .sg w (s.nx w) := upd_same ..
  have hl' := A.lag hl (congrArg N.unp e)
  obtain ⟨t, r, B, h⟩ := turn2 (n := n) hl' e hw
  exact ⟨t, (Run.step .refl (.next k w hk) hl').trans r, A.trans B, h⟩

theorem finish {n : Nat} (hn : n < 65535) (k : Nat) : ∀ (l : List Nat) (s : S), Reach n s → s.U k = l → s.nt k = .up l.head? →
    ∃ t, Run n s t ∧ Alone s t k ∧ t.nt k = .idle ∧ ∀ i, i ∈ l → t.st i = .yes ∧ t.wk i ≠ .sleep
  | [], s, hr, _, hk => by
    have e : (s.t k .idle).nt k = .idle := upd_same ..
    have A : Alone s (s.t k .idle) k := ⟨fun j hj => upd_ne _ _ hj, fun _ => .inl rfl, ⟨rfl, rfl, rfl, rfl⟩, fun _ h => h⟩
    exact ⟨_, .step .refl (.end_ k hk) (A.lag hr.lag (congrArg N.unp e)), A, e, by simp⟩
  | w :: r, s, hr, hU, hk => by
    have I := hr.inv hn
    have hm : w ∈ s.U k := by rw [hU]; simp
    have hw : s.wk w = .sleep → s.st w = .waiting := fun hs => by
      have h1 := I.slp w hs
      have h2 := I.uy w k hm
      cases e : s.st w <;> simp_all
    obtain ⟨t, rt, A, e, ty, tw, tx, tu⟩ := turn3 (n := n) hr.lag hk hw
    have hl := I.ulin k (by simp [hk])
    rw [hU] at hl
    rw [hU] at tu
    obtain ⟨u, ru, B, f, hu⟩ := finish hn k r t (rt.reach hr) (by rw [tu]; simp) (by rw [e]; exact congrArg N.up hl.1)
    refine ⟨u, rt.trans ru, A.trans B, f, fun i hi => ?_⟩
    rcases List.mem_cons.mp hi with rfl | hi
    · refine ⟨B.yes i ty, ?_⟩
      rcases B.wk i with h1 | ⟨-, h1⟩
      · rw [h1]; exact tw
      · rw [h1]; simp
    · exact hu i hi

/-- A notifier that has taken waiters off the stack wakes them all, whatever the others do not do: by its own steps alone it returns, and then all of them were signalled and none of them sleeps. -/
theorem C142_wakes {n : Nat} {s : S} (hn : n < 65535) (h : Reach n s) (k : Nat) (hk : s.U k ≠ []) :
    ∃ t, Run n s t ∧ Alone s t k ∧ t.nt k = .idle ∧ ∀ i, i ∈ s.U k → t.st i = .yes ∧ t.wk i ≠ .sleep := by
  have I := h.inv hn
  have up : ∀ o, s.nt k = .up o → ∃ t, Run n s t ∧ Alone s t k ∧ t.nt k = .idle ∧ ∀ i, i ∈ s.U k → t.st i = .yes ∧ t.wk i ≠ .sleep := fun o ho =>
    finish hn k (s.U k) s h rfl (by rw [ho, I.uup k o ho])
  cases hc : s.nt k with
  | idle => exact absurd (I.u0 k (by simp [hc])) hk
  | start a => exact absurd (I.u0 k (by simp [hc])) hk
  | ns a x e l => exact absurd (I.u0 k (by simp [hc])) hk
  | nc a x e l y => exact absurd (I.u0 k (by simp [hc])) hk
  | cut w =>
    have hu := I.ucut k w hc
    have e : ({ s.t k (.up (some w)) with nx := upd s.nx w none } : S).nt k = .up (some w) := upd_same ..
    have A : Alone s { s.t k (.up (some w)) with nx := upd s.nx w none } k := ⟨fun j hj => upd_ne _ _ hj, fun _ => .inl rfl, ⟨rfl, rfl, rfl, rfl⟩, fun _ h => h⟩
    have hl := A.lag h.lag (congrArg N.unp e)
    obtain ⟨t, r, B, f, ht⟩ := finish hn k (s.U k) _ (.step h (.cut k w hc) hl) rfl (by rw [e, hu]; rfl)
    exact ⟨t, (Run.step .refl (.cut k w hc) hl).trans r, A.trans B, f, ht⟩
  | up o => exact up o hc
  | sg w o =>
    obtain ⟨hh, hx⟩ := I.usg k w o hc
    have hm : w ∈ s.U k := List.mem_of_mem_head? (by rw [hh]; rfl)
    obtain ⟨r, hr⟩ : ∃ r, s.U k = w :: r := by
      cases e : s.U k with
      | nil => exact absurd e hk
      | cons a r => simp [e] at hh; exact ⟨r, by rw [hh]⟩
    have hw : s.wk w = .sleep → s.st w = .waiting := fun hs => by
      have h1 := I.slp w hs
      have h2 := I.uy w k hm
      cases e : s.st w <;> simp_all
    obtain ⟨t, rt, A, e, ty, tw, tx, tu⟩ := turn2 (n := n) h.lag hc hw
    have hl := I.ulin k (by simp [hc])
    rw [hr] at hl tu
    obtain ⟨u, ru, B, f, hu⟩ := finish hn k r t (rt.reach h) (by rw [tu]; simp) (by rw [e, ← hx]; exact congrArg N.up hl.1)
    refine ⟨u, rt.trans ru, A.trans B, f, fun i hi => ?_⟩
    rw [hr] at hi
    rcases List.mem_cons.mp hi with rfl | hi
    · refine ⟨B.yes i ty, ?_⟩
      rcases B.wk i with h1 | ⟨-, h1⟩
      · rw [h1]; exact tw
      · rw [h1]; simp
    · exact hu i hi
  | nf w b o =>
    have ho := I.unf k w b o hc
    obtain ⟨t, rt, A, e, -, -, -, tu⟩ := turn1 (n := n) h.lag hc
    obtain ⟨u, ru, B, f, hu⟩ := finish hn k (s.U k) t (rt.reach h) (by rw [tu]) (by rw [e, ho])
    exact ⟨u, rt.trans ru, A.trans B, f, hu⟩

end Verif.Sync.Notifier
