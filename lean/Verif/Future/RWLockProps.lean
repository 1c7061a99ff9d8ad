import Verif.Future.SemaphoreLemmas
/-!
# C26: the asynchronous read-write lock
-/

namespace Verif.Future.Sem

/-- Units held. -/
def Holders.units (h : Holders) : Nat := h.readers + h.writers * maxOps

/-- Units of a reader or a writer. -/
def num (w : Bool) : Nat := if w then maxOps else 1

/-- The waiter asked for the units of its role. -/
def Good (h : Holders) (e : Entry) : Prop := ∃ w, h.roles[e.id]? = some w ∧ e.num = num w

def One (e : Entry) : Prop := e.num = 1 ∨ e.num = maxOps

structure RW (s : St) (tr : List Ev) (h : Holders) : Prop where
  doing : s.doing = (readyOf s.stack).length
  order : served tr ++ readyOf s.stack ++ s.waiting = arrivals tr
  ok : s.broken = false ∧ s.dead = false ∧ .brk ∉ s.stack
  nums : (∀ e ∈ readyOf s.stack, Good h e) ∧ ∀ e ∈ s.waiting, Good h e
  roles : h.roles.length = s.next
  total : s.count + Sem.units (readyOf s.stack) + h.units = maxOps
  wake : s.waiting ≠ [] → readyOf s.stack ≠ [] ∨ 0 < h.units

theorem max_pos : 0 < maxOps := by decide

theorem Good.one {h : Holders} {e : Entry} (g : Good h e) : One e := by
  obtain ⟨w, -, hn⟩ := g
  cases w
  · exact Or.inl hn
  · exact Or.inr hn

theorem Good.mono {h h' : Holders} {e : Entry} (g : Good h e) (hr : h.roles <+: h'.roles) : Good h' e := by
  obtain ⟨w, hw, hn⟩ := g
  obtain ⟨t, ht⟩ := hr
  refine ⟨w, ?_, hn⟩
  rw [← ht, List.getElem?_append_left (List.getElem?_eq_some_iff.1 hw).1]; exact hw

theorem Good.same {h h' : Holders} {e : Entry} (g : Good h e) (hr : h'.roles = h.roles) : Good h' e :=
  g.mono (hr ▸ List.prefix_refl _)

@[simp] theorem roles_add (h : Holders) (w : Bool) : (h.add w).roles = h.roles := by
  cases w <;> rfl

@[simp] theorem roles_remove (h : Holders) (w : Bool) : (h.remove w).roles = h.roles := by
  cases w <;> rfl

theorem units_add (h : Holders) (w : Bool) : (h.add w).units = h.units + num w := by
  cases w
  · simp [Holders.add, Holders.units, num]; omega
  · simp [Holders.add, Holders.units, num, Nat.succ_mul]; omega

theorem units_remove (h : Holders) {a : RWAct} {n : Nat} (ha : a.act = .signal n) (hm : mayUnlock h a) :
    (h.remove (isWrite a)).units + n = h.units := by
  cases a <;> simp only [RWAct.act, Act.signal.injEq, reduceCtorEq] at ha <;> subst ha <;> simp only [mayUnlock] at hm
  · simp [Holders.remove, Holders.units, isWrite]; omega
  · obtain ⟨w, hw⟩ := Nat.exists_eq_succ_of_ne_zero (Nat.pos_iff_ne_zero.1 hm)
    simp [Holders.remove, Holders.units, isWrite, hw, Nat.succ_mul]; omega

theorem one_pos {e : Entry} (h : One e) : 0 < e.num := by
  rcases h with h | h <;> rw [h]
  · exact Nat.one_pos
  · exact max_pos

theorem one_le {e : Entry} (h : One e) : e.num ≤ maxOps := by
  rcases h with h | h <;> rw [h]
  · exact max_pos
  · exact Nat.le_refl _

theorem RW.init : RW rwInit [] ⟨0, 0, []⟩ where
  doing := rfl
  order := rfl
  ok := by simp [rwInit, Sem.init]
  nums := by simp [rwInit, Sem.init, readyOf]
  roles := rfl
  total := rfl
  wake := by simp [rwInit, Sem.init]

namespace RW

variable {s : St} {tr : List Ev} {h : Holders}

theorem wait (H : RW s tr h) {a : RWAct} {n : Nat} (hn : n = num (isWrite a)) :
    RW (Sem.wait s n).1 (tr ++ (Sem.wait s n).2) ((Sem.wait s n).2.foldl (Holders.ev a) h) := by
  unfold Sem.wait
  split
  · next hp =>
    simp [mayProceed] at hp
    refine ⟨H.doing, by simpa using H.order, H.ok, ?_, by simpa [Holders.ev] using H.roles, ?_, by simp [hp.2]⟩
    · exact ⟨fun e he => (H.nums.1 e he).same (by simp [Holders.ev]),
        fun e he => (H.nums.2 e he).same (by simp [Holders.ev])⟩
    · have := H.total
      simp only [List.foldl_cons, List.foldl_nil, Holders.ev, units_add]
      show s.count - n + Sem.units (readyOf s.stack) + _ = _
      omega
  · next hp =>
    rw [if_neg (by simp [H.ok.1])]
    have hpre : h.roles <+: (Holders.ev a h (.queued ⟨s.next, n⟩)).roles := ⟨_, rfl⟩
    refine ⟨H.doing, by have := H.order; simp at this ⊢; rw [← this]; simp, H.ok,
      ⟨fun e he => (H.nums.1 e he).mono hpre, ?_⟩, by simp [Holders.ev, H.roles], H.total, fun _ => ?_⟩
    · intro e he
      simp at he
      rcases he with he | rfl
      · exact (H.nums.2 e he).mono hpre
      · refine ⟨isWrite a, ?_, hn⟩
        simp [Holders.ev, ← H.roles]
    · show _ ∨ 0 < h.units
      by_cases hw : s.waiting = []
      · simp [mayProceed, hw] at hp
        have : n ≤ maxOps := by
          rw [hn]; cases isWrite a <;> decide
        have := H.total
        by_cases hr : readyOf s.stack = []
        · right; rw [hr] at this; simp at this; omega
        · exact Or.inl hr
      · exact H.wake hw

theorem tryWait (H : RW s tr h) {a : RWAct} {n : Nat} (hn : n = num (isWrite a)) :
    RW (Sem.tryWait s n).1 (tr ++ (Sem.tryWait s n).2) ((Sem.tryWait s n).2.foldl (Holders.ev a) h) := by
  unfold Sem.tryWait
  split
  · next hp =>
    simp [mayProceed] at hp
    refine ⟨H.doing, by simpa using H.order, H.ok, ?_, by simpa [Holders.ev] using H.roles, ?_, by simp [hp.2]⟩
    · exact ⟨fun e he => (H.nums.1 e he).same (by simp [Holders.ev]),
        fun e he => (H.nums.2 e he).same (by simp [Holders.ev])⟩
    · have := H.total
      simp only [List.foldl_cons, List.foldl_nil, Holders.ev, units_add]
      show s.count - n + Sem.units (readyOf s.stack) + _ = _
      omega
  · exact ⟨H.doing, by simpa using H.order, H.ok, H.nums, H.roles, H.total, H.wake⟩

theorem serve {r : List Entry} {a : RWAct} (H : RW { s with stack := .sig r :: s.stack } tr h) :
    RW (Sem.serve s r).1 (tr ++ (Sem.serve s r).2) ((Sem.serve s r).2.foldl (Holders.ev a) h) := by
  cases r with
  | nil =>
    exact ⟨H.doing, by have := H.order; simp [Sem.serve, readyOf] at this ⊢; exact this,
      by simpa [Sem.serve] using H.ok, by simpa [Sem.serve, readyOf] using H.nums, H.roles,
      by simpa [Sem.serve, readyOf] using H.total, by simpa [Sem.serve, readyOf] using H.wake⟩
  | cons e r =>
    obtain ⟨w, hw, hn⟩ := H.nums.1 e (by simp [readyOf])
    have hd : h.roles.getD e.id false = w := by simp [List.getD, hw]
    have hev : Holders.ev a h (.resolved e) = h.add w := by simp only [Holders.ev, hd]
    refine ⟨?_, ?_, by simpa [Sem.serve] using H.ok, ⟨?_, ?_⟩, ?_, ?_, fun _ => Or.inr ?_⟩
    · have := H.doing
      simp [Sem.serve, readyOf] at this ⊢; omega
    · have := H.order
      simp [Sem.serve, readyOf] at this ⊢; exact this
    · intro x hx
      refine (H.nums.1 x (by simp [Sem.serve, readyOf] at hx ⊢; exact Or.inr hx)).same ?_
      simp [Sem.serve, hev]
    · intro x hx
      exact (H.nums.2 x hx).same (by simp [Sem.serve, hev])
    · simpa [Sem.serve, hev] using H.roles
    · have := H.total
      simp [Sem.serve, readyOf, hev, units_add] at this ⊢; omega
    · have : 0 < num w := by cases w <;> decide
      simp [Sem.serve, hev, units_add]; omega

theorem signal (H : RW s tr h) {a : RWAct} {n : Nat} (ha : a.act = .signal n) (hm : mayUnlock h a) :
    RW (Sem.signal s n).1 (tr ++ (Sem.signal s n).2) ((Sem.signal s n).2.foldl (Holders.ev a) h) := by
  unfold Sem.signal
  rw [if_neg (by simp [H.ok.1])]
  have hrem := units_remove _ ha hm
  have hmod : (s.count + n) % 2 ^ 64 = s.count + n := by
    have := H.total
    exact Nat.mod_eq_of_lt (by unfold maxOps at this; omega)
  simp only [hmod]
  split
  · next hd =>
    have hr : readyOf s.stack ≠ [] := by
      intro e; have := H.doing; rw [e] at this; simp at this; omega
    refine ⟨H.doing, by simpa using H.order, H.ok, ?_, by simpa [Holders.ev] using H.roles, ?_, fun _ => Or.inl hr⟩
    · exact ⟨fun e he => (H.nums.1 e he).same (by simp [Holders.ev]),
        fun e he => (H.nums.2 e he).same (by simp [Holders.ev])⟩
    · have := H.total
      simp [Holders.ev]; omega
  · next hd =>
    obtain ⟨e1, e2, e3⟩ := scan_eq (s.count + n) s.waiting
    have hr : readyOf s.stack = [] := List.length_eq_zero_iff.1 (by have := H.doing; omega)
    have htot := H.total
    rw [hr] at htot
    simp at htot
    have h2 := serve (a := a) (tr := tr ++ [.signalled n true]) (r := (scan (s.count + n) s.waiting).2.1)
      (h := h.remove (isWrite a))
      (s := { s with count := (scan (s.count + n) s.waiting).1, waiting := (scan (s.count + n) s.waiting).2.2,
                     doing := (scan (s.count + n) s.waiting).2.1.length }) (by
        have hw : ∀ e ∈ (scan (s.count + n) s.waiting).2.1 ++ (scan (s.count + n) s.waiting).2.2,
            Good (h.remove (isWrite a)) e := by
          rw [e1]; exact fun e he => (H.nums.2 e he).same (by simp)
        have htot2 : (scan (s.count + n) s.waiting).1 + Sem.units (scan (s.count + n) s.waiting).2.1 +
            (h.remove (isWrite a)).units = maxOps := by omega
        refine ⟨by simp [readyOf, hr], ?_, ⟨H.ok.1, H.ok.2.1, by simp [H.ok.2.2]⟩, ⟨?_, ?_⟩, by simpa using H.roles,
          ?_, ?_⟩
        · have := H.order
          simp [readyOf, hr] at this ⊢
          rw [e1]; exact this
        · intro e he; simp [readyOf, hr] at he; exact hw e (by simp [he])
        · intro e he; exact hw e (List.mem_append_right _ he)
        · simpa [readyOf, hr] using htot2
        · intro hne
          simp only [readyOf, hr, List.append_nil]
          obtain ⟨e, w, hew⟩ := List.exists_cons_of_ne_nil hne
          have hlt := e3 e (by simp only at hew; simp [hew])
          have hle := one_le (hw e (List.mem_append_right _ (by simp only at hew; simp [hew]))).one
          by_cases hx : (scan (s.count + n) s.waiting).2.1 = []
          · right; rw [hx] at htot2; simp at htot2; omega
          · exact Or.inl hx)
    simpa [Holders.ev] using h2

theorem ret (H : RW s tr h) (a : RWAct) :
    RW (Sem.ret s).1 (tr ++ (Sem.ret s).2) ((Sem.ret s).2.foldl (Holders.ev a) h) := by
  unfold Sem.ret
  split
  · simpa using H
  · next r fs e =>
    refine serve ?_
    have : { s with stack := .sig r :: fs } = s := by rw [← e]
    exact this ▸ H
  · next fs e => exact absurd (by simp [e]) H.ok.2.2

theorem step (H : RW s tr h) (a : RWAct) (hm : mayUnlock h a) :
    RW (Sem.step s a.act).1 (tr ++ (Sem.step s a.act).2) ((Sem.step s a.act).2.foldl (Holders.ev a) h) := by
  unfold Sem.step
  rw [if_neg (by simp [H.ok.2.1])]
  cases a with
  | readLock => exact H.wait rfl
  | writeLock => exact H.wait rfl
  | readUnlock => exact H.signal (a := .readUnlock) rfl hm
  | writeUnlock => exact H.signal (a := .writeUnlock) rfl hm
  | tryRead => exact H.tryWait rfl
  | tryWrite => exact H.tryWait rfl
  | ret => exact H.ret _

end RW

theorem RW.run (as : List RWAct) : ∀ {s tr h s' tr' h'}, RW s tr h → rwRun s tr h as = some (s', tr', h') →
    RW s' tr' h' := by
  induction as with
  | nil => intro s tr h s' tr' h' H e; simp [rwRun] at e; obtain ⟨rfl, rfl, rfl⟩ := e; exact H
  | cons a as ih =>
    intro s tr h s' tr' h' H e
    simp only [rwRun] at e
    split at e
    · next hm => exact ih (H.step a hm) e
    · simp at e

variable {as : List RWAct} {s : St} {tr : List Ev} {h : Holders}
variable (hr : rwRun rwInit [] ⟨0, 0, []⟩ as = some (s, tr, h))

include hr

/-- **C26.** The lock is held by one writer and nobody else, or by readers only. -/
theorem C26_exclusion : h.writers = 0 ∨ (h.writers = 1 ∧ h.readers = 0) := by
  have ht := (RW.init.run as hr).total
  have hp := max_pos
  clear hr
  obtain ⟨r, w, l⟩ := h
  simp only [Holders.units] at ht ⊢
  generalize maxOps = m at *
  match w with
  | 0 => exact Or.inl rfl
  | 1 => exact Or.inr ⟨rfl, by omega⟩
  | w + 2 =>
    exfalso
    have h1 : (w + 2) * m = w * m + m + m := by rw [Nat.succ_mul, Nat.succ_mul]
    omega

/-- **C26.** Waiters are served in order of arrival. -/
theorem C26_fifo : served tr <+: arrivals tr :=
  ⟨_, by rw [← (RW.init.run as hr).order]; simp only [List.append_assoc]; rfl⟩

/-- **C26.** A lock is granted at once, outside callbacks, only if nobody who came before is still waiting: a waiting
writer is not overtaken. -/
theorem C26_no_overtaking (a : RWAct) (n : Nat) (hs : s.stack = [])
    (hg : .granted n ∈ (step s a.act).2 ∨ .tried n true ∈ (step s a.act).2) : served tr = arrivals tr := by
  have H := RW.init.run as hr
  have hw : s.waiting = [] := by
    unfold step at hg
    rw [if_neg (by simp [H.ok.2.1])] at hg
    cases a <;> simp only [RWAct.act, wait, tryWait, signal, ret, mayProceed, hs, H.ok.1] at hg
    case readLock => split at hg <;> simp_all
    case writeLock => split at hg <;> simp_all
    case tryRead => split at hg <;> simp_all
    case tryWrite => split at hg <;> simp_all
    case readUnlock =>
      simp only [Bool.false_eq_true, if_false] at hg
      split at hg
      · simp at hg
      · unfold serve at hg; split at hg <;> simp at hg
    case writeUnlock =>
      simp only [Bool.false_eq_true, if_false] at hg
      split at hg
      · simp at hg
      · unfold serve at hg; split at hg <;> simp at hg
    case ret => simp at hg
  have := H.order
  rw [hs, hw] at this
  simpa [readyOf] using this

/-- **C26.** No lost wake-up: between calls, if nobody holds the lock then nobody waits for it. -/
theorem C26_no_lost_wakeup (hs : s.stack = []) (hR : h.readers = 0) (hW : h.writers = 0) : waiters s = 0 := by
  have H := RW.init.run as hr
  by_cases hw : s.waiting = []
  · simp [waiters, hw]
  · rcases H.wake hw with hr | hr
    · rw [hs] at hr; simp [readyOf] at hr
    · simp [Holders.units, hR, hW] at hr

/-- **C26.** A free lock is granted at once, outside callbacks, to a reader or a writer; a lock held only by readers
and with nobody waiting is granted to a further reader (below 2⁶⁴ - 1 readers). -/
theorem C26_grants (hs : s.stack = []) :
    (h.readers = 0 → h.writers = 0 → (step s RWAct.writeLock.act).2 = [.granted maxOps] ∧
      (step s RWAct.tryWrite.act).2 = [.tried maxOps true]) ∧
    (h.writers = 0 → waiters s = 0 → h.readers < maxOps → (step s RWAct.readLock.act).2 = [.granted 1] ∧
      (step s RWAct.tryRead.act).2 = [.tried 1 true]) := by
  have H := RW.init.run as hr
  have ht := H.total
  rw [hs] at ht
  simp only [readyOf, units_nil, Holders.units] at ht
  refine ⟨fun hR hW => ?_, fun hW hw hR => ?_⟩
  · have hw : s.waiting = [] := List.length_eq_zero_iff.1 (C26_no_lost_wakeup hr hs hR hW)
    have : mayProceed s maxOps = true := by
      rw [hR, hW] at ht; simp at ht
      simp [mayProceed, hw, ht]
    simp [step, H.ok.2.1, RWAct.act, wait, tryWait, this]
  · have hw : s.waiting = [] := List.length_eq_zero_iff.1 hw
    have : mayProceed s 1 = true := by
      rw [hW] at ht; simp at ht
      simp [mayProceed, hw]; omega
    simp [step, H.ok.2.1, RWAct.act, wait, tryWait, this]

/-- **C26.** Unlocking always succeeds. -/
theorem C26_unlock_succeeds (a : RWAct) (n : Nat) (ha : a.act = .signal n) :
    .signalled n true ∈ (step s a.act).2 := by
  have H := RW.init.run as hr
  unfold step
  rw [if_neg (by simp [H.ok.2.1]), ha]
  simp only [signal, H.ok.1]
  split
  · simp_all
  · split <;> simp

omit hr

/-- Non-vacuity: a writer waits for a reader, a later reader waits behind the writer; unlocking inside callbacks. -/
example :
    (rwRun rwInit [] ⟨0, 0, []⟩ [.readLock, .writeLock, .readLock, .tryRead, .readUnlock, .writeUnlock]).map
      (fun r => (r.2.1, r.2.2)) = some
      ([.granted 1, .queued ⟨0, maxOps⟩, .queued ⟨1, 1⟩, .tried 1 false, .signalled 1 true, .resolved ⟨0, maxOps⟩,
        .signalled maxOps true, .resolved ⟨1, 1⟩], ⟨1, 0, [true, false]⟩) := by
  decide +kernel

end Verif.Future.Sem
