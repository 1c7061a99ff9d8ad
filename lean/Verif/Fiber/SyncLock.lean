import Verif.Fiber.SyncMove
/-!
# How the ownership of the mutex changes in a step
-/

namespace Verif.Fiber.Sync

theorem Pc.ow_qd {p : Pc} (h : p.ow = true) : p.qd = false := by cases p <;> simp_all [Pc.ow, Pc.qd]
theorem Pc.ow_duty {p : Pc} (h : p.ow = true) : p.duty = false := by cases p <;> simp_all [Pc.ow, Pc.duty]
theorem Pc.pre_qd {p : Pc} (h : p.pre = true) : p.qd = true := by cases p <;> simp_all [Pc.pre, Pc.qd]
theorem Pc.pre_hs {p : Pc} (h : p.pre = true) : p.hs = true := by cases p <;> simp_all [Pc.pre, Pc.hs]
theorem Pc.duty_qd {p : Pc} (h : p.duty = true) : p.qd = false := by cases p <;> simp_all [Pc.duty, Pc.qd]

structure PL (s : St) (l : Lk) : Prop where
  owner : ∀ t, l.owner = some t ↔ (s.pc t).ow = true
  qd : ∀ t, t ∈ l.queue ↔ (s.pc t).qd = true
  nodup : l.queue.Nodup
  count : s.count = l.queue.length + if l.owner = none then 0 else 1
  tok : ∃ G P d, Tok s l G P d

/-- Ownership means the same for `u`. -/
structure LSame (s s' : St) (u : Nat) : Prop where
  ow : (s'.pc u).ow = (s.pc u).ow
  qd : (s'.pc u).qd = (s.pc u).qd
  pre : (s'.pc u).pre = (s.pc u).pre
  duty : (s'.pc u).duty = (s.pc u).duty

theorem PL.same {s s' : St} {l : Lk} (h : PL s l) (hc : ∀ u, LSame s s' u) (h1 : s'.count = s.count) (h2 : s'.mq = s.mq) :
    PL s' l := by
  obtain ⟨ho, hq, hn, hk, G, P, d, ht⟩ := h
  refine ⟨fun u => by rw [(hc u).ow]; exact ho u, fun u => by rw [(hc u).qd]; exact hq u, hn, by rw [h1]; exact hk, G, P, d, ?_⟩
  exact ⟨by rw [h2]; exact ht.queue, fun u => by rw [(hc u).pre]; exact ht.pre u, ht.short,
    fun u => by rw [(hc u).duty]; exact ht.duty u, ht.owned, ht.due, ht.token⟩

/-- There are fewer than 2^32. -/
theorem PL.lt {s : St} {l : Lk} (h : PL s l) (hs : ∀ t, s.pc t ≠ .out → t < 2 ^ 32 - 1) : s.count < 2 ^ 32 := by
  rw [h.count]
  have hq : ∀ x ∈ l.queue, x < 2 ^ 32 - 1 := by
    intro x hx
    refine hs x (fun hp => ?_)
    have := (h.qd x).1 hx
    simp [hp, Pc.qd] at this
  cases ho : l.owner with
  | none => have hl := nodup_bound h.nodup hq; rw [if_pos rfl]; omega
  | some x =>
    have hx := (h.owner x).1 ho
    have hn : (x :: l.queue).Nodup :=
      List.nodup_cons.2 ⟨fun hm => by rw [h.qd x, Pc.ow_qd hx] at hm; simp at hm, h.nodup⟩
    have hb : ∀ y ∈ x :: l.queue, y < 2 ^ 32 - 1 := by
      intro y hy
      rcases List.mem_cons.1 hy with hy | hy
      · exact hs y (fun hp => by rw [hy] at hp; simp [hp, Pc.ow] at hx)
      · exact hq y hy
    have hl := nodup_bound hn hb
    rw [if_neg (by simp)]
    simp only [List.length_cons] at hl
    omega

theorem PL.free {s : St} {l : Lk} (h : PL s l) (h0 : s.count = 0) : l = ⟨none, []⟩ := by
  have := h.count
  rw [h0] at this
  cases hl : l with
  | mk o q =>
    rw [hl] at this
    simp only at this
    cases o with
    | none => simp at this; have : q = [] := List.length_eq_zero_iff.1 this.symm; rw [this]
    | some x => simp at this

theorem PL.taken {s : St} {l : Lk} (h : PL s l) (h0 : s.count ≠ 0) : ¬(l.owner = none ∧ l.queue = []) := by
  rintro ⟨h1, h2⟩
  have := h.count
  rw [h1, h2] at this
  simp at this
  exact h0 this

/-- Taking the free mutex. -/
theorem PL.acq {s s' : St} {l : Lk} {t : Nat} (h : PL s l) (h0 : s.count = 0) (hc : ∀ u, u ≠ t → LSame s s' u)
    (h1 : s'.count = 1) (h2 : s'.mq = s.mq) (ho : (s'.pc t).ow = true) :
    PL s' ⟨some t, []⟩ ∧ l.next (.acq t) = some ⟨some t, []⟩ := by
  have hl := h.free h0
  subst hl
  obtain ⟨hO, hq, hn, hk, G, P, d, ht⟩ := h
  have hG := ht.queue
  simp at hG
  have hd : d = none := by
    cases hd : d with
    | none => rfl
    | some x => have := (ht.due (by simp [hd])).2; simp at this
  subst hd
  have hnq := Pc.ow_qd ho
  have hnd := Pc.ow_duty ho
  have hnp : (s'.pc t).pre = false := by
    cases hp : (s'.pc t).pre with
    | false => rfl
    | true => have := Pc.pre_qd hp; rw [hnq] at this; simp at this
  refine ⟨⟨?_, ?_, by simp, by simp [h1], [], [], none, ?_⟩, by simp [Lk.next]⟩
  · intro u
    by_cases hu : u = t
    · subst hu; simp [ho]
    · rw [(hc u hu).ow, ← hO u]; simp; exact fun h => hu h.symm
  · intro u
    by_cases hu : u = t
    · subst hu; simp [hnq]
    · rw [(hc u hu).qd, ← hq u]
  · refine ⟨by simp [h2, hG.2.1], ?_, by simp, ?_, by simp, by simp, by simp⟩
    · intro u
      by_cases hu : u = t
      · subst hu; simp [hnp]
      · rw [(hc u hu).pre, ht.pre u, hG.2.2]
    · intro u
      by_cases hu : u = t
      · subst hu; simp [hnd]
      · rw [(hc u hu).duty, ht.duty u]

/-- Joining the queue. -/
theorem PL.enq {s s' : St} {l : Lk} {t : Nat} (h : PL s l) (hs : PSlow s) (h0 : s.count ≠ 0) (hc : ∀ u, u ≠ t → LSame s s' u)
    (h1 : s'.count = s.count + 1) (h2 : s'.mq = s.mq) (hh : (s.pc t).hs = true) (ho : (s.pc t).ow = false)
    (hq : (s.pc t).qd = false) (hd : (s.pc t).duty = false) (hp' : (s'.pc t).pre = true) (ho' : (s'.pc t).ow = false)
    (hd' : (s'.pc t).duty = false) :
    PL s' { l with queue := l.queue ++ [t] } ∧ l.next (.enq t) = some { l with queue := l.queue ++ [t] } := by
  have hfree := h.taken h0
  obtain ⟨hO, hQ, hn, hk, G, P, d, ht⟩ := h
  have hqt : t ∉ l.queue := by rw [hQ t, hq]; simp
  have hot : l.owner ≠ some t := by rw [Ne, hO t, ho]; simp
  have hP : P = [] := by
    cases P with
    | nil => rfl
    | cons x P =>
      have hx := (ht.pre x).2 (List.mem_cons_self ..)
      have h3 := (hs x).2 (Pc.pre_hs hx)
      have h4 := (hs t).2 hh
      rw [h3] at h4
      have h5 := Option.some.inj h4
      subst h5
      have := Pc.pre_qd hx
      rw [hq] at this; simp at this
  subst hP
  refine ⟨⟨?_, ?_, ?_, ?_, G, [t], d, ?_⟩, by simp only [Lk.next]; rw [if_pos ⟨hot, hqt, hfree⟩]⟩
  · intro u
    by_cases hu : u = t
    · subst hu; simp [ho', hot]
    · rw [(hc u hu).ow, ← hO u]
  · intro u
    by_cases hu : u = t
    · subst hu; simp [Pc.pre_qd hp']
    · rw [(hc u hu).qd, ← hQ u]; simp [hu]
  · exact List.nodup_append.2 ⟨hn, by simp, fun a ha b hb => by simp at hb; subst hb; exact fun h => hqt (h ▸ ha)⟩
  · rw [h1, hk]; simp; omega
  · refine ⟨by simp [h2, ht.queue], ?_, ht.short, ?_, ht.owned, fun h => ⟨(ht.due h).1, by simp⟩, ?_⟩
    · intro u
      by_cases hu : u = t
      · subst hu; simp [hp']
      · rw [(hc u hu).pre, ht.pre u]; simp [hu]
    · intro u
      by_cases hu : u = t
      · subst hu
        have := ht.duty u
        rw [hd] at this
        simp [hd', this.symm]
      · rw [(hc u hu).duty, ht.duty u]
    · intro h3 _
      exact ht.token h3 (fun h4 => hfree ⟨h3, h4⟩)

/-- Joining the list. -/
theorem PL.list {s s' : St} {l : Lk} {t : Nat} (h : PL s l) (hs : PSlow s) (hc : ∀ u, u ≠ t → LSame s s' u)
    (h1 : s'.count = s.count) (h2 : s'.mq = s.mq ++ [t]) (hp : (s.pc t).pre = true) (hp' : (s'.pc t).pre = false)
    (hq' : (s'.pc t).qd = true) (ho : (s'.pc t).ow = (s.pc t).ow) (hd : (s'.pc t).duty = (s.pc t).duty) : PL s' l := by
  obtain ⟨hO, hQ, hn, hk, G, P, d, ht⟩ := h
  have hall : ∀ x ∈ P, x = t := by
    intro x hx
    have hx := (ht.pre x).2 hx
    have h3 := (hs x).2 (Pc.pre_hs hx)
    have h4 := (hs t).2 (Pc.pre_hs hp)
    rw [h3] at h4
    exact Option.some.inj h4
  have hP : P = [t] := by
    have hnd : P.Nodup := by
      have := ht.queue ▸ hn
      exact (List.nodup_append.1 this).2.1
    match P, hall, hnd, (ht.pre t).1 hp with
    | [x], hall, _, _ => rw [hall x (by simp)]
    | x :: y :: P, hall, hnd, _ =>
      have h3 := hall x (by simp)
      have h4 := hall y (by simp)
      subst h3; subst h4
      simp at hnd
  subst hP
  refine ⟨?_, ?_, hn, by rw [h1]; exact hk, G, [], d, ?_⟩
  · intro u
    by_cases hu : u = t
    · subst hu; rw [ho]; exact hO u
    · rw [(hc u hu).ow, ← hO u]
  · intro u
    by_cases hu : u = t
    · subst hu; rw [hQ u, hq', Pc.pre_qd hp]
    · rw [(hc u hu).qd, ← hQ u]
  · refine ⟨by simp [h2, ht.queue], ?_, ht.short, ?_, ht.owned, ht.due, ht.token⟩
    · intro u
      by_cases hu : u = t
      · subst hu; simp [hp']
      · rw [(hc u hu).pre, ht.pre u]; simp [hu]
    · intro u
      by_cases hu : u = t
      · subst hu; rw [hd]; exact ht.duty u
      · rw [(hc u hu).duty, ht.duty u]

/-- The next owner starts to run. -/
theorem PL.granted {s s' : St} {l : Lk} {t : Nat} (h : PL s l) (hc : ∀ u, u ≠ t → LSame s s' u)
    (h1 : s'.count = s.count) (h2 : s'.mq = s.mq) (hq : (s.pc t).qd = true) (hp : (s.pc t).pre = false) (hm : t ∉ s.mq)
    (ho' : (s'.pc t).ow = true) :
    PL s' ⟨some t, l.queue.tail⟩ ∧ l.next (.acq t) = some ⟨some t, l.queue.tail⟩ := by
  obtain ⟨hO, hQ, hn, hk, G, P, d, ht⟩ := h
  have htG : t ∈ G := by
    have := (hQ t).2 hq
    rw [ht.queue] at this
    simp only [List.mem_append, hm, or_false] at this
    rcases this with h | h
    · exact h
    · rw [← ht.pre t, hp] at h; simp at h
  have hG : G = [t] := by
    match G, htG, ht.short with
    | [x], h, _ => simp at h; rw [h]
  subst hG
  have hown : l.owner = none := by
    cases hl : l.owner with
    | none => rfl
    | some x => have := (ht.owned (by simp [hl])).1; simp at this
  have hd : d = none := by
    cases hd : d with
    | none => rfl
    | some x => have := (ht.due (by simp [hd])).1; simp at this
  subst hd
  have hqe := ht.queue
  simp only [List.cons_append, List.nil_append] at hqe
  have htail : l.queue.tail = s.mq ++ P := by rw [hqe]; rfl
  have hnot : t ∉ s.mq ++ P := by rw [hqe] at hn; exact (List.nodup_cons.1 hn).1
  refine ⟨⟨?_, ?_, ?_, ?_, [], P, none, ?_⟩, ?_⟩
  · intro u
    by_cases hu : u = t
    · subst hu; simp [ho']
    · rw [(hc u hu).ow, ← hO u, hown]; simp; exact fun h => hu h.symm
  · intro u
    simp only [htail]
    by_cases hu : u = t
    · subst hu; rw [Pc.ow_qd ho']; simpa using hnot
    · rw [(hc u hu).qd, ← hQ u, hqe]; simp [hu]
  · rw [htail]; rw [hqe] at hn; exact (List.nodup_cons.1 hn).2
  · rw [h1, hk, hown, htail, hqe]; simp
  · refine ⟨by simp [h2, htail], ?_, by simp, ?_, by simp, by simp, by simp⟩
    · intro u
      by_cases hu : u = t
      · subst hu
        constructor
        · intro h; have := Pc.pre_qd h; rw [Pc.ow_qd ho'] at this; simp at this
        · intro h; exact absurd (List.mem_append.2 (.inr h)) hnot
      · rw [(hc u hu).pre, ht.pre u]
    · intro u
      by_cases hu : u = t
      · subst hu; simp [Pc.ow_duty ho']
      · rw [(hc u hu).duty, ht.duty u]
  · simp [Lk.next, hown, hqe]

/-- Giving the mutex up; nobody waits. -/
theorem PL.relFree {s s' : St} {l : Lk} {t : Nat} (h : PL s l) (hc : ∀ u, u ≠ t → LSame s s' u)
    (h0 : s.count = 1) (h1 : s'.count = 0) (h2 : s'.mq = s.mq) (ho : (s.pc t).ow = true) (ho' : (s'.pc t).ow = false)
    (hq' : (s'.pc t).qd = false) (hd' : (s'.pc t).duty = false) :
    PL s' { l with owner := none } ∧ l.next (.rel t) = some { l with owner := none } := by
  obtain ⟨hO, hQ, hn, hk, G, P, d, ht⟩ := h
  have hown := (hO t).2 ho
  have hqe : l.queue = [] := by
    rw [h0, hown] at hk; simp at hk; exact hk
  have hd : d = none := (ht.owned (by simp [hown])).2
  subst hd
  have hG := ht.queue
  rw [hqe] at hG
  simp at hG
  have hnp : (s'.pc t).pre = false := by
    cases hp : (s'.pc t).pre with
    | false => rfl
    | true => have := Pc.pre_qd hp; rw [hq'] at this; simp at this
  refine ⟨⟨?_, ?_, hn, by rw [h1]; simp [hqe], [], [], none, ?_⟩, by simp [Lk.next, hown]⟩
  · intro u
    by_cases hu : u = t
    · subst hu; simp [ho']
    · rw [(hc u hu).ow, ← hO u, hown]; simp; exact fun h => hu h.symm
  · intro u
    by_cases hu : u = t
    · subst hu; simp [hq', hqe]
    · rw [(hc u hu).qd, ← hQ u]
  · refine ⟨by simp [h2, hG.2.1, hqe], ?_, by simp, ?_, by simp, by simp, by simp [hqe]⟩
    · intro u
      by_cases hu : u = t
      · subst hu; simp [hnp]
      · rw [(hc u hu).pre, ht.pre u, hG.2.2]
    · intro u
      by_cases hu : u = t
      · subst hu; simp [hd']
      · rw [(hc u hu).duty, ht.duty u]

/-- Giving the mutex up; somebody waits. -/
theorem PL.relDuty {s s' : St} {l : Lk} {t : Nat} (h : PL s l) (hc : ∀ u, u ≠ t → LSame s s' u)
    (h0 : s.count ≠ 1) (h1 : s'.count + 1 = s.count) (h2 : s'.mq = s.mq) (ho : (s.pc t).ow = true) (hd' : (s'.pc t).duty = true) :
    PL s' { l with owner := none } ∧ l.next (.rel t) = some { l with owner := none } := by
  obtain ⟨hO, hQ, hn, hk, G, P, d, ht⟩ := h
  have hown := (hO t).2 ho
  have hqe : l.queue ≠ [] := by
    intro h; rw [h, hown] at hk; simp at hk; exact h0 hk
  obtain ⟨hG, hd⟩ := ht.owned (by simp [hown])
  subst hd; subst hG
  have hq' := Pc.duty_qd hd'
  have hnp : (s'.pc t).pre = false := by
    cases hp : (s'.pc t).pre with
    | false => rfl
    | true => have := Pc.pre_qd hp; rw [hq'] at this; simp at this
  have hno : (s'.pc t).ow = false := by
    cases hp : (s'.pc t).ow with
    | false => rfl
    | true => have := Pc.ow_duty hp; rw [hd'] at this; simp at this
  refine ⟨⟨?_, ?_, hn, ?_, [], P, some t, ?_⟩, by simp [Lk.next, hown]⟩
  · intro u
    by_cases hu : u = t
    · subst hu; simp [hno]
    · rw [(hc u hu).ow, ← hO u, hown]; simp; exact fun h => hu h.symm
  · intro u
    by_cases hu : u = t
    · subst hu; rw [hq', hQ u, Pc.ow_qd ho]
    · rw [(hc u hu).qd, ← hQ u]
  · rw [hown] at hk; simp at hk ⊢; omega
  · refine ⟨by simp [h2, ht.queue], ?_, by simp, ?_, by simp, by simp [hqe], by simp⟩
    · intro u
      by_cases hu : u = t
      · subst hu
        rw [hnp, ← ht.pre u]
        cases hp : (s.pc u).pre with
        | false => rfl
        | true => have := Pc.pre_qd hp; rw [Pc.ow_qd ho] at this; simp at this
      · rw [(hc u hu).pre, ht.pre u]
    · intro u
      by_cases hu : u = t
      · subst hu; simp [hd']
      · rw [(hc u hu).duty, ht.duty u]; simp; exact fun h => hu h.symm

/-- Choosing the next owner. -/
theorem PL.pop {s s' : St} {l : Lk} {t w : Nat} {q : List Nat} (h : PL s l) (hc : ∀ u, u ≠ t → LSame s s' u)
    (h1 : s'.count = s.count) (h2 : s.mq = w :: q) (h3 : s'.mq = q) (hd : (s.pc t).duty = true) (hd' : (s'.pc t).duty = false)
    (hq' : (s'.pc t).qd = false) (ho' : (s'.pc t).ow = false) : PL s' l := by
  obtain ⟨hO, hQ, hn, hk, G, P, d, ht⟩ := h
  have hdt := (ht.duty t).1 hd
  subst hdt
  obtain ⟨hG, hqe⟩ := ht.due (by simp)
  subst hG
  have hown : l.owner = none := by
    cases hl : l.owner with
    | none => rfl
    | some x => have := (ht.owned (by simp [hl])).2; simp at this
  have hnp : (s'.pc t).pre = false := by
    cases hp : (s'.pc t).pre with
    | false => rfl
    | true => have := Pc.pre_qd hp; rw [hq'] at this; simp at this
  refine ⟨?_, ?_, hn, by rw [h1]; exact hk, [w], P, none, ?_⟩
  · intro u
    by_cases hu : u = t
    · subst hu; simp [ho', hown]
    · rw [(hc u hu).ow, ← hO u]
  · intro u
    by_cases hu : u = t
    · subst hu; rw [hq', hQ u, Pc.duty_qd hd]
    · rw [(hc u hu).qd, ← hQ u]
  · refine ⟨by simp [h3, ht.queue, h2], ?_, by simp, ?_, by simp [hown], by simp, by simp⟩
    · intro u
      by_cases hu : u = t
      · subst hu
        rw [hnp, ← ht.pre u]
        cases hp : (s.pc u).pre with
        | false => rfl
        | true => have := Pc.pre_qd hp; rw [Pc.duty_qd hd] at this; simp at this
      · rw [(hc u hu).pre, ht.pre u]
    · intro u
      by_cases hu : u = t
      · subst hu; simp [hd']
      · rw [(hc u hu).duty, ht.duty u]; simp; exact fun h => hu h.symm

/-- Who has to wake the next owner finds one when no one is about to join the list. -/
theorem PL.found {s : St} {l : Lk} {t : Nat} (h : PL s l) (hs : PSlow s) (hd : (s.pc t).duty = true) (hh : (s.pc t).hs = true) :
    s.mq ≠ [] := by
  obtain ⟨hO, hQ, hn, hk, G, P, d, ht⟩ := h
  have hdt := (ht.duty t).1 hd
  obtain ⟨hG, hqe⟩ := ht.due (by simp [hdt])
  subst hG
  intro hm
  have hP : P = [] := by
    cases P with
    | nil => rfl
    | cons x P =>
      have hx := (ht.pre x).2 (List.mem_cons_self ..)
      have h3 := (hs x).2 (Pc.pre_hs hx)
      have h4 := (hs t).2 hh
      rw [h3] at h4
      have h5 := Option.some.inj h4
      subst h5
      have := Pc.pre_qd hx
      rw [Pc.duty_qd hd] at this; simp at this
  rw [ht.queue, hm, hP] at hqe
  simp at hqe

end Verif.Fiber.Sync
