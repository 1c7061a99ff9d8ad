import Verif.Fiber.SyncRun
/-!
# When nothing happens any more
-/

namespace Verif.Fiber.Sync

theorem Quiet.pc {s : St} (q : Quiet s) (t : Nat) : (threadStep s t 0).1.pc t = s.pc t := by rw [q.1 t]
theorem Quiet.tm {s : St} (q : Quiet s) (g : Nat) : (timerStep s g).1.tm g = s.tm g := by rw [q.2.2 g]

theorem ne_self {p q : Pc} (h : p ≠ q) (s : St) (t : Nat) (hp : s.pc t = q) (he : (s.to t p).pc t = s.pc t) : False := by
  rw [hp] at he; exact h (by simpa [St.to] using he)

/-- Positions where a step is always possible. -/
def Pc.goes : Pc → Bool
  | .add _ => true
  | .free _ => true
  | .enq _ => true
  | .st _ => true
  | .rel _ _ => true
  | .susp _ => true
  | .swap _ => true
  | .check _ => true
  | .try_ _ _ => true
  | .fwait _ _ => true
  | .fcheck _ _ => true
  | .ul _ => true
  | .sub _ _ => true
  | .wake _ _ => true
  | .urel _ _ _ => true
  | .res .rlock _ _ => false
  | .res .dlock _ _ => false
  | .res _ _ _ => true
  | .nwake _ => true
  | .cadd _ => true
  | .ctimer => true
  | .cpost _ _ => true
  | .crem _ _ => true
  | .crm _ _ => true
  | .padd _ => true
  | .pst _ => true
  | .prem _ => true
  | _ => false

theorem returned_pc (s : St) (t : Nat) (k : K) : (returned s t k).1.pc t = .own := by cases k <;> simp [returned, St.to]
theorem lockedSlow_pc (s : St) (t : Nat) (k : K) : (lockedSlow s t k).1.pc t = .own := by simp only [lockedSlow, locked]; exact returned_pc _ t k

theorem futexed_pc {s : St} {v : Cv} {t st : Nat} {b : Bool} {w : W} (h : OkAt s v t (.fwait w st) ∨ OkAt s v t (.fcheck w st)) :
    (futexed s t b w).1.pc t = .own ∨ (futexed s t b w).1.pc t = .prem b := by
  cases w with
  | mx k => left; exact lockedSlow_pc s t k
  | cv a g => right; simp [futexed, St.to]
  | dir r => rcases h with h | h <;> exact h.elim

theorem resumed_ne {s : St} {t w : Nat} {r : R} {g : Stage} : resumed s t r ≠ .res g r w := by
  cases r with
  | unlock u p => cases u <;> simp only [resumed, unlocked] <;> (try split) <;> simp
  | one b => cases b <;> simp [resumed]
  | all b => simp [resumed]

/-- At these positions the thread leaves its position. -/
theorem Inv.moves {s : St} {l : Lk} {v : Cv} {t : Nat} (h : Inv s l v) (q : Quiet s) : (s.pc t).goes = false := by
  have hk := h.ok t
  rw [Ok] at hk
  have hm := q.pc t
  cases hp : s.pc t with
  | add k =>
    simp only [Sync.threadStep, hp] at hm
    rw [show ∀ p c, ({ s.to t p with count := c } : St).pc t = p from fun p c => upd_same _ _ _] at hm
    split at hm
    · simp at hm
    · split at hm <;> simp at hm
  | free k => simp only [Sync.threadStep, hp] at hm; rw [returned_pc] at hm; simp at hm
  | enq k =>
    simp only [Sync.threadStep, hp] at hm
    rw [show ∀ p c d, ({ s.to t p with mq := c, mfut := d } : St).pc t = p from fun p c d => upd_same _ _ _] at hm
    split at hm <;> simp at hm
  | st k => simp only [Sync.threadStep, hp] at hm; simp [St.to] at hm
  | rel k st =>
    simp only [Sync.threadStep, hp] at hm
    rw [show ∀ p c, ({ s.to t p with slow := c } : St).pc t = p from fun p c => upd_same _ _ _] at hm
    split at hm <;> simp at hm
  | susp w =>
    have := (h.suspStep hp).1
    simp [Sync.threadStep, hp, this, St.to] at hm
  | swap w => simp [Sync.threadStep, hp, St.to] at hm
  | check k =>
    have := (h.checkStep hp).1
    simp only [Sync.threadStep, hp, this, if_false] at hm
    rw [lockedSlow_pc] at hm; simp at hm
  | try_ a k =>
    simp only [Sync.threadStep, hp] at hm
    split at hm
    · simp only [locked] at hm; rw [returned_pc] at hm; simp at hm
    · split at hm <;> simp [St.to] at hm
  | fwait w st =>
    rw [hp] at hk
    have ht := h.timed_no (.inl hp)
    simp only [Sync.threadStep, hp, ht, Bool.false_eq_true, and_false, if_false] at hm
    split at hm
    · simp [St.to] at hm
    · rcases futexed_pc (b := true) (.inl hk) with h1 | h1 <;> (rw [h1] at hm; simp at hm)
  | fcheck w st =>
    rw [hp] at hk
    simp only [Sync.threadStep, hp] at hm
    split at hm
    · simp [St.to] at hm
    · rcases futexed_pc (b := true) (.inr hk) with h1 | h1 <;> (rw [h1] at hm; simp at hm)
  | ul u => simp [Sync.threadStep, hp, St.to] at hm
  | sub u p =>
    simp only [Sync.threadStep, hp] at hm
    rw [show ∀ p c, ({ s.to t p with count := c } : St).pc t = p from fun p c => upd_same _ _ _] at hm
    split at hm
    · cases u with
      | user => simp [unlocked] at hm
      | wait a g st => simp only [unlocked] at hm; split at hm <;> simp at hm
    · simp at hm
  | wake u p =>
    obtain ⟨w, x, h1, -⟩ := h.wakeStep hp
    simp [Sync.threadStep, hp, h1, St.to] at hm
  | urel u p w => simp [Sync.threadStep, hp, St.to] at hm
  | nwake r =>
    simp only [Sync.threadStep, hp] at hm
    split at hm
    · rw [show ∀ p c, ({ s.to t p with cq := c } : St).pc t = p from fun p c => upd_same _ _ _] at hm
      cases r <;> simp only at hm <;> (try split at hm) <;> simp at hm
    · simp [St.to] at hm
  | cadd a =>
    simp only [Sync.threadStep, hp] at hm
    rw [show ∀ p c d e, ({ s.to t p with cq := c, sat := d, cfut := e } : St).pc t = p from fun p c d e => upd_same _ _ _] at hm
    split at hm <;> simp at hm
  | ctimer => simp [Sync.threadStep, hp, St.to] at hm
  | cpost a g => simp [Sync.threadStep, hp, St.to] at hm
  | crem a g =>
    simp only [Sync.threadStep, hp] at hm
    rw [show ∀ p c, ({ s.to t p with cq := c } : St).pc t = p from fun p c => upd_same _ _ _] at hm
    split at hm <;> simp at hm
  | crm g b => simp [Sync.threadStep, hp, St.to] at hm
  | padd a => simp [Sync.threadStep, hp, St.to] at hm
  | pst a => simp [Sync.threadStep, hp, St.to] at hm
  | prem b => simp [Sync.threadStep, hp, St.to] at hm
  | res g r w =>
    rw [hp] at hk
    cases g with
    | rlock => rfl
    | dlock => rfl
    | look =>
      simp only [Sync.threadStep, hp] at hm
      split at hm
      · cases r with
        | unlock u p =>
          simp only at hm
          rw [show ∀ p, (s.to t p).pc t = p from fun p => upd_same _ _ _] at hm
          split at hm <;> simp at hm
        | one b => simp [St.to] at hm
        | all b => simp [St.to] at hm
      · simp [St.to] at hm
    | rset => simp [Sync.threadStep, hp, St.to] at hm
    | dset => simp [Sync.threadStep, hp, St.to] at hm
    | rpush =>
      simp only [Sync.threadStep, hp] at hm
      rw [show ∀ (s : St) p, (s.to t p).pc t = p from fun s p => upd_same _ _ _] at hm
      exact absurd hm resumed_ne
    | dswap =>
      have hh := h.held hp (by simp)
      have hl : (s.pc w).park = true := by have := h.lnk t; rw [Lnk, hp] at this; exact this.1
      cases hx : s.pc w with
      | parked x => simp [Sync.threadStep, hp, hx, St.to, upd, hh.1.symm] at hm
      | _ => rw [hx] at hl; simp [Pc.park] at hl
    | fadd => cases r <;> simp [Sync.threadStep, hp, St.to] at hm
    | fsys =>
      simp only [Sync.threadStep, hp] at hm
      rw [show ∀ (s : St) p, (s.to t p).pc t = p from fun s p => upd_same _ _ _] at hm
      exact absurd hm resumed_ne
  | _ => rfl

theorem Inv.tmoves {s : St} {l : Lk} {v : Cv} {g : Nat} (h : Inv s l v) (q : Quiet s) :
    s.tm g = .unused ∨ s.tm g = .armed ∨ s.tm g = .over ∨ s.tm g = .rlock := by
  have hm := q.tm g
  have hl := (h.tim g).lock
  cases hp : s.tm g with
  | lock => rw [hp] at hl; simp at hl; simp [Sync.timerStep, hp, hl] at hm
  | look => simp only [Sync.timerStep, hp, upd_same] at hm; split at hm <;> simp at hm
  | exch => simp only [Sync.timerStep, hp] at hm; split at hm <;> simp at hm
  | rset => simp [Sync.timerStep, hp] at hm
  | rpush => simp [Sync.timerStep, hp] at hm
  | unlock => simp [Sync.timerStep, hp] at hm
  | _ => simp

/-- Only its fiber holds a `scheduler_lock`. -/
theorem Inv.qslk {s : St} {l : Lk} {v : Cv} (h : Inv s l v) (q : Quiet s) (w : Nat) :
    s.slk w = none ∨ (s.pc w).self (s.fib w) = true := by
  cases hs : s.slk w with
  | none => exact .inl rfl
  | some r =>
    right
    have hh := (h.slk w r).1 hs
    cases r with
    | thr t =>
      rcases hh with ⟨h1, h2⟩ | h1
      · rw [← h1]; exact h2
      · have := h.moves (t := t) q
        cases hp : s.pc t with
        | res g r x => rw [hp] at h1 this; cases g <;> simp [Pc.rs, Pc.goes] at h1 this
        | _ => rw [hp] at h1; simp [Pc.rs] at h1
    | tim g => have := h.tmoves (g := g) q; rw [hh.1] at this; simp at this

theorem Inv.qslow {s : St} {l : Lk} {v : Cv} (h : Inv s l v) (q : Quiet s) : s.slow = none := by
  cases hs : s.slow with
  | none => rfl
  | some t =>
    exfalso
    have hh := (h.slow t).1 hs
    have hg := h.moves (t := t) q
    cases hp : s.pc t with
    | slk k =>
      rcases h.qslk q t with h1 | h1
      · have := q.pc t; simp [Sync.threadStep, hp, h1, St.to] at this
      · rw [hp] at h1; simp [Pc.self] at h1
    | _ => rw [hp] at hh hg; simp [Pc.hs, Pc.goes] at hh hg

/-- Nobody is about to wake somebody who waits for the mutex. -/
theorem Inv.qmref {s : St} {l : Lk} {v : Cv} (h : Inv s l v) (q : Quiet s) (w : Nat) : s.mref w = none := by
  cases hs : s.mref w with
  | none => rfl
  | some r =>
    exfalso
    obtain ⟨t, hr, hmc⟩ := (h.mref w r).1 hs
    have hg := h.moves (t := t) q
    have hgw := h.moves (t := w) q
    have hself : (s.pc w).self (s.fib w) = false := by
      have hk := h.ok w
      rw [Ok] at hk
      cases hx : (s.pc w).self (s.fib w) with
      | false => rfl
      | true =>
        exfalso
        have hn : NoM s w → False := fun h1 => by rw [h1.2] at hs; simp at hs
        cases hp : s.pc w with
        | usl u p => rw [hp] at hk; exact hn hk.2.1
        | res g r x => rw [hp] at hk; exact hn hk.2.1
        | _ => rw [hp] at hx hgw; simp [Pc.self, Pc.goes] at hx hgw
    have hk0 : s.slk w = none := by
      rcases h.qslk q w with h1 | h1
      · exact h1
      · rw [hself] at h1; simp at h1
    have hm := q.pc t
    cases hp : s.pc t with
    | urel u p x => rw [hp] at hg; simp [Pc.goes] at hg
    | res g r x =>
      rw [hp] at hmc hg
      cases g with
      | rlock =>
        have hx : x = w := by cases r <;> simp [Pc.mc] at hmc; exact hmc
        subst hx
        simp [Sync.threadStep, hp, hk0, St.to] at hm
      | dlock =>
        have hx : x = w := by cases r <;> simp [Pc.mc] at hmc; exact hmc
        subst hx
        simp [Sync.threadStep, hp, hk0, St.to] at hm
      | _ => simp [Pc.goes] at hg
    | _ => rw [hp] at hmc; simp [Pc.mc] at hmc

theorem Inv.qslk' {s : St} {l : Lk} {v : Cv} (h : Inv s l v) (q : Quiet s) (w : Nat) : s.slk w = none := by
  rcases h.qslk q w with h1 | h1
  · exact h1
  · exfalso
    have hg := h.moves (t := w) q
    cases hp : s.pc w with
    | usl u p => have := q.pc w; simp [Sync.threadStep, hp, h.qslow q, St.to] at this
    | res g r x =>
      rw [hp] at h1 hg
      cases r with
      | unlock u p =>
        have := (h.mref x (.thr w)).2 ⟨w, rfl, by rw [hp]; cases g <;> first | rfl | simp [Pc.goes] at hg⟩
        rw [h.qmref q] at this; simp at this
      | one b => simp [Pc.self, R.wait?] at h1
      | all b => simp [Pc.self, R.wait?] at h1
    | _ => rw [hp] at h1 hg; simp [Pc.self, Pc.goes] at h1 hg

theorem Inv.qtm {s : St} {l : Lk} {v : Cv} (h : Inv s l v) (q : Quiet s) (g : Nat) :
    s.tm g = .unused ∨ s.tm g = .armed ∨ s.tm g = .over := by
  rcases h.tmoves (g := g) q with h1 | h1 | h1 | h1
  · exact .inl h1
  · exact .inr (.inl h1)
  · exact .inr (.inr h1)
  · have := q.tm g; simp [Sync.timerStep, h1, h.qslk' q] at this

/-- Where everybody is. -/
theorem Inv.qpc {s : St} {l : Lk} {v : Cv} (h : Inv s l v) (q : Quiet s) (t : Nat) :
    s.pc t = .out ∨ s.pc t = .own ∨ (∃ w, s.pc t = .parked w ∧ s.rdy t = false) ∨ ∃ w st, s.pc t = .fasleep w st := by
  have hg := h.moves (t := t) q
  have hm := q.pc t
  cases hp : s.pc t with
  | out => simp
  | own => simp
  | parked w =>
    refine .inr (.inr (.inl ⟨w, rfl, ?_⟩))
    cases hr : s.rdy t with
    | false => rfl
    | true =>
      have h1 := (h.runParked hp hr).1
      have h2 : (Sync.runStep s t).1.rdy t = s.rdy t := by rw [q.2.1 t]
      simp [Sync.runStep, hr, h1, hp] at h2
  | fasleep w st => simp
  | slow k => simp [Sync.threadStep, hp, h.qslow q, St.to] at hm
  | slk k => simp [Sync.threadStep, hp, h.qslk' q, St.to] at hm
  | usl u p => simp [Sync.threadStep, hp, h.qslow q, St.to] at hm
  | res g r w =>
    cases g with
    | rlock => simp [Sync.threadStep, hp, h.qslk' q, St.to] at hm
    | dlock => simp [Sync.threadStep, hp, h.qslk' q, St.to] at hm
    | _ => rw [hp] at hg; simp [Pc.goes] at hg
  | swapped r => simp [Sync.threadStep, hp, h.qslk' q, St.to] at hm
  | cslk a => simp [Sync.threadStep, hp, h.qslk' q, St.to] at hm
  | cawake g b =>
    have hl := (h.tim g).lock
    have : s.tlock g = none := by
      rcases h.qtm q g with h1 | h1 | h1 <;> (rw [h1] at hl; simpa using hl)
    simp [Sync.threadStep, hp, this, St.to] at hm
  | _ => rw [hp] at hg; simp [Pc.goes] at hg

theorem Inv.qcref {s : St} {l : Lk} {v : Cv} (h : Inv s l v) (q : Quiet s) (w : Nat) : s.cref w = none := by
  cases hs : s.cref w with
  | none => rfl
  | some r =>
    exfalso
    have hh := (h.cref w r).1 hs
    cases r with
    | thr t =>
      rcases h.qpc q t with h1 | h1 | ⟨x, h1, -⟩ | ⟨x, st, h1⟩ <;> (simp only [CPtr] at hh; rw [h1] at hh; simp [Pc.cc] at hh)
    | tim g =>
      rcases h.qtm q g with h1 | h1 | h1 <;> (have := hh.1; rw [h1] at this; simp at this)

/-- Who is in a call waits: for the mutex, which is owned by somebody who is not in a call, or for the condition variable. -/
theorem Inv.quiet {s : St} {l : Lk} {v : Cv} (h : Inv s l v) (q : Quiet s) (t : Nat) (ho : s.pc t ≠ .out) (hw : s.pc t ≠ .own) :
    (t ∈ l.queue ∧ ∃ o, l.owner = some o ∧ s.pc o = .own) ∨
    (l.owner ≠ some t ∧ (t ∈ v.waiting ∨ s.fib t = false ∧ v.ph t = .noted true)) := by
  have hfs : ∀ x w st, s.pc x = .fasleep w st → word s x w = st := by
    intro x w st hx
    have := h.fs x
    rw [Fs, hx] at this
    by_cases he : word s x w = st
    · exact he
    · obtain ⟨u, r, hu⟩ := this he
      rcases h.qpc q u with h1 | h1 | ⟨y, h1, -⟩ | ⟨y, z, h1⟩ <;> (rw [hu] at h1; simp at h1)
  -- who waits for the mutex is in the list
  have hmq : ∀ x, x ∈ l.queue → x ∈ s.mq := by
    intro x hx
    have hqd := (h.qd x).1 hx
    have hk := h.ok x
    rw [Ok] at hk
    have hmst : MSt s x → x ∈ s.mq := by
      rintro (h1 | h1)
      · exact h1.1
      · exact absurd (h.qmref q x) h1.2
    rcases h.qpc q x with h1 | h1 | ⟨y, h1, h2⟩ | ⟨y, z, h1⟩
    · rw [h1] at hqd; simp [Pc.qd] at hqd
    · rw [h1] at hqd; simp [Pc.qd] at hqd
    · rw [h1] at hqd hk
      cases y with
      | mx k =>
        rcases hk.2.2.2 with h3 | h3
        · exact hmst h3.2
        · rw [h2] at h3; simp at h3
      | cv a b => simp [Pc.qd, W.mx?] at hqd
      | dir r => simp [Pc.qd, W.mx?] at hqd
    · have h4 := hfs x y z h1
      rw [h1] at hqd hk
      cases y with
      | mx k =>
        rcases hk.2.2.2.2.2 with h3 | h3
        · exact hmst h3.2
        · exact absurd (h4.trans hk.2.2.2.2.1) h3.1
      | cv a b => simp [Pc.qd, W.mx?] at hqd
      | dir r => simp [Pc.qd, W.mx?] at hqd
  -- then somebody owns it
  have hown : l.queue ≠ [] → ∃ o, l.owner = some o ∧ s.pc o = .own := by
    intro hne
    cases hl : l.owner with
    | none =>
      exfalso
      obtain ⟨G, P, d, k⟩ := h.tok
      rcases k.token hl hne with h1 | h1
      · cases hd : d with
        | none => exact h1 hd
        | some x =>
          have h2 := (k.duty x).2 hd
          rcases h.qpc q x with h3 | h3 | ⟨y, h3, -⟩ | ⟨y, z, h3⟩ <;> (rw [h3] at h2; simp [Pc.duty] at h2)
      · cases hG : G with
        | nil => exact h1 hG
        | cons x G' =>
          have h2 : x ∈ s.mq := hmq x (by rw [k.queue, hG]; simp)
          have h3 := h.nodup
          rw [k.queue, hG, List.append_assoc, List.cons_append, List.nodup_cons] at h3
          exact h3.1 (by simp [h2])
    | some o =>
      refine ⟨o, rfl, ?_⟩
      have h1 := (h.owner o).1 hl
      rcases h.qpc q o with h2 | h2 | ⟨y, h2, -⟩ | ⟨y, z, h2⟩
      · rw [h2] at h1; simp [Pc.ow] at h1
      · exact h2
      · rw [h2] at h1; simp [Pc.ow] at h1
      · rw [h2] at h1; simp [Pc.ow] at h1
  have hno : s.pc t ≠ .own → l.owner ≠ some t := by
    intro h1 h2
    have h3 := (h.owner t).1 h2
    rcases h.qpc q t with h4 | h4 | ⟨y, h4, -⟩ | ⟨y, z, h4⟩
    · exact ho h4
    · exact h1 h4
    · rw [h4] at h3; simp [Pc.ow] at h3
    · rw [h4] at h3; simp [Pc.ow] at h3
  have hwait : t ∈ s.cq → s.sat t = false → t ∈ v.waiting := by
    intro h1 h2
    rw [h.waiting, List.mem_filter]; exact ⟨h1, by simp [h2]⟩
  have hk := h.ok t
  rw [Ok] at hk
  rcases h.qpc q t with h1 | h1 | ⟨y, h1, h2⟩ | ⟨y, z, h1⟩
  · exact absurd h1 ho
  · exact absurd h1 hw
  · cases y with
    | mx k =>
      have : t ∈ l.queue := (h.qd t).2 (by rw [h1]; rfl)
      exact .inl ⟨this, hown (fun he => by rw [he] at this; simp at this)⟩
    | cv a b =>
      rw [h1] at hk
      refine .inr ⟨hno hw, .inl ?_⟩
      rcases hk.2.2 with h3 | h3
      · rcases h3.2 with h4 | h4
        · exact hwait h4.2.1 h4.1
        · exact absurd (h.qcref q t) h4.2
      · rw [h2] at h3; simp at h3
    | dir r => rw [h1] at hk; rw [hk.2.1] at h2; simp at h2
  · have h4 := hfs t y z h1
    cases y with
    | mx k =>
      have : t ∈ l.queue := (h.qd t).2 (by rw [h1]; rfl)
      exact .inl ⟨this, hown (fun he => by rw [he] at this; simp at this)⟩
    | cv a b =>
      rw [h1] at hk
      refine .inr ⟨hno hw, ?_⟩
      rcases hk.2.2.2.2 with h3 | h3 | h3
      · exact .inl (hwait h3.1 (h.sat t hk.1))
      · rcases h3.2.2.1 with h5 | h5
        · exact absurd (h.qcref q t) h5.1
        · exact absurd (h4.trans h3.2.1) h5.2
      · exact .inr ⟨hk.1, h3.2.2.2⟩
    | dir r => rw [h1] at hk; exact hk.elim

end Verif.Fiber.Sync
