import Verif.Fiber.SyncStep
/-!
# Every step keeps the invariant: sleeping threads and `unlock`
-/

namespace Verif.Fiber.Sync

/-! ## Threads that wait -/

/-- A futex wait for the condition variable is over. -/
theorem Inv.premStep {s : St} {l : Lk} {v : Cv} {t g st : Nat} {timed : Bool} (h : Inv s l v)
    (hp : s.pc t = .fwait (.cv timed g) st ∨ s.pc t = .fasleep (.cv timed g) st ∨ s.pc t = .fcheck (.cv timed g) st)
    (hf : s.fib t = false) (hr : Run s t) (hm : NoM s t) (hk : PSt s v t st) (hne : s.cfut t ≠ st) :
    Good (s.to t (.prem true)) [] l v := by
  apply Good.nil
  have hpc : (s.to t (.prem true)).pc = upd s.pc t (.prem true) := rfl
  have hok : Ok (s.to t (.prem true)) v t := by
    rw [Ok, hpc, upd_same]
    rcases hk with ⟨-, -, h1, h2, -⟩ | ⟨h1, h2, h3, h4⟩ | ⟨h1, h2, h3, h4⟩
    · exact absurd (h1.trans h2.symm) hne
    · rcases h3 with ⟨-, h3⟩ | ⟨h3, -⟩
      · exact absurd (h3.trans h2.symm) hne
      · exact ⟨hf, hr, hm, ⟨h1, h3⟩, .inr ⟨rfl, h4⟩⟩
    · exact absurd h3 hne
  rcases hp with hp | hp | hp
  all_goals
    easy h hp hpc
    case ok => exact hok

theorem PSt.word {s : St} {v : Cv} {t st : Nat} (h : PSt s v t st) (hc : s.cref t = none) (hw : t ∉ s.cq)
    (hn : v.ph t ≠ .noted true) : s.cfut t ≠ st := by
  rcases h with ⟨h1, -⟩ | ⟨-, h1, h2, -⟩ | ⟨-, -, -, h1⟩
  · exact absurd h1 hw
  · rcases h2 with ⟨h2, -⟩ | ⟨-, h2⟩
    · exact absurd hc h2
    · rw [h1]; exact h2
  · exact absurd h1 hn

theorem W.timed_no {s : St} {v : Cv} {t st : Nat} {w : W}
    (h : OkAt s v t (.fwait w st) ∨ OkAt s v t (.fasleep w st) ∨ OkAt s v t (.fcheck w st)) : w.timed = false := by
  cases w with
  | cv a g => rcases h with h | h | h <;> exact h.2.1
  | _ => rfl

/-- A sleeping thread finds that its futex has changed. -/
theorem Inv.futexStep {s : St} {l : Lk} {v : Cv} {t st : Nat} {w : W} (h : Inv s l v)
    (hp : s.pc t = .fwait w st ∨ s.pc t = .fasleep w st ∨ s.pc t = .fcheck w st) (hne : word s t w ≠ st) :
    Good (futexed s t true w).1 (futexed s t true w).2 l v := by
  have hk := h.ok t
  cases w with
  | dir r => rcases hp with hp | hp | hp <;> (rw [Ok, hp] at hk; exact hk.elim)
  | mx k =>
    have hk : s.fib t = false ∧ Run s t ∧ NoC s t ∧ KOk v t k ∧ st = 0 ∧ FM s t := by
      rcases hp with hp | hp | hp <;> (rw [Ok, hp] at hk; exact hk)
    obtain ⟨-, hr, hc, hk, hst, hm⟩ := hk
    rcases hm with ⟨h1, -⟩ | ⟨-, hm⟩
    · exact absurd (h1.trans hst.symm) hne
    · exact h.lockedStep (.inr ⟨st, hp⟩) hr hm hc hk
  | cv a g =>
    have hk : s.fib t = false ∧ a = false ∧ Run s t ∧ NoM s t ∧ PSt s v t st := by
      rcases hp with hp | hp | hp <;> (rw [Ok, hp] at hk; exact hk)
    exact h.premStep hp hk.1 hk.2.2.1 hk.2.2.2.1 hk.2.2.2.2 hne

theorem Inv.sleepStep {s : St} {l : Lk} {v : Cv} {t st : Nat} {w : W} (h : Inv s l v) (hp : s.pc t = .fwait w st)
    (he : word s t w = st) : Good (s.to t (.fasleep w st)) [] l v := by
  have hk := h.ok t
  rw [Ok, hp] at hk
  apply Good.nil
  have hpc : (s.to t (.fasleep w st)).pc = upd s.pc t (.fasleep w st) := rfl
  have hfs : Fs (s.to t (.fasleep w st)) t := by
    rw [Fs, hpc, upd_same]
    intro hne
    exact absurd (show word (s.to t (.fasleep w st)) t w = st by cases w <;> exact he) hne
  cases w with
  | dir r => exact hk.elim
  | _ =>
    easy h hp hpc
    case ok => rw [Ok, hpc, upd_same]; exact hk
    all_goals exact hfs

theorem Inv.againStep {s : St} {l : Lk} {v : Cv} {t st : Nat} {w : W} (h : Inv s l v)
    (hp : s.pc t = .fasleep w st ∨ s.pc t = .fcheck w st) : Good (s.to t (.fwait w st)) [] l v := by
  have hk := h.ok t
  apply Good.nil
  have hpc : (s.to t (.fwait w st)).pc = upd s.pc t (.fwait w st) := rfl
  rcases hp with hp | hp
  all_goals
    rw [Ok, hp] at hk
    cases w
    all_goals
      easy h hp hpc
      case ok => rw [Ok, hpc, upd_same]; exact hk

/-- A sleeping thread is woken. -/
theorem Inv.wokenStep {s : St} {l : Lk} {v : Cv} {t st : Nat} {w : W} (h : Inv s l v) (hp : s.pc t = .fasleep w st) :
    Inv (s.to t (.fcheck w st)) l v := by
  have hk := h.ok t
  have hpc : (s.to t (.fcheck w st)).pc = upd s.pc t (.fcheck w st) := rfl
  rw [Ok, hp] at hk
  cases w
  all_goals
    easy h hp hpc
    case ok => rw [Ok, hpc, upd_same]; exact hk

/-! ## `unlock` -/

/-- Nobody else owns the mutex. -/
theorem Inv.sole {s : St} {l : Lk} {v : Cv} {t u : Nat} (h : Inv s l v) (ht : (s.pc t).ow = true) (hu : (s.pc u).ow = true) : u = t := by
  have h1 := (h.owner t).2 ht
  have h2 := (h.owner u).2 hu
  rw [h1] at h2
  exact (Option.some.inj h2).symm

theorem Inv.ulStep {s : St} {l : Lk} {v : Cv} {t : Nat} {u : U} (h : Inv s l v) (hp : s.pc t = .ul u) :
    Good { s.to t (.sub u s.post) with post := false } [] l v := by
  have hk := h.ok t
  rw [Ok, hp] at hk
  apply Good.nil
  have hpc : ({ s.to t (.sub u s.post) with post := false } : St).pc = upd s.pc t (.sub u s.post) := rfl
  easy h hp hpc
  case ok => rw [Ok, hpc, upd_same]; exact hk
  case same =>
    intro x hx _
    have : (s.pc x).ow = true → (s.to t (.sub u s.post)).post = s.post := fun _ => rfl
    constructor <;> first | rfl | (simp [St.to, upd, hx]; done) | exact id | exact fun h _ => h | skip
    exact fun ho => absurd (h.sole (by rw [hp]; rfl) ho) hx

/-- Having given the mutex up. -/
def Cv.gave (v : Cv) (t : Nat) : Cv := { v with ph := if v.ph t = .entered then upd v.ph t .released else v.ph }

theorem Cv.gave_ne (v : Cv) {t u : Nat} (h : u ≠ t) : (v.gave t).ph u = v.ph u := by
  simp only [Cv.gave]; split <;> simp [upd, h]

theorem Cv.gave_at {v : Cv} {t : Nat} (h : v.ph t ≠ .entered) : (v.gave t).ph t = v.ph t := by simp [Cv.gave, h]

theorem Cv.gave_ent {v : Cv} {t : Nat} (h : v.ph t = .entered) : (v.gave t).ph t = .released := by simp [Cv.gave, h]

theorem CSt.gave {s : St} {v : Cv} {t : Nat} (h : CSt s v t) : CSt s (v.gave t) t := by
  rcases h with ⟨h1, h2, h3, h4⟩ | ⟨⟨h1, h2⟩, h3⟩
  · refine .inl ⟨h1, h2, h3, .inr ?_⟩
    rcases h4 with h4 | h4
    · exact Cv.gave_ent h4
    · rw [Cv.gave_at (by simp [h4])]; exact h4
  · refine .inr ⟨⟨h1, ?_⟩, h3⟩
    rcases h2 with h2 | ⟨h2, e, h4⟩
    · left; rw [Cv.gave_at (by simp [h2])]; exact h2
    · right; exact ⟨h2, e, by rw [Cv.gave_at (by simp [h4])]; exact h4⟩

theorem PSt.gave {s : St} {v : Cv} {t st : Nat} (h : PSt s v t st) : PSt s (v.gave t) t st := by
  rcases h with ⟨h1, h2, h3, h4, h5⟩ | ⟨h1, h2, h3, e, h4⟩ | ⟨h1, h2, h3, h4⟩
  · refine .inl ⟨h1, h2, h3, h4, .inr ?_⟩
    rcases h5 with h5 | h5
    · exact Cv.gave_ent h5
    · rw [Cv.gave_at (by simp [h5])]; exact h5
  · exact .inr (.inl ⟨h1, h2, h3, e, by rw [Cv.gave_at (by simp [h4])]; exact h4⟩)
  · exact .inr (.inr ⟨h1, h2, h3, by rw [Cv.gave_at (by simp [h4])]; exact h4⟩)

theorem UOk.gave {s : St} {v : Cv} {t : Nat} {u : U} (h : UOk s v t u) : UOk s (v.gave t) t u := by
  cases u with
  | user => exact ⟨h.1, by rw [Cv.gave_at (by rw [h.2]; simp)]; exact h.2⟩
  | wait a g st =>
    simp only [UOk] at h ⊢
    split
    · next hf => rw [if_pos hf] at h; exact h.gave
    · next hf => rw [if_neg hf] at h; exact ⟨h.1, h.2.gave⟩

/-- What the position after `unlock` means. -/
structure Idle (fib : Bool) (u : U) (p : Pc) : Prop where
  hs : p.hs = false
  self : p.self fib = (fib && u.wait?)
  rs : p.rs = none
  mc : p.mc = none
  cc : p.cc = none
  ow : p.ow = false
  qd : p.qd = false
  pre : p.pre = false
  duty : p.duty = false
  cur : p.cur = u.cur
  lnk : ∀ g r w, p ≠ .res g r w
  fs : ∀ w st, p ≠ .fasleep w st

theorem unlocked_idle {s : St} {v : Cv} {t : Nat} {u : U} (h : UOk s v t u) : Idle (s.fib t) u (unlocked s t u) := by
  cases u with
  | user => cases hf : s.fib t <;> constructor <;> simp [unlocked, Pc.hs, Pc.self, U.wait?, Pc.rs, Pc.mc, Pc.cc, Pc.ow, Pc.qd, Pc.pre, Pc.duty, Pc.cur, U.cur]
  | wait a g st =>
    simp only [UOk] at h
    cases hf : s.fib t
    · simp only [hf, Bool.false_eq_true, if_false] at h
      rw [h.1]
      constructor <;> simp [unlocked, hf, Pc.hs, Pc.self, Pc.rs, Pc.mc, Pc.cc, Pc.ow, Pc.qd, Pc.pre, Pc.duty, Pc.cur, U.cur, W.mx?]
    · constructor <;> simp [unlocked, hf, Pc.hs, Pc.self, U.wait?, Pc.rs, Pc.mc, Pc.cc, Pc.ow, Pc.qd, Pc.pre, Pc.duty, Pc.cur, U.cur, W.mx?]
      cases a <;> simp [W.cur]

theorem Lnk.none {s : St} {t : Nat} {p : Pc} (h : s.pc t = p) (hn : ∀ g r w, p ≠ .res g r w) : Lnk s t := by
  rw [Lnk, h]
  cases p with
  | res g r w => exact absurd rfl (hn g r w)
  | _ => trivial

theorem Fs.none {s : St} {t : Nat} {p : Pc} (h : s.pc t = p) (hn : ∀ w st, p ≠ .fasleep w st) : Fs s t := by
  rw [Fs, h]
  cases p with
  | fasleep w st => exact absurd rfl (hn w st)
  | _ => trivial

/-- After `unlock` all is well. -/
theorem unlocked_ok {s s0 : St} {v : Cv} {t : Nat} {u : U} (hp : s.pc t = unlocked s0 t u) (hf : s.fib = s0.fib) (hr : Run s t)
    (hm : NoM s t) (hu : UOk s v t u) : Ok s v t := by
  rw [Ok, hp]
  cases u with
  | user => exact ⟨hr, hm, hu.1, hu.2⟩
  | wait a g st =>
    simp only [UOk] at hu
    simp only [unlocked, ← hf]
    cases hf : s.fib t
    · simp only [hf, Bool.false_eq_true, if_false] at hu ⊢; exact ⟨hf, hu.1, hr, hm, hu.2⟩
    · simp only [hf, if_true] at hu ⊢; exact ⟨hf, hr, hm, hu⟩

theorem Inv.subFree {s : St} {l : Lk} {v : Cv} {t : Nat} {u : U} {p : Bool} (h : Inv s l v) (hp : s.pc t = .sub u p)
    (h0 : s.count = 1) : Good { s.to t (unlocked s t u) with count := 0 } [.rel t] l v := by
  have hk := h.ok t
  rw [Ok, hp] at hk
  obtain ⟨hr, hm, hu, -⟩ := hk
  have hpc : ({ s.to t (unlocked s t u) with count := 0 } : St).pc = upd s.pc t (unlocked s t u) := rfl
  have c := unlocked_idle hu
  have hL := h.pl.relFree (s' := { s.to t (unlocked s t u) with count := 0 }) (ls_ne hpc) h0 rfl rfl (by rw [hp]; rfl)
    (by rw [hpc, upd_same]; exact c.ow) (by rw [hpc, upd_same]; exact c.qd) (by rw [hpc, upd_same]; exact c.duty)
  refine ⟨_, v.gave t, Lk.replay1 hL.2, Cv.replay1 rfl, by simp, ?_⟩
  refine h.simple hpc ?_ rfl (.inl (by rw [hp]; rfl)) (by simp [hp]) (by rw [c.cur, hp]; rfl) (by simp [hp]) ⟨rfl, rfl, rfl, rfl, rfl⟩ ?_
    (Lnk.none (by rw [hpc, upd_same]) c.lnk) (Fs.none (by rw [hpc, upd_same]) c.fs)
    (PSlow.keep h.slow hpc rfl (by rw [c.hs, hp]; rfl)) (PSlk.keep h.slk hpc rfl rfl (by rw [c.self, hp]; rfl) (by rw [c.rs, hp]; rfl) rfl rfl)
    (PM.keep h.mref hpc rfl (by rw [c.mc, hp]; rfl)) (PC.keep h.cref hpc rfl (by rw [c.cc, hp]; rfl) rfl rfl) hL.1
    (h.pv.keep rfl rfl rfl rfl)
  · intro x hx _
    constructor <;> first | rfl | (simp [St.to, upd, hx]; done) | exact id | exact fun h _ => h | exact fun _ => rfl | skip
    exact v.gave_ne hx
  · exact unlocked_ok (s0 := s) (by rw [hpc, upd_same]) rfl hr hm hu.gave

theorem Inv.subDuty {s : St} {l : Lk} {v : Cv} {t : Nat} {u : U} {p : Bool} (h : Inv s l v) (hp : s.pc t = .sub u p)
    (h0 : s.count ≠ 1) : s.count ≠ 0 ∧ Good { s.to t (.usl u p) with count := (s.count + (2 ^ 32 - 1)) % 2 ^ 32 } [.rel t] l v := by
  have hk := h.ok t
  rw [Ok, hp] at hk
  obtain ⟨hr, hm, hu, hw⟩ := hk
  have hlt := h.pl.lt h.small
  have hpos : s.count ≠ 0 := by
    rw [h.count, (h.owner t).2 (by rw [hp]; rfl)]; simp
  have he : (s.count + (2 ^ 32 - 1)) % 2 ^ 32 = s.count - 1 := by
    rw [show s.count + (2 ^ 32 - 1) = (s.count - 1) + 2 ^ 32 by omega, Nat.add_mod_right, Nat.mod_eq_of_lt (by omega)]
  rw [he]
  refine ⟨hpos, ?_⟩
  have hpc : ({ s.to t (.usl u p) with count := s.count - 1 } : St).pc = upd s.pc t (.usl u p) := rfl
  have hL := h.pl.relDuty (s' := { s.to t (.usl u p) with count := s.count - 1 }) (ls_ne hpc) h0 (show s.count - 1 + 1 = _ by omega) rfl
    (by rw [hp]; rfl) (by rw [hpc, upd_same]; rfl)
  refine ⟨_, v.gave t, Lk.replay1 hL.2, Cv.replay1 rfl, by simp, ?_⟩
  easy h hp hpc
  case ok => rw [Ok, hpc, upd_same]; exact ⟨hr, hm, hu.gave, hw⟩
  case same =>
    intro x hx _
    constructor <;> first | rfl | (simp [St.to, upd, hx]; done) | exact id | exact fun h _ => h | exact fun _ => rfl | skip
    exact v.gave_ne hx
  case pl => exact hL.1

theorem Inv.uslStep {s : St} {l : Lk} {v : Cv} {t : Nat} {u : U} {p : Bool} (h : Inv s l v) (hp : s.pc t = .usl u p)
    (h0 : s.slow = none) : Good { s.to t (.wake u p) with slow := some t } [] l v := by
  have hk := h.ok t
  rw [Ok, hp] at hk
  apply Good.nil
  have hpc : ({ s.to t (.wake u p) with slow := some t } : St).pc = upd s.pc t (.wake u p) := rfl
  easy h hp hpc
  case ok => rw [Ok, hpc, upd_same]; exact hk
  case slow => exact PSlow.take h.slow h0 rfl (hs_ne hpc) (by rw [hpc, upd_same]; rfl)

/-- Who is in the list of the mutex. -/
theorem Ok.listed {s : St} {v : Cv} {w : Nat} (h : Ok s v w) (hw : w ∈ s.mq) : s.mref w = none ∧ ¬NoM s w := by
  refine ⟨?_, fun hn => hn.1 hw⟩
  have key : NoM s w → s.mref w = none := fun h => h.2
  have key2 : MSt s w → s.mref w = none := by
    rintro (⟨-, h⟩ | ⟨h, -⟩)
    · exact h
    · exact absurd hw h
  have key3 : FM s w → s.mref w = none := by
    rintro (⟨-, h⟩ | ⟨-, h⟩)
    · exact key2 h
    · exact key h
  rw [Ok] at h
  cases hp : s.pc w with
  | parked x => rw [hp] at h; cases x <;> simp only [OkAt] at h <;> grind
  | susp x => rw [hp] at h; cases x <;> simp only [OkAt] at h <;> grind
  | swap x => rw [hp] at h; cases x <;> simp only [OkAt] at h <;> grind
  | fwait x st => rw [hp] at h; cases x <;> simp only [OkAt] at h <;> grind
  | fasleep x st => rw [hp] at h; cases x <;> simp only [OkAt] at h <;> grind
  | fcheck x st => rw [hp] at h; cases x <;> simp only [OkAt] at h <;> grind
  | _ => rw [hp] at h; simp only [OkAt] at h; grind

theorem Inv.wakeStep {s : St} {l : Lk} {v : Cv} {t : Nat} {u : U} {p : Bool} (h : Inv s l v) (hp : s.pc t = .wake u p) :
    ∃ w q, s.mq = w :: q ∧ Good { s.to t (.urel u p w) with mq := q, mref := upd s.mref w (some (.thr t)) } [] l v := by
  have hk := h.ok t
  rw [Ok, hp] at hk
  obtain ⟨hr, hm, hu, hpost⟩ := hk
  have hne := h.pl.found h.slow (t := t) (by rw [hp]; rfl) (by rw [hp]; rfl)
  cases hq : s.mq with
  | nil => exact absurd hq hne
  | cons w q =>
    refine ⟨w, q, rfl, .nil ?_⟩
    have hwm : w ∈ s.mq := by rw [hq]; simp
    have hwt : w ≠ t := fun he => hm.1 (he ▸ hwm)
    have hwr := (h.ok w).listed hwm
    have hpc : ({ s.to t (.urel u p w) with mq := q, mref := upd s.mref w (some (.thr t)) } : St).pc = upd s.pc t (.urel u p w) := rfl
    -- the list has no one twice
    have hnd : s.mq.Nodup := by
      obtain ⟨G, P, d, ht⟩ := h.tok
      have := h.nodup
      rw [ht.queue] at this
      exact (List.nodup_append.1 (List.nodup_append.1 this).1).2.1
    have hwq : w ∉ q := by rw [hq] at hnd; exact (List.nodup_cons.1 hnd).1
    refine h.build (t := t) (x := w) ⟨fun x hx => by rw [hpc, upd_ne _ _ hx], ?_, rfl, .inl (by rw [hp]; rfl), by simp [hp],
      by rw [hpc, upd_same, hp]; rfl, fun _ => h.small t (by simp [hp]), .inr (.inl rfl)⟩ ⟨rfl, rfl, rfl, rfl, rfl⟩ ?_ ?_
      (Lnk.none (by rw [hpc, upd_same]) (by simp)) (Fs.none (by rw [hpc, upd_same]) (by simp)) ?_
      (PSlow.keep h.slow hpc rfl (by rw [hp]; rfl)) (PSlk.keep h.slk hpc rfl rfl (by rw [hp]; rfl) (by rw [hp]; rfl) rfl rfl)
      (PM.take h.mref (t := t) hwr.1 rfl (mc_ne hpc) (by rw [hp]; rfl) (by rw [hpc, upd_same]; rfl))
      (PC.keep h.cref hpc rfl (by rw [hp]; rfl) rfl rfl)
      (h.pl.pop (ls_ne hpc) rfl hq rfl (by rw [hp]; rfl) (by rw [hpc, upd_same]; rfl) (by rw [hpc, upd_same]; rfl)
        (by rw [hpc, upd_same]; rfl)) (h.pv.keep rfl rfl rfl rfl)
    · intro x hx hxw
      constructor <;> first | rfl | (simp [St.to, upd, hx, hxw, hq]; done) | exact id | exact fun h _ => h | exact fun _ => rfl
    · rw [Ok, hpc, upd_same]
      exact ⟨hr, ⟨fun hx => hm.1 (by rw [hq]; exact List.mem_cons_of_mem _ hx), by show upd _ _ _ _ = _; rw [upd_ne _ _ hwt.symm]; exact hm.2⟩, hu, hpost⟩
    · intro _
      have hw := h.ok w
      rw [Ok] at hw ⊢
      rw [hpc, upd_ne _ _ hwt]
      have k1 : NoM s w → False := hwr.2
      have k2 : MSt { s.to t (.urel u p w) with mq := q, mref := upd s.mref w (some (.thr t)) } w :=
        .inr ⟨hwq, by show upd _ _ _ _ ≠ _; simp⟩
      have k3 : FM s w → FM { s.to t (.urel u p w) with mq := q, mref := upd s.mref w (some (.thr t)) } w := by
        rintro (⟨h1, -⟩ | ⟨-, h2⟩)
        · exact .inl ⟨h1, k2⟩
        · exact (k1 h2).elim
      -- it is not in the middle of getting into the list
      have k4 : (s.pc w).hs = false := by
        cases hh : (s.pc w).hs
        · rfl
        · have h1 := (h.slow w).2 hh
          rw [(h.slow t).2 (by rw [hp]; rfl)] at h1
          exact absurd (Option.some.inj h1).symm hwt
      cases hpw : s.pc w with
      | parked x =>
        rw [hpw] at hw
        cases x with
        | mx k => 
          obtain ⟨h1, h2, h3, h4⟩ := hw
          refine ⟨h1, h2, h3, ?_⟩
          rcases h4 with ⟨h4, -⟩ | ⟨-, -, h4⟩
          · exact .inl ⟨h4, k2⟩
          · exact (k1 h4).elim
        | cv a g => exact (k1 hw.2.1).elim
        | dir r => exact (k1 hw.2.2.2.1).elim
      | susp x =>
        rw [hpw] at hw
        cases x with
        | mx k => exact ⟨hw.1, hw.2.1, k2, hw.2.2.2⟩
        | cv a g => exact (k1 hw.2.2.1).elim
        | dir r => exact hw.elim
      | swap x =>
        rw [hpw] at hw
        cases x with
        | mx k => exact ⟨hw.1, hw.2.1, k2, hw.2.2.2⟩
        | cv a g => exact (k1 hw.2.2.1).elim
        | dir r => exact hw.elim
      | fwait x st =>
        rw [hpw] at hw
        cases x with
        | mx k => exact ⟨hw.1, hw.2.1, hw.2.2.1, hw.2.2.2.1, hw.2.2.2.2.1, k3 hw.2.2.2.2.2⟩
        | cv a g => exact (k1 hw.2.2.2.1).elim
        | dir r => exact hw.elim
      | fasleep x st =>
        rw [hpw] at hw
        cases x with
        | mx k => exact ⟨hw.1, hw.2.1, hw.2.2.1, hw.2.2.2.1, hw.2.2.2.2.1, k3 hw.2.2.2.2.2⟩
        | cv a g => exact (k1 hw.2.2.2.1).elim
        | dir r => exact hw.elim
      | fcheck x st =>
        rw [hpw] at hw
        cases x with
        | mx k => exact ⟨hw.1, hw.2.1, hw.2.2.1, hw.2.2.2.1, hw.2.2.2.2.1, k3 hw.2.2.2.2.2⟩
        | cv a g => exact (k1 hw.2.2.2.1).elim
        | dir r => exact hw.elim
      | st k => rw [hpw] at k4; simp [Pc.hs] at k4
      | rel k st => rw [hpw] at k4; simp [Pc.hs] at k4
      | _ => rw [hpw] at hw; exfalso; simp only [OkAt] at hw; grind
    · intro _
      refine (h.fs w).frame (by rw [hpc, upd_ne _ _ hwt]) rfl rfl ?_
      intro y r hy _
      by_cases hyt : y = t
      · subst hyt; rw [hp] at hy; simp at hy
      · rw [hpc, upd_ne _ _ hyt]

theorem Inv.urelStep {s : St} {l : Lk} {v : Cv} {t w : Nat} {u : U} {p : Bool} (h : Inv s l v) (hp : s.pc t = .urel u p w) :
    Good { s.to t (.res .look (.unlock u p) w) with slow := none } [] l v := by
  have hk := h.ok t
  rw [Ok, hp] at hk
  apply Good.nil
  have hpc : ({ s.to t (.res .look (.unlock u p) w) with slow := none } : St).pc = upd s.pc t (.res .look (.unlock u p) w) := rfl
  easy h hp hpc
  case ok => rw [Ok, hpc, upd_same]; exact ⟨hk.1, hk.2.1, hk.2.2, trivial⟩
  case slow => exact PSlow.drop h.slow (t := t) (by rw [hp]; rfl) rfl (hs_ne hpc) (by rw [hpc, upd_same]; rfl)

end Verif.Fiber.Sync
