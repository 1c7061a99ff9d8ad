import Verif.Fiber.SyncUnlock
/-!
# Every step keeps the invariant: resuming a fiber, waking a thread
-/

namespace Verif.Fiber.Sync

def R.mx? : R → Bool
  | .unlock _ _ => true
  | _ => false

/-- Who wakes `w` has a pointer to its block. -/
theorem Inv.held {s : St} {l : Lk} {v : Cv} {t w : Nat} {g : Stage} {r : R} (h : Inv s l v) (hp : s.pc t = .res g r w)
    (hg : g ≠ .fsys) : w ≠ t ∧ (r.mx? = true ∧ s.mref w = some (.thr t) ∨ r.mx? = false ∧ s.cref w = some (.thr t)) := by
  have hk := h.ok t
  rw [Ok, hp] at hk
  obtain ⟨-, hm, hr, -⟩ := hk
  cases r with
  | unlock u p =>
    have h1 := (h.mref w (.thr t)).2 ⟨t, rfl, by rw [hp]; cases g <;> first | rfl | exact absurd rfl hg⟩
    exact ⟨fun he => by rw [he, hm.2] at h1; simp at h1, .inl ⟨rfl, h1⟩⟩
  | one b =>
    have h1 := (h.cref w (.thr t)).2 (show (s.pc t).cc = some w by rw [hp]; cases g <;> first | rfl | exact absurd rfl hg)
    exact ⟨fun he => by rw [he, hr.1.2] at h1; simp at h1, .inr ⟨rfl, h1⟩⟩
  | all b =>
    have h1 := (h.cref w (.thr t)).2 (show (s.pc t).cc = some w by rw [hp]; cases g <;> first | rfl | exact absurd rfl hg)
    exact ⟨fun he => by rw [he, hr.1.2] at h1; simp at h1, .inr ⟨rfl, h1⟩⟩

theorem Ok.parks {s : St} {v : Cv} {w : Nat} (h : Ok s v w) (hf : s.fib w = true) (hs : (s.pc w).self (s.fib w) = false)
    (hr : s.mref w ≠ none ∨ s.cref w ≠ none) : (s.pc w).park = true := by
  rw [Ok] at h
  rw [hf] at hs
  have k1 : NoM s w → NoC s w → False := fun h1 h2 => by
    rcases hr with hr | hr
    · exact hr h1.2
    · exact hr h2.2
  have k2 : NoM s w → CDone s v w → False := fun h1 h2 => by
    rcases hr with hr | hr
    · exact hr h1.2
    · exact hr h2.2
  cases hp : s.pc w with
  | parked x =>
    cases x with
    | dir r => rw [hp] at h; simp only [OkAt] at h; exact (k1 h.2.2.2.1 h.2.2.2.2.1).elim
    | _ => rfl
  | susp x => rw [hp] at hs; simp [Pc.self] at hs
  | swap x => rw [hp] at hs; simp [Pc.self] at hs
  | fwait x st => rw [hp] at h; cases x <;> simp only [OkAt] at h <;> grind
  | fasleep x st => rw [hp] at h; cases x <;> simp only [OkAt] at h <;> grind
  | fcheck x st => rw [hp] at h; cases x <;> simp only [OkAt] at h <;> grind
  | ul u => rw [hp] at h hs; cases u <;> simp [OkAt, UOk, Pc.self, U.wait?] at h hs; exact (k1 h.2.1 h.2.2.1).elim
  | sub u p => rw [hp] at h hs; cases u <;> simp [OkAt, UOk, Pc.self, U.wait?] at h hs; exact (k1 h.2.1 h.2.2.1).elim
  | usl u p => rw [hp] at h hs; cases u <;> simp [OkAt, UOk, Pc.self, U.wait?] at h hs; exact (k1 h.2.1 h.2.2.1).elim
  | wake u p => rw [hp] at h hs; cases u <;> simp [OkAt, UOk, Pc.self, U.wait?] at h hs; exact (k1 h.2.1 h.2.2.1).elim
  | urel u p x => rw [hp] at h hs; cases u <;> simp [OkAt, UOk, Pc.self, U.wait?] at h hs; exact (k1 h.2.1 h.2.2.1).elim
  | res g r x =>
    rw [hp] at h hs
    simp only [OkAt] at h
    cases r with
    | unlock u p => cases u <;> simp [UOk, ROk, Pc.self, R.wait?, U.wait?] at h hs; exact (k1 h.2.1 h.2.2.1.1).elim
    | one b => exact (k1 h.2.1 h.2.2.1.1).elim
    | all b => exact (k1 h.2.1 h.2.2.1.1).elim
  | st k => rw [hp] at h; simp only [OkAt] at h; rw [hf] at h; simp at h
  | rel k st => rw [hp] at hs; simp [Pc.self] at hs
  | cadd a => rw [hp] at hs; simp [Pc.self] at hs
  | ctimer => rw [hp] at hs; simp [Pc.self] at hs
  | cpost a g => rw [hp] at hs; simp [Pc.self] at hs
  | pst a => rw [hp] at h; simp only [OkAt] at h; rw [hf] at h; simp at h
  | _ => rw [hp] at h; simp only [OkAt] at h; grind

/-- A parked fiber that somebody is about to resume. -/
theorem Ok.asleep {s : St} {v : Cv} {w : Nat} (h : Ok s v w) (hp : (s.pc w).park = true)
    (hr : s.mref w ≠ none ∨ s.cref w ≠ none) :
    s.fib w = true ∧ s.rdy w = false ∧
      ((∃ k, s.pc w = .parked (.mx k) ∧ NoC s w ∧ KOk v w k ∧ w ∉ s.mq ∧ s.mref w ≠ none) ∨
       (∃ a g, s.pc w = .parked (.cv a g) ∧ NoM s w ∧ Hit s v w ∧ s.cref w ≠ none)) := by
  rw [Ok] at h
  cases hpc : s.pc w with
  | parked x =>
    rw [hpc] at h hp
    cases x with
    | mx k =>
      obtain ⟨h1, h2, h3, h4⟩ := h
      rcases h4 with ⟨h4, h5⟩ | ⟨-, -, h5⟩
      · refine ⟨h1, h4, .inl ⟨k, rfl, h2, h3, ?_⟩⟩
        rcases h5 with ⟨h5, h6⟩ | h5
        · rcases hr with hr | hr
          · exact absurd h6 hr
          · exact absurd h2.2 hr
        · exact h5
      · rcases hr with hr | hr
        · exact absurd h5.2 hr
        · exact absurd h2.2 hr
    | cv a g =>
      obtain ⟨h1, h2, h3⟩ := h
      rcases h3 with ⟨h4, h5⟩ | ⟨-, -, h5⟩
      · refine ⟨h1, h4, .inr ⟨a, g, rfl, h2, ?_⟩⟩
        rcases h5 with ⟨-, -, h6, -⟩ | h5
        · rcases hr with hr | hr
          · exact absurd h2.2 hr
          · exact absurd h6 hr
        · exact h5
      · rcases hr with hr | hr
        · exact absurd h2.2 hr
        · exact absurd h5.2 hr
    | dir r => simp [Pc.park] at hp
  | _ => rw [hpc] at hp; simp [Pc.park] at hp

theorem Pc.mc_res {g : Stage} {r : R} {w : Nat} (h : g ≠ .fsys) : Pc.mc (.res g r w) = if r.mx? then some w else none := by
  cases g <;> cases r <;> first | rfl | exact absurd rfl h

theorem Pc.cc_res {g : Stage} {r : R} {w : Nat} (h : g ≠ .fsys) : Pc.cc (.res g r w) = if r.mx? then none else some w := by
  cases g <;> cases r <;> first | rfl | exact absurd rfl h

theorem Pc.cur_res {g g' : Stage} {r : R} {w : Nat} : Pc.cur (.res g r w) = Pc.cur (.res g' r w) := by
  cases g <;> cases g' <;> cases r <;> rfl

/-- From one stage to the next, when it changes nothing. -/
theorem Inv.stage {s : St} {l : Lk} {v : Cv} {t w : Nat} {r : R} {g : Stage} (h : Inv s l v) (hp : s.pc t = .res .look r w)
    (hg : g = .rlock ∨ g = .dlock ∨ g = .fadd) (hs : SOk s t r w g) : Good (s.to t (.res g r w)) [] l v := by
  have hk := h.ok t
  rw [Ok, hp] at hk
  apply Good.nil
  have hpc : (s.to t (.res g r w)).pc = upd s.pc t (.res g r w) := rfl
  have hok : Ok (s.to t (.res g r w)) v t := by rw [Ok, hpc, upd_same]; exact ⟨hk.1, hk.2.1, hk.2.2.1, by cases g <;> exact hs⟩
  rcases hg with hg | hg | hg <;> subst hg <;> cases r
  all_goals
    easy h hp hpc
    case ok => exact hok

theorem Inv.lookStep {s : St} {l : Lk} {v : Cv} {t w c : Nat} {r : R} (h : Inv s l v) (hp : s.pc t = .res .look r w) :
    Good (threadStep s t c).1 (threadStep s t c).2 l v := by
  have hk := h.ok t
  rw [Ok, hp] at hk
  have hr := hk.2.2.1
  cases hf : s.fib w
  · have he : threadStep s t c = (s.to t (.res .fadd r w), []) := by simp [threadStep, hp, hf]
    rw [he]; exact h.stage hp (by simp) hf
  · cases r with
    | unlock u p =>
      by_cases hc : p = false ∧ s.fib t = true ∧ c = 1
      · have he : threadStep s t c = (s.to t (.res .dlock (.unlock u p) w), []) := by simp only [threadStep, hp, hf, if_true, if_pos hc]
        have hu : u = .user := by
          cases u with
          | user => rfl
          | wait a g st => have := hr.2 hc.2.1 rfl; rw [hc.1] at this; simp at this
        rw [he]; exact h.stage hp (by simp) ⟨hf, hc.2.1, by rw [hu, hc.1]⟩
      · have he : threadStep s t c = (s.to t (.res .rlock (.unlock u p) w), []) := by simp only [threadStep, hp, hf, if_true, if_neg hc]
        rw [he]; exact h.stage hp (by simp) hf
    | one b =>
      have he : threadStep s t c = (s.to t (.res .rlock (.one b) w), []) := by simp [threadStep, hp, hf]
      rw [he]; exact h.stage hp (by simp) hf
    | all b =>
      have he : threadStep s t c = (s.to t (.res .rlock (.all b) w), []) := by simp [threadStep, hp, hf]
      rw [he]; exact h.stage hp (by simp) hf

/-- The fiber whose lock is free is parked. -/
theorem Inv.parks {s : St} {l : Lk} {v : Cv} {w : Nat} (h : Inv s l v) (hf : s.fib w = true) (h0 : s.slk w = none)
    (hr : s.mref w ≠ none ∨ s.cref w ≠ none) : (s.pc w).park = true := by
  refine (h.ok w).parks hf ?_ hr
  cases hs : (s.pc w).self (s.fib w)
  · rfl
  · have := (h.slk w (.thr w)).2 (.inl ⟨rfl, hs⟩)
    rw [h0] at this; simp at this

theorem held_ref {s : St} {w t : Nat} {r : R} (hh : r.mx? = true ∧ s.mref w = some (.thr t) ∨ r.mx? = false ∧ s.cref w = some (.thr t)) :
    s.mref w ≠ none ∨ s.cref w ≠ none := by
  rcases hh with ⟨-, h⟩ | ⟨-, h⟩
  · left; rw [h]; simp
  · right; rw [h]; simp

/-- `Resume` gets the lock of the fiber. -/
theorem Inv.lockStage {s : St} {l : Lk} {v : Cv} {t w : Nat} {r : R} {g g' : Stage} (h : Inv s l v) (hp : s.pc t = .res g r w)
    (hg : g = .rlock ∧ g' = .rset ∨ g = .dlock ∧ g' = .dset) (h0 : s.slk w = none) :
    Good { s.to t (.res g' r w) with slk := upd s.slk w (some (.thr t)) } [] l v := by
  have hk := h.ok t
  rw [Ok, hp] at hk
  have hh := h.held hp (by rcases hg with hg | hg <;> simp [hg.1])
  apply Good.nil
  have hpc : ({ s.to t (.res g' r w) with slk := upd s.slk w (some (.thr t)) } : St).pc = upd s.pc t (.res g' r w) := rfl
  have hf : s.fib w = true := by rcases hg with hg | hg <;> (rw [hg.1] at hk; first | exact hk.2.2.2 | exact hk.2.2.2.1)
  have hpark := h.parks hf h0 (held_ref hh.2)
  have hok : Ok { s.to t (.res g' r w) with slk := upd s.slk w (some (.thr t)) } v t := by
    rw [Ok, hpc, upd_same]
    exact ⟨hk.1, hk.2.1, hk.2.2.1, by rcases hg with ⟨h1, h2⟩ | ⟨h1, h2⟩ <;> (rw [h1] at hk; rw [h2]; exact hk.2.2.2)⟩
  have hS : PSlk { s.to t (.res g' r w) with slk := upd s.slk w (some (.thr t)) } := by
    refine PSlk.takeOf h.slk h0 rfl (hh_ne hpc rfl) ?_ ?_ ?_ rfl rfl
    · rw [hpc, upd_same, hp]; rfl
    · rw [hp]; rcases hg with ⟨h1, h2⟩ | ⟨h1, h2⟩ <;> rw [h1] <;> rfl
    · rw [hpc, upd_same]; rcases hg with ⟨h1, h2⟩ | ⟨h1, h2⟩ <;> rw [h2] <;> rfl
  have hl : Lnk { s.to t (.res g' r w) with slk := upd s.slk w (some (.thr t)) } t := by
    rw [Lnk, hpc, upd_same]
    have hw : (upd s.pc t (.res g' r w) w).park = true := by rw [upd_ne _ _ hh.1]; exact hpark
    rcases hg with ⟨h1, h2⟩ | ⟨h1, h2⟩ <;> (rw [h2] at hw ⊢; exact hw)
  rcases hg with ⟨h1, h2⟩ | ⟨h1, h2⟩ <;> subst h1 <;> subst h2 <;> cases r
  all_goals
    easy h hp hpc
    case ok => exact hok
    case slk => exact hS
    case lnk => exact hl

/-- A parked fiber whose state is changed. -/
theorem parked_fst {s s' : St} {v : Cv} {w : Nat} (h : Ok s v w) (hp : (s.pc w).park = true)
    (hr : s.mref w ≠ none ∨ s.cref w ≠ none) (hpc : s'.pc w = s.pc w) (hf : s'.fib = s.fib) (h1 : s'.rdy = s.rdy)
    (h2 : s'.mq = s.mq) (h3 : s'.cq = s.cq) (h4 : s'.mref = s.mref) (h5 : s'.cref = s.cref) (h6 : s'.sat = s.sat) : Ok s' v w := by
  have hh := h.asleep hp hr
  rw [Ok, hpc]
  rcases hh with ⟨k1, k2, ⟨k, k3, k4, k5, k6, k7⟩ | ⟨a, g, k3, k4, k5, k6⟩⟩
  · rw [k3]
    refine ⟨by rw [hf]; exact k1, ?_, k5, .inl ⟨by rw [h1]; exact k2, .inr ⟨by rw [h2]; exact k6, by rw [h4]; exact k7⟩⟩⟩
    simp only [NoC, h3, h5]; exact k4
  · rw [k3]
    refine ⟨by rw [hf]; exact k1, ?_, .inl ⟨by rw [h1]; exact k2, .inr ⟨?_, by rw [h5]; exact k6⟩⟩⟩
    · simp only [NoM, h2, h4]; exact k4
    · simp only [Hit, h6, h3]; exact k5

/-- `Resume` sets the state of the fiber and gives its lock back. -/
theorem Inv.setStage {s : St} {l : Lk} {v : Cv} {t w : Nat} {r : R} {g g' : Stage} {f : FState} (h : Inv s l v)
    (hp : s.pc t = .res g r w) (hg : g = .rset ∧ g' = .rpush ∧ f = .ready ∨ g = .dset ∧ g' = .dswap ∧ f = .running) :
    Good { s.to t (.res g' r w) with fst := upd s.fst w f, slk := upd s.slk w none } [] l v := by
  have hk := h.ok t
  rw [Ok, hp] at hk
  have hh := h.held hp (by rcases hg with hg | hg <;> simp [hg.1])
  apply Good.nil
  have hpc : ({ s.to t (.res g' r w) with fst := upd s.fst w f, slk := upd s.slk w none } : St).pc = upd s.pc t (.res g' r w) := rfl
  have hpark : (s.pc w).park = true := by
    have := h.lnk t
    rw [Lnk, hp] at this
    rcases hg with ⟨h1, h2⟩ | ⟨h1, h2⟩ <;> (rw [h1] at this; exact this)
  have hgf : g ≠ .fsys ∧ g' ≠ .fsys := by rcases hg with ⟨h1, h2, -⟩ | ⟨h1, h2, -⟩ <;> simp [h1, h2]
  refine h.build (t := t) (x := w) ⟨fun x hx => by rw [hpc, upd_ne _ _ hx], ?_, rfl, .inl (by rw [hp]; rfl),
    fun r' y hy => ?_, by rw [hpc, upd_same, hp]; exact Pc.cur_res, fun _ => h.small t (by simp [hp]), .inr (.inr ?_)⟩
    ⟨rfl, rfl, rfl, rfl, rfl⟩ ?_ ?_ ?_ (Fs.none (by rw [hpc, upd_same]) (by simp)) ?_
    (PSlow.keep h.slow hpc rfl (by rw [hp]; rfl)) ?_
    (PM.keep h.mref hpc rfl (by rw [hp, Pc.mc_res hgf.1, Pc.mc_res hgf.2]))
    (PC.keep h.cref hpc rfl (by rw [hp, Pc.cc_res hgf.1, Pc.cc_res hgf.2]) rfl rfl)
    (PL.keep h.pl hpc rfl rfl (by rw [hp]; rfl) (by rw [hp]; rfl) (by rw [hp]; rfl) (by rw [hp]; rfl)) (h.pv.keep rfl rfl rfl rfl)
  · intro x hx hxw
    constructor <;> first | rfl | (simp [St.to, upd, hx, hxw]; done) | exact id | exact fun h _ => h | exact fun _ => rfl
  · rw [hp] at hy; injection hy with hy; exact absurd hy hgf.1
  · rcases hh.2 with ⟨-, h1⟩ | ⟨-, h1⟩
    · exact .inl h1
    · exact .inr h1
  · rw [Ok, hpc, upd_same]
    refine ⟨⟨?_, hk.1.2⟩, hk.2.1, hk.2.2.1, ?_⟩
    · show upd _ _ _ _ = _; rw [upd_ne _ _ hh.1.symm]; exact hk.1.1
    · rcases hg with ⟨h1, h2, -⟩ | ⟨h1, h2, -⟩ <;> (rw [h1] at hk; rw [h2]; exact hk.2.2.2)
  · intro _
    exact parked_fst (h.ok w) hpark (held_ref hh.2) (by rw [hpc, upd_ne _ _ hh.1]) rfl rfl rfl rfl rfl rfl rfl
  · rw [Lnk, hpc, upd_same]
    have hw : (upd s.pc t (.res g' r w) w).park = true := by rw [upd_ne _ _ hh.1]; exact hpark
    rcases hg with ⟨h1, h2, h3⟩ | ⟨h1, h2, h3⟩ <;> (rw [h2] at hw ⊢; exact ⟨hw, by show upd _ _ _ _ = _; rw [upd_same, h3]⟩)
  · intro _
    refine Fs.none (p := s.pc w) (by rw [hpc, upd_ne _ _ hh.1]) ?_
    intro x st hx
    rw [hx] at hpark; simp [Pc.park] at hpark
  · refine PSlk.dropOf h.slk (t := t) (x := w) ?_ rfl hh.1 (hh_ne hpc rfl) ?_ ?_ rfl rfl
    · rw [hp]; rcases hg with ⟨h1, h2⟩ | ⟨h1, h2⟩ <;> rw [h1] <;> rfl
    · rw [hpc, upd_same, hp]; rfl
    · rw [hpc, upd_same]; rcases hg with ⟨h1, h2, -⟩ | ⟨h1, h2, -⟩ <;> rw [h2] <;> rfl

/-- What the position after `Resume` or `Wake` means. -/
structure Done (fib : Bool) (r : R) (p : Pc) : Prop where
  hs : p.hs = false
  self : p.self fib = (fib && r.wait?)
  rs : p.rs = none
  mc : p.mc = none
  cc : p.cc = none
  ow : p.ow = r.own
  qd : p.qd = false
  pre : p.pre = false
  duty : p.duty = false
  cur : p.cur = Pc.cur (.res .look r 0)
  lnk : ∀ g r w, p ≠ .res g r w
  fs : ∀ w st, p ≠ .fasleep w st

theorem resumed_done {s : St} {v : Cv} {t : Nat} {r : R} (h : ROk s v t r) : Done (s.fib t) r (resumed s t r) := by
  cases r with
  | unlock u p =>
    have c := unlocked_idle h.1
    exact ⟨c.hs, c.self, c.rs, c.mc, c.cc, c.ow, c.qd, c.pre, c.duty, c.cur, c.lnk, c.fs⟩
  | one b => cases b <;> cases s.fib t <;> constructor <;> simp [resumed, Pc.hs, Pc.self, R.wait?, Pc.rs, Pc.mc, Pc.cc, Pc.ow, R.own, Pc.qd, Pc.pre, Pc.duty, Pc.cur]
  | all b => cases b <;> cases s.fib t <;> constructor <;> simp [resumed, Pc.hs, Pc.self, R.wait?, Pc.rs, Pc.mc, Pc.cc, Pc.ow, R.own, Pc.qd, Pc.pre, Pc.duty, Pc.cur]

theorem swapped_done (f : Bool) : Done f (.unlock .user false) (.swapped (.unlock .user false)) := by
  constructor <;> simp [Pc.hs, Pc.self, R.wait?, U.wait?, Pc.rs, Pc.mc, Pc.cc, Pc.ow, R.own, Pc.qd, Pc.pre, Pc.duty, Pc.cur, U.cur]

theorem resumed_ok {s s0 : St} {v : Cv} {t : Nat} {r : R} (hp : s.pc t = resumed s0 t r) (hf : s.fib = s0.fib) (hr : Run s t)
    (hm : NoM s t) (hu : ROk s v t r) : Ok s v t := by
  cases r with
  | unlock u p => exact unlocked_ok hp hf hr hm hu.1
  | one b => rw [Ok, hp]; cases b <;> exact ⟨hr, hm, hu.1, hu.2⟩
  | all b => rw [Ok, hp]; cases b <;> exact ⟨hr, hm, hu.1, hu.2, by simp⟩

/-- The state after the fiber `w` was put into the run queue by `t`. -/
def pushed (s : St) (t w : Nat) (r : R) (p : Pc) : St :=
  { s with pc := upd s.pc t p, fst := upd s.fst w .ready, rdy := upd s.rdy w true,
           mref := if r.mx? then upd s.mref w none else s.mref, cref := if r.mx? then s.cref else upd s.cref w none }

theorem Inv.pushStage {s : St} {l : Lk} {v : Cv} {t w : Nat} {r : R} {g : Stage} {p : Pc} (h : Inv s l v)
    (hp : s.pc t = .res g r w) (hg : g = .rpush ∨ g = .dswap) (c : Done (s.fib t) r p)
    (hok : w ≠ t → Ok (pushed s t w r p) v t) : s.rdy w = false ∧ Inv (pushed s t w r p) l v := by
  have hk := h.ok t
  rw [Ok, hp] at hk
  have hgf : g ≠ .fsys := by rcases hg with h1 | h1 <;> simp [h1]
  have hh := h.held hp hgf
  have hpc : (pushed s t w r p).pc = upd s.pc t p := rfl
  have hpark : (s.pc w).park = true := by
    have := h.lnk t
    rw [Lnk, hp] at this
    rcases hg with h1 | h1 <;> (rw [h1] at this; exact this.1)
  have ha := (h.ok w).asleep hpark (held_ref hh.2)
  refine ⟨ha.2.1, ?_⟩
  have hw : s.mref w = some (.thr t) ∧ r.mx? = true ∨ s.cref w = some (.thr t) ∧ r.mx? = false := by
    rcases hh.2 with ⟨h1, h2⟩ | ⟨h1, h2⟩
    · exact .inl ⟨h2, h1⟩
    · exact .inr ⟨h2, h1⟩
  refine h.build (t := t) (x := w) ⟨fun x hx => by rw [hpc, upd_ne _ _ hx], ?_, rfl, .inl (by rw [hp]; rfl),
    fun r' y hy => ?_, by rw [hpc, upd_same, hp, c.cur]; cases r <;> cases g <;> rfl, fun _ => h.small t (by simp [hp]), .inr (.inr ?_)⟩
    ⟨rfl, rfl, rfl, rfl, rfl⟩ (hok hh.1) ?_ (Lnk.none (by rw [hpc, upd_same]) c.lnk) (Fs.none (by rw [hpc, upd_same]) c.fs) ?_
    (PSlow.keep h.slow hpc rfl (by rw [hp, c.hs]; rfl))
    (PSlk.keep h.slk hpc rfl rfl (by rw [hp, c.self]; rfl) (by rw [hp, c.rs]; rcases hg with h1 | h1 <;> rw [h1] <;> rfl) rfl rfl) ?_ ?_
    (PL.keep h.pl hpc rfl rfl (by rw [hp, c.ow]; rfl) (by rw [hp, c.qd]; rfl) (by rw [hp, c.pre]; rfl) (by rw [hp, c.duty]; rfl))
    (h.pv.keep rfl rfl rfl rfl)
  · intro x hx hxw
    constructor <;> first | rfl | (simp [pushed, upd, hx, hxw]; done) | exact id | exact fun h _ => h | exact fun _ => rfl | skip
    · show (if _ then _ else _ : Nat → Option Who) x = _; split <;> simp [upd, hxw]
    · show (if _ then _ else _ : Nat → Option Who) x = _; split <;> simp [upd, hxw]
  · rw [hp] at hy; injection hy with hy; exact absurd hy hgf
  · rcases hh.2 with ⟨-, h1⟩ | ⟨-, h1⟩
    · exact .inl h1
    · exact .inr h1
  · intro _
    rw [Ok, hpc, upd_ne _ _ hh.1]
    have hrd : (pushed s t w r p).rdy w = true := by show upd _ _ _ _ = _; rw [upd_same]
    have hft : (pushed s t w r p).fst w = .ready := by show upd _ _ _ _ = _; rw [upd_same]
    rcases ha with ⟨k1, k2, ⟨k, k3, k4, k5, k6, k7⟩ | ⟨a, g', k3, k4, k5, k6⟩⟩
    · rw [k3]
      have hmx : r.mx? = true := by
        rcases hw with ⟨-, h1⟩ | ⟨h1, -⟩
        · exact h1
        · rw [k4.2] at h1; simp at h1
      exact ⟨k1, ⟨k4.1, by simp [pushed, hmx, k4.2]⟩, k5, .inr ⟨hrd, hft, k6, by simp [pushed, hmx]⟩⟩
    · rw [k3]
      have hmx : r.mx? = false := by
        rcases hw with ⟨h1, -⟩ | ⟨-, h1⟩
        · rw [k4.2] at h1; simp at h1
        · exact h1
      exact ⟨k1, ⟨k4.1, by simp [pushed, hmx, k4.2]⟩, .inr ⟨hrd, hft, k5, by simp [pushed, hmx]⟩⟩
  · intro _
    refine Fs.none (p := s.pc w) (by rw [hpc, upd_ne _ _ hh.1]) ?_
    intro x st hx
    rw [hx] at hpark; simp [Pc.park] at hpark
  · cases hmx : r.mx?
    · exact PM.keep h.mref hpc (by simp [pushed, hmx]) (by rw [hp, c.mc, Pc.mc_res hgf, hmx]; rfl)
    · exact PM.drop h.mref (t := t) (x := w) (by rw [hp, Pc.mc_res hgf, hmx]; rfl) (by simp [pushed, hmx]) (mc_ne hpc)
        (by rw [hpc, upd_same, c.mc])
  · cases hmx : r.mx?
    · exact PC.drop h.cref (t := t) (x := w) (by rw [hp, Pc.cc_res hgf, hmx]; rfl) (by simp [pushed, hmx]) (cc_ne hpc)
        (by rw [hpc, upd_same, c.cc]) rfl rfl
    · exact PC.keep h.cref hpc (by simp [pushed, hmx]) (by rw [hp, c.cc, Pc.cc_res hgf, hmx]; rfl) rfl rfl

theorem pushed_run {s : St} {t w : Nat} {r : R} {p : Pc} (hw : w ≠ t) (h : Run s t) : Run (pushed s t w r p) t :=
  ⟨by show upd _ _ _ _ = _; rw [upd_ne _ _ hw.symm]; exact h.1, by show upd _ _ _ _ = _; rw [upd_ne _ _ hw.symm]; exact h.2⟩

theorem pushed_nom {s : St} {t w : Nat} {r : R} {p : Pc} (hw : w ≠ t) (h : NoM s t) : NoM (pushed s t w r p) t :=
  ⟨h.1, by show (if _ then _ else _ : Nat → Option Who) t = _; split <;> simp [upd, hw.symm, h.2]⟩

theorem pushed_cref {s : St} {t w : Nat} {r : R} {p : Pc} (hw : w ≠ t) : (pushed s t w r p).cref t = s.cref t := by
  show (if _ then _ else _ : Nat → Option Who) t = _; split <;> simp [upd, hw.symm]

theorem pushed_rok {s : St} {v : Cv} {t w : Nat} {r : R} {p : Pc} (hw : w ≠ t) (h : ROk s v t r) : ROk (pushed s t w r p) v t r := by
  have hc := pushed_cref (s := s) (r := r) (p := p) hw
  cases r with
  | unlock u q =>
    refine ⟨?_, h.2⟩
    cases u with
    | user => exact ⟨⟨h.1.1.1, by rw [hc]; exact h.1.1.2⟩, h.1.2⟩
    | wait a g st =>
      have h1 := h.1
      simp only [UOk] at h1 ⊢
      simp only [CSt, PSt, hc]
      exact h1
  | one b => exact ⟨⟨h.1.1, by rw [hc]; exact h.1.2⟩, h.2⟩
  | all b => exact ⟨⟨h.1.1, by rw [hc]; exact h.1.2⟩, h.2⟩

theorem Inv.rpushStep {s : St} {l : Lk} {v : Cv} {t w c : Nat} {r : R} (h : Inv s l v) (hp : s.pc t = .res .rpush r w) :
    Good (threadStep s t c).1 (threadStep s t c).2 l v := by
  have hk := h.ok t
  rw [Ok, hp] at hk
  have hfst : s.fst w = .ready := by have := h.lnk t; rw [Lnk, hp] at this; exact this.2
  have key := h.pushStage hp (.inl rfl) (resumed_done hk.2.2.1)
    (fun hw => resumed_ok (s0 := s) (by show upd _ _ _ _ = _; rw [upd_same]) rfl (pushed_run hw hk.1) (pushed_nom hw hk.2.1)
      (pushed_rok hw hk.2.2.1))
  have he : threadStep s t c = (pushed s t w r (resumed s t r), []) := by
    simp only [threadStep, hp, push, key.1, Bool.false_eq_true, if_false, pushed, St.to]
    rw [upd_self hfst]
    cases r <;> rfl
  rw [he]
  exact .nil key.2

/-! ## Running a fiber -/

theorem Inv.runParked {s : St} {l : Lk} {v : Cv} {t : Nat} {w : W} (h : Inv s l v) (hp : s.pc t = .parked w) (hr : s.rdy t = true) :
    s.fst t = .ready ∧ Good { s.to t (after s t w) with rdy := upd s.rdy t false, fst := upd s.fst t .running } [] l v := by
  have hk := h.ok t
  rw [Ok, hp] at hk
  have hpc : ({ s.to t (after s t w) with rdy := upd s.rdy t false, fst := upd s.fst t .running } : St).pc = upd s.pc t (after s t w) := rfl
  have hrun : Run { s.to t (after s t w) with rdy := upd s.rdy t false, fst := upd s.fst t .running } t :=
    ⟨by show upd _ _ _ _ = _; rw [upd_same], by show upd _ _ _ _ = _; rw [upd_same]⟩
  cases w with
  | mx k =>
    obtain ⟨h1, h2, h3, h4⟩ := hk
    rcases h4 with ⟨h4, -⟩ | ⟨-, h4, h5⟩
    · rw [hr] at h4; simp at h4
    refine ⟨h4, .nil ?_⟩
    have hpc' : ({ s.to t (.check k) with rdy := upd s.rdy t false, fst := upd s.fst t .running } : St).pc = upd s.pc t (.check k) := rfl
    show Inv { s.to t (.check k) with rdy := upd s.rdy t false, fst := upd s.fst t .running } l v
    easy h hp hpc'
    case run => exact .inr ⟨h5.2, h2.2⟩
    case cur => rw [hp]; rfl
    case ok => rw [Ok, hpc', upd_same]; exact ⟨h1, hrun, h5, h2, h3⟩
  | cv a g =>
    obtain ⟨h1, h2, h4⟩ := hk
    rcases h4 with ⟨h4, -⟩ | ⟨-, h4, h5⟩
    · rw [hr] at h4; simp at h4
    refine ⟨h4, .nil ?_⟩
    have hpc' : ({ s.to t (.crem a g) with rdy := upd s.rdy t false, fst := upd s.fst t .running } : St).pc = upd s.pc t (.crem a g) := rfl
    show Inv { s.to t (.crem a g) with rdy := upd s.rdy t false, fst := upd s.fst t .running } l v
    easy h hp hpc'
    case run => exact .inr ⟨h2.2, h5.2⟩
    case cur => rw [hp]; cases a <;> rfl
    case ok => rw [Ok, hpc', upd_same]; exact ⟨h1, hrun, h2, h5⟩
  | dir r =>
    obtain ⟨h1, h2, h3, h4, h5, h6, h7⟩ := hk
    subst h7
    refine ⟨h3, .nil ?_⟩
    have hpc' : ({ s.to t .out with rdy := upd s.rdy t false, fst := upd s.fst t .running } : St).pc = upd s.pc t .out := rfl
    show Inv { s.to t .out with rdy := upd s.rdy t false, fst := upd s.fst t .running } l v
    easy h hp hpc'
    case cur => rw [hp]; rfl
    case ok => rw [Ok, hpc', upd_same]; exact ⟨hrun, h4, h5, h6⟩

theorem Inv.runStep {s : St} {l : Lk} {v : Cv} (h : Inv s l v) (t : Nat) : Good (runStep s t).1 (runStep s t).2 l v := by
  unfold Sync.runStep
  cases hr : s.rdy t
  · exact .nil h
  · simp only [if_true]
    cases hp : s.pc t with
    | parked w => have := h.runParked hp hr; rw [if_pos this.1]; exact this.2
    | _ =>
      have hk := h.ok t
      rw [Ok, hp] at hk
      exfalso
      first
        | (simp only [OkAt, Run, hr] at hk; grind)
        | (rename_i w; cases w <;> (simp only [OkAt, Run, hr] at hk; grind))
        | (rename_i w st; cases w <;> (simp only [OkAt, Run, hr] at hk; grind))

theorem Inv.dswapStep {s : St} {l : Lk} {v : Cv} {t w c : Nat} {r : R} (h : Inv s l v) (hp : s.pc t = .res .dswap r w) :
    Good (threadStep s t c).1 (threadStep s t c).2 l v := by
  have hk := h.ok t
  rw [Ok, hp] at hk
  have hr : r = .unlock .user false := hk.2.2.2.2.2
  have hh := h.held hp (by simp)
  have hl : (s.pc w).park = true ∧ s.fst w = .running := by have := h.lnk t; rw [Lnk, hp] at this; exact this
  have ha := (h.ok w).asleep hl.1 (held_ref hh.2)
  have key := h.pushStage hp (.inr rfl) (p := .swapped r) (by rw [hr]; exact swapped_done _)
    (fun hw => by
      rw [Ok, show (pushed s t w r (.swapped r)).pc t = .swapped r by show upd _ _ _ _ = _; rw [upd_same]]
      have := pushed_rok (p := .swapped r) hw hk.2.2.1
      rw [hr] at this ⊢
      exact ⟨hk.2.2.2.2.1, pushed_run hw hk.1, pushed_nom hw hk.2.1, this.1.1, this.1.2, rfl⟩)
  have hpw : ∃ x, s.pc w = .parked x := by
    cases hx : s.pc w with
    | parked x => exact ⟨x, rfl⟩
    | _ => rw [hx] at hl; simp [Pc.park] at hl
  obtain ⟨x, hx⟩ := hpw
  have h2 := key.2.runParked (t := w) (w := x) (by show upd _ _ _ _ = _; rw [upd_ne _ _ hh.1]; exact hx)
    (by show upd _ _ _ _ = _; rw [upd_same])
  have he : threadStep s t c =
      ({ (pushed s t w r (.swapped r)).to w (after (pushed s t w r (.swapped r)) w x) with
          rdy := upd (pushed s t w r (.swapped r)).rdy w false, fst := upd (pushed s t w r (.swapped r)).fst w .running }, []) := by
    have e1 : upd (upd s.rdy w true) w false = s.rdy := by
      funext u; by_cases hu : u = w
      · subst hu; rw [upd_same, ha.2.1]
      · rw [upd_ne _ _ hu, upd_ne _ _ hu]
    have e2 : upd (upd s.fst w .ready) w .running = s.fst := by
      funext u; by_cases hu : u = w
      · subst hu; rw [upd_same, hl.2]
      · rw [upd_ne _ _ hu, upd_ne _ _ hu]
    simp only [threadStep, hp, hx, pushed, St.to, e1, e2, hr, R.mx?, if_true]
    cases x <;> rfl
  rw [he]
  exact h2.2

theorem Inv.swappedStep {s : St} {l : Lk} {v : Cv} {t : Nat} {r : R} (h : Inv s l v) (hp : s.pc t = .swapped r) :
    Good (({ (push s t).1 with fst := upd s.fst t .ready }).to t (.parked (.dir r))) (push s t).2 l v := by
  have hk := h.ok t
  rw [Ok, hp] at hk
  obtain ⟨h1, h2, h3, h4, h5, h6⟩ := hk
  simp only [push, h2.2, Bool.false_eq_true, if_false]
  apply Good.nil
  have hpc : (({ s with rdy := upd s.rdy t true, fst := upd s.fst t .ready } : St).to t (.parked (.dir r))).pc = upd s.pc t (.parked (.dir r)) := rfl
  easy h hp hpc
  case ok =>
    rw [Ok, hpc, upd_same]
    exact ⟨h1, by show upd _ _ _ _ = _; rw [upd_same], by show upd _ _ _ _ = _; rw [upd_same], h3, h4, h5, h6⟩
  case cur => rw [hp]; rfl

end Verif.Fiber.Sync
