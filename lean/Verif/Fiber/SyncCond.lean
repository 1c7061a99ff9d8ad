import Verif.Fiber.SyncResume
/-!
# Every step keeps the invariant: the condition variable
-/

namespace Verif.Fiber.Sync

/-- Something changes for a thread that stays where it is. -/
theorem Ok.map {s s' : St} {v v' : Cv} {u : Nat} (ho : Ok s v u) (hpc : s'.pc u = s.pc u) (hfib : s'.fib = s.fib)
    (hfst : s'.fst u = s.fst u) (hrdy : s'.rdy u = s.rdy u) (hpost : s'.post = s.post) (hsat : s.sat u = true → s'.sat u = true)
    (hnm : NoM s u → NoM s' u) (hnc : NoC s u → NoC s' u)
    (hst : u ∈ s.mq → s.mref u = none → s.mfut u = 0 → u ∈ s'.mq ∧ s'.mref u = none ∧ s'.mfut u = 0)
    (hms : s.fib u = true → MSt s u → MSt s' u) (hfm : s.fib u = false → FM s u → FM s' u)
    (hk : ∀ k, NoC s u → KOk v u k → KOk v' u k) (hph : NoC s u → v.ph u = .no → v'.ph u = .no)
    (hcst : s.fib u = true → CSt s v u → CSt s' v' u) (hdone : s.fib u = true → CDone s v u → CDone s' v' u)
    (hpst : s.fib u = false → ∀ st, PSt s v u st → PSt s' v' u st) (hpe : s.fib u = false → PEarly s v u → PEarly s' v' u) :
    Ok s' v' u := by
  have hrun : Run s' u ↔ Run s u := by simp [Run, hfst, hrdy]
  have hu : ∀ x, UOk s v u x → UOk s' v' u x := by
    intro x; cases x with
    | user => exact fun h => ⟨hnc h.1, hph h.1 h.2⟩
    | wait timed g st =>
      simp only [UOk, hfib]
      cases hf : s.fib u
      · simp only [Bool.false_eq_true, if_false]; exact fun h => ⟨h.1, hpst hf st h.2⟩
      · simp only [if_true]; exact hcst hf
  have hr : ∀ x, ROk s v u x → ROk s' v' u x := by
    intro x; cases x with
    | unlock x p => simp only [ROk, hfib]; exact fun h => ⟨hu x h.1, h.2⟩
    | one b => exact fun h => ⟨hnc h.1, hph h.1 h.2⟩
    | all b => exact fun h => ⟨hnc h.1, hph h.1 h.2⟩
  unfold Ok at *
  rw [hpc]
  unfold OkAt at *
  cases hp : s.pc u with
  | parked w => cases w <;> grind
  | susp w => cases w <;> grind
  | swap w => cases w <;> grind
  | fwait w st => cases w <;> grind
  | fasleep w st => cases w <;> grind
  | fcheck w st => cases w <;> grind
  | res g r w => cases g <;> grind [SOk]
  | ul x => grind
  | _ => grind

/-! ## `FutexNotifier::Wake` -/

theorem Inv.faddStep {s : St} {l : Lk} {v : Cv} {t w c : Nat} {r : R} (h : Inv s l v) (hp : s.pc t = .res .fadd r w) :
    Good (threadStep s t c).1 (threadStep s t c).2 l v := by
  have hk := h.ok t
  rw [Ok, hp] at hk
  have hf : s.fib w = false := hk.2.2.2
  have hh := h.held hp (by simp)
  have hwt := hh.1
  cases hmx : r.mx?
  · have hcw : s.cref w = some (.thr t) := by
      rcases hh.2 with ⟨h1, -⟩ | ⟨-, h1⟩
      · rw [hmx] at h1; simp at h1
      · exact h1
    have he : threadStep s t c = ({ s.to t (.res .fsys r w) with cfut := upd s.cfut w (s.cfut w + 2), cref := upd s.cref w none }, []) := by
      simp only [threadStep, hp]; cases r <;> first | rfl | simp [R.mx?] at hmx
    rw [he]
    apply Good.nil
    have hpc : ({ s.to t (.res .fsys r w) with cfut := upd s.cfut w (s.cfut w + 2), cref := upd s.cref w none } : St).pc = upd s.pc t (.res .fsys r w) := rfl
    have hnw : s.cref w ≠ none := by rw [hcw]; simp
    refine h.build (t := t) (x := w) ⟨fun x hx => by rw [hpc, upd_ne _ _ hx], ?_, rfl, .inl (by rw [hp]; rfl),
      by simp [hp], by rw [hpc, upd_same, hp]; exact Pc.cur_res, fun _ => h.small t (by simp [hp]), .inr (.inl rfl)⟩
      ⟨rfl, rfl, rfl, rfl, rfl⟩ ?_ ?_ (by rw [Lnk, hpc, upd_same]; trivial) (Fs.none (by rw [hpc, upd_same]) (by simp)) ?_
      (PSlow.keep h.slow hpc rfl (by rw [hp]; rfl)) (PSlk.keep h.slk hpc rfl rfl (by rw [hp]; rfl) (by rw [hp]; rfl) rfl rfl)
      (PM.keep h.mref hpc rfl (by rw [hp, Pc.mc_res (g := .fadd) (by simp), hmx]; rfl))
      (PC.drop h.cref (t := t) (x := w) (by rw [hp, Pc.cc_res (g := .fadd) (by simp), hmx]; rfl) rfl (cc_ne hpc) (by rw [hpc, upd_same]; rfl) rfl rfl)
      (PL.keep h.pl hpc rfl rfl (by rw [hp]; rfl) (by rw [hp]; rfl) (by rw [hp]; rfl) (by rw [hp]; rfl)) (h.pv.keep rfl rfl rfl rfl)
    · intro x hx hxw
      constructor <;> first | rfl | (simp [St.to, upd, hx, hxw]; done) | exact id | exact fun h _ => h | exact fun _ => rfl
    · rw [Ok, hpc, upd_same]
      have hct : upd s.cref w none t = s.cref t := upd_ne _ _ hwt.symm
      have hcf : upd s.cfut w (s.cfut w + 2) t = s.cfut t := upd_ne _ _ hwt.symm
      refine ⟨hk.1, hk.2.1, ?_, hf⟩
      have hR := hk.2.2.1
      cases r with
      | unlock u p => simp [R.mx?] at hmx
      | one b => exact ⟨⟨hR.1.1, hct.trans hR.1.2⟩, hR.2⟩
      | all b => exact ⟨⟨hR.1.1, hct.trans hR.1.2⟩, hR.2⟩
    · intro _
      have hcw' : upd s.cref w none w = none := upd_same _ _ _
      have hcf' : upd s.cfut w (s.cfut w + 2) w ≠ 0 := by rw [upd_same]; omega
      refine (h.ok w).map (by rw [hpc, upd_ne _ _ hwt]) rfl rfl rfl rfl id id ?_ (fun h1 h2 h3 => ⟨h1, h2, h3⟩) (fun _ => id) (fun _ => id)
        (fun _ _ => id) (fun _ => id) (fun h1 => ?_) (fun h1 => ?_) ?_ ?_
      · exact fun h1 => absurd h1.2 hnw
      · rw [hf] at h1; simp at h1
      · rw [hf] at h1; simp at h1
      · rintro - st (⟨-, h1, -⟩ | ⟨h1, h2, -, h4⟩ | ⟨-, h1, -⟩)
        · exact absurd h1 hnw
        · exact .inr (.inl ⟨h1, h2, .inr ⟨hcw', hcf'⟩, h4⟩)
        · exact absurd h1 hnw
      · rintro - (⟨-, h1, -⟩ | ⟨h1, -, h3⟩)
        · exact absurd h1 hnw
        · exact .inr ⟨h1, .inr hcw', h3⟩
    · intro _
      rw [Fs, hpc, upd_ne _ _ hwt]
      cases s.pc w with
      | fasleep x st => intro _; exact ⟨t, r, upd_same _ _ _⟩
      | _ => trivial
  · have hcw : s.mref w = some (.thr t) := by
      rcases hh.2 with ⟨-, h1⟩ | ⟨h1, -⟩
      · exact h1
      · rw [hmx] at h1; simp at h1
    have he : threadStep s t c = ({ s.to t (.res .fsys r w) with mfut := upd s.mfut w (s.mfut w + 2), mref := upd s.mref w none }, []) := by
      simp only [threadStep, hp]; cases r <;> first | rfl | simp [R.mx?] at hmx
    rw [he]
    apply Good.nil
    have hpc : ({ s.to t (.res .fsys r w) with mfut := upd s.mfut w (s.mfut w + 2), mref := upd s.mref w none } : St).pc = upd s.pc t (.res .fsys r w) := rfl
    have hnw : s.mref w ≠ none := by rw [hcw]; simp
    refine h.build (t := t) (x := w) ⟨fun x hx => by rw [hpc, upd_ne _ _ hx], ?_, rfl, .inl (by rw [hp]; rfl),
      by simp [hp], by rw [hpc, upd_same, hp]; exact Pc.cur_res, fun _ => h.small t (by simp [hp]), .inr (.inl rfl)⟩
      ⟨rfl, rfl, rfl, rfl, rfl⟩ ?_ ?_ (by rw [Lnk, hpc, upd_same]; trivial) (Fs.none (by rw [hpc, upd_same]) (by simp)) ?_
      (PSlow.keep h.slow hpc rfl (by rw [hp]; rfl)) (PSlk.keep h.slk hpc rfl rfl (by rw [hp]; rfl) (by rw [hp]; rfl) rfl rfl)
      (PM.drop h.mref (t := t) (x := w) (by rw [hp, Pc.mc_res (g := .fadd) (by simp), hmx]; rfl) rfl (mc_ne hpc) (by rw [hpc, upd_same]; rfl))
      (PC.keep h.cref hpc rfl (by rw [hp, Pc.cc_res (g := .fadd) (by simp), hmx]; rfl) rfl rfl)
      (PL.keep h.pl hpc rfl rfl (by rw [hp]; rfl) (by rw [hp]; rfl) (by rw [hp]; rfl) (by rw [hp]; rfl)) (h.pv.keep rfl rfl rfl rfl)
    · intro x hx hxw
      constructor <;> first | rfl | (simp [St.to, upd, hx, hxw]; done) | exact id | exact fun h _ => h | exact fun _ => rfl
    · rw [Ok, hpc, upd_same]
      have hct : upd s.mref w none t = s.mref t := upd_ne _ _ hwt.symm
      exact ⟨hk.1, ⟨hk.2.1.1, hct.trans hk.2.1.2⟩, hk.2.2.1, hf⟩
    · intro _
      have hcw' : upd s.mref w none w = none := upd_same _ _ _
      have hcf' : upd s.mfut w (s.mfut w + 2) w ≠ 0 := by rw [upd_same]; omega
      refine (h.ok w).map (by rw [hpc, upd_ne _ _ hwt]) rfl rfl rfl rfl id ?_ id (fun _ h2 => absurd h2 hnw) (fun h1 => ?_) ?_
        (fun _ _ => id) (fun _ => id) (fun _ => id) (fun _ => id) (fun _ _ => id) (fun _ => id)
      · exact fun h1 => absurd h1.2 hnw
      · rw [hf] at h1; simp at h1
      · rintro - (⟨-, h2⟩ | ⟨-, h2⟩)
        · rcases h2 with ⟨-, h2⟩ | ⟨h2, -⟩
          · exact absurd h2 hnw
          · exact .inr ⟨hcf', h2, hcw'⟩
        · exact absurd h2.2 hnw
    · intro _
      rw [Fs, hpc, upd_ne _ _ hwt]
      cases s.pc w with
      | fasleep x st => intro _; exact ⟨t, r, upd_same _ _ _⟩
      | _ => trivial

/-- The end of `Wake`. -/
theorem Inv.fsysEnd {s : St} {l : Lk} {v : Cv} {t w : Nat} {r : R} (h : Inv s l v) (hp : s.pc t = .res .fsys r w)
    (hn : ∀ x st, s.pc w ≠ .fasleep x st) : Inv (s.to t (resumed s t r)) l v := by
  have hk := h.ok t
  rw [Ok, hp] at hk
  have c := resumed_done hk.2.2.1
  have hpc : (s.to t (resumed s t r)).pc = upd s.pc t (resumed s t r) := rfl
  refine h.simple hpc ?_ rfl (.inl (by rw [hp]; rfl)) ?_ (by rw [c.cur, hp]; cases r <;> rfl) (by simp [hp]) ⟨rfl, rfl, rfl, rfl, rfl⟩ ?_
    (Lnk.none (by rw [hpc, upd_same]) c.lnk) (Fs.none (by rw [hpc, upd_same]) c.fs)
    (PSlow.keep h.slow hpc rfl (by rw [c.hs, hp]; rfl)) (PSlk.keep h.slk hpc rfl rfl (by rw [c.self, hp]; rfl) (by rw [c.rs, hp]; rfl) rfl rfl)
    (PM.keep h.mref hpc rfl (by rw [c.mc, hp]; cases r <;> rfl)) (PC.keep h.cref hpc rfl (by rw [c.cc, hp]; cases r <;> rfl) rfl rfl)
    (PL.keep h.pl hpc rfl rfl (by rw [c.ow, hp]; rfl) (by rw [c.qd, hp]; rfl) (by rw [c.pre, hp]; rfl) (by rw [c.duty, hp]; rfl))
    (h.pv.keep rfl rfl rfl rfl)
  · intro x hx _
    constructor <;> first | rfl | (simp [St.to, upd, hx]; done) | exact id | exact fun h _ => h | exact fun _ => rfl
  · intro r' y hy x st
    rw [hp] at hy
    injection hy with h1 h2 h3
    subst h3
    exact hn x st
  · exact resumed_ok (s0 := s) (by rw [hpc, upd_same]) rfl hk.1 hk.2.1 hk.2.2.1

theorem Inv.fsysStep {s : St} {l : Lk} {v : Cv} {t w c : Nat} {r : R} (h : Inv s l v) (hp : s.pc t = .res .fsys r w) :
    Good (threadStep s t c).1 (threadStep s t c).2 l v := by
  by_cases hw : ∃ x st, s.pc w = .fasleep x st
  · obtain ⟨x, st, hx⟩ := hw
    have hwt : w ≠ t := fun he => by rw [he, hp] at hx; simp at hx
    have h1 := h.wokenStep hx
    have h2 := h1.fsysEnd (t := t) (w := w) (r := r) (by show upd _ _ _ _ = _; rw [upd_ne _ _ hwt.symm]; exact hp)
      (by intro x' st' he; rw [show (s.to w (.fcheck x st)).pc w = .fcheck x st from upd_same _ _ _] at he; simp at he)
    have he : threadStep s t c = ((s.to w (.fcheck x st)).to t (resumed (s.to w (.fcheck x st)) t r), []) := by
      simp only [threadStep, hp, hx, St.to]
      cases r with
      | unlock u p => cases u <;> rfl
      | _ => rfl
    rw [he]
    exact .nil h2
  · have h2 := h.fsysEnd hp (fun x st he => hw ⟨x, st, he⟩)
    have he : threadStep s t c = (s.to t (resumed s t r), []) := by
      simp only [threadStep, hp]
      cases hx : s.pc w with
      | fasleep x st => exact absurd ⟨x, st, hx⟩ hw
      | _ => rfl
    rw [he]
    exact .nil h2

/-! ## `notify_one`, `notify_all` -/

theorem wakeOne_none {fib sat : Nat → Bool} {q q' : List Nat} (h : wakeOne fib sat q = (q', none)) :
    q' = [] ∧ ∀ x ∈ q, sat x = true := by
  induction q with
  | nil => simp [wakeOne] at h; simp [h]
  | cons w q ih =>
    simp only [wakeOne] at h
    split at h
    · next hw =>
      have := ih h
      simp at hw
      refine ⟨this.1, fun x hx => ?_⟩
      rcases List.mem_cons.1 hx with rfl | hx
      · exact hw.2
      · exact this.2 x hx
    · simp at h

theorem wakeOne_some {fib sat : Nat → Bool} {q q' : List Nat} {w : Nat} (h : wakeOne fib sat q = (q', some w)) :
    ∃ p, q = p ++ w :: q' ∧ (∀ x ∈ p, sat x = true) ∧ (fib w && sat w) = false := by
  induction q with
  | nil => simp [wakeOne] at h
  | cons x q ih =>
    simp only [wakeOne] at h
    split at h
    · next hw =>
      obtain ⟨p, h1, h2, h3⟩ := ih h
      simp at hw
      refine ⟨x :: p, by rw [h1]; rfl, ?_, h3⟩
      intro y hy
      rcases List.mem_cons.1 hy with rfl | hy
      · exact hw.2
      · exact h2 y hy
    · next hw =>
      simp at h
      obtain ⟨rfl, rfl⟩ := h
      exact ⟨[], rfl, by simp, by simpa using hw⟩

theorem Inv.nobodyStep {s : St} {l : Lk} {v : Cv} {t : Nat} {r : R} {q : List Nat} (h : Inv s l v) (hp : s.pc t = .nwake r)
    (hw : wakeOne s.fib s.sat s.cq = (q, none)) :
    Good { s.to t (if r.own then .own else .out) with cq := q } [.nobody] l v := by
  have hk := h.ok t
  rw [Ok, hp] at hk
  obtain ⟨hr, hm, hc, hph, hru⟩ := hk
  obtain ⟨rfl, hall⟩ := wakeOne_none hw
  have hwait : v.waiting = [] := by
    rw [h.waiting, List.filter_eq_nil_iff]
    intro x hx
    simp [hall x hx]
  have hV : ∀ p, PV { s.to t p with cq := [] } v := fun p => ⟨by rw [hwait]; rfl, List.nodup_nil, h.sat⟩
  have hS : ∀ p u, u ≠ t → u ≠ t → Same s { s.to t p with cq := [] } v v u := by
    intro p x hx _
    constructor <;> first | rfl | (simp [St.to, upd, hx]; done) | exact id | exact fun _ => rfl | skip
    intro h1 h2; rw [hall x h1] at h2; simp at h2
  refine ⟨l, v, by simp [Lk.replay, Lk.next], by simp [Cv.replay, Cv.next, hwait], by simp, ?_⟩
  have key : ∀ (o : Bool), r.own = o → Inv { s.to t (if o then .own else .out) with cq := [] } l v := by
    intro o ho
    cases o
    · have hpc : ({ s.to t .out with cq := [] } : St).pc = upd s.pc t .out := rfl
      show Inv { s.to t .out with cq := [] } l v
      easy h hp hpc
      case same => exact hS _
      case ok => rw [Ok, hpc, upd_same]; exact ⟨hr, hm, ⟨by simp, hc.2⟩, hph⟩
      case pl => exact PL.keep h.pl hpc rfl rfl (by rw [hp]; exact ho.symm) (by rw [hp]; rfl) (by rw [hp]; rfl) (by rw [hp]; rfl)
      case pv => exact hV _
    · have hpc : ({ s.to t .own with cq := [] } : St).pc = upd s.pc t .own := rfl
      show Inv { s.to t .own with cq := [] } l v
      easy h hp hpc
      case same => exact hS _
      case ok => rw [Ok, hpc, upd_same]; exact ⟨hr, hm, ⟨by simp, hc.2⟩, hph⟩
      case pl => exact PL.keep h.pl hpc rfl rfl (by rw [hp]; exact ho.symm) (by rw [hp]; rfl) (by rw [hp]; rfl) (by rw [hp]; rfl)
      case pv => exact hV _
  exact key r.own rfl

theorem Inv.notedStep {s : St} {l : Lk} {v : Cv} {t w : Nat} {r : R} {q : List Nat} (h : Inv s l v) (hp : s.pc t = .nwake r)
    (hw : wakeOne s.fib s.sat s.cq = (q, some w)) :
    Good { s.to t (.res .look r w) with cq := q, sat := (if s.fib w then upd s.sat w true else s.sat),
                                        cref := upd s.cref w (some (.thr t)) } [.noted w] l v := by
  have hk := h.ok t
  rw [Ok, hp] at hk
  obtain ⟨hr, hm, hc, hph, hru⟩ := hk
  obtain ⟨pre, hq, hpre, hfs⟩ := wakeOne_some hw
  have hsw : s.sat w = false := by
    cases hf : s.fib w
    · exact h.sat w hf
    · rw [hf] at hfs; simpa using hfs
  have hmx : r.mx? = false := by
    cases r with
    | unlock u p => exact absurd rfl (hru u p)
    | _ => rfl
  have hwq : w ∈ s.cq := by rw [hq]; simp
  have hwt : w ≠ t := fun he => hc.1 (he ▸ hwq)
  have hnd := h.cqnd
  rw [hq] at hnd
  have hnq : w ∉ q := (List.nodup_cons.1 (List.nodup_append.1 hnd).2.1).1
  have hwait : v.waiting = w :: q.filter fun x => !s.sat x := by
    rw [h.waiting, hq, List.filter_append, List.filter_eq_nil_iff.2 (by intro x hx; simp [hpre x hx])]
    simp [hsw]
  -- how it stands with `w`
  have hcw : s.cref w = none := by
    have hko := h.ok w
    rw [Ok] at hko
    have k1 : NoC s w → False := fun h => h.1 hwq
    have k2 : CSt s v w → s.cref w = none := by
      rintro (⟨-, -, h1, -⟩ | ⟨⟨h1, -⟩, -⟩)
      · exact h1
      · rw [hsw] at h1; simp at h1
    have k3 : ∀ st, PSt s v w st → s.cref w = none := by
      rintro st (⟨-, h1, -⟩ | ⟨h1, -⟩ | ⟨h1, -⟩)
      · exact h1
      · exact absurd hwq h1
      · exact absurd hwq h1
    have k4 : CDone s v w → False := fun h => by have := h.1.1; rw [hsw] at this; simp at this
    have k5 : PEarly s v w → s.cref w = none := by
      rintro (⟨-, h1, -⟩ | ⟨h1, -⟩)
      · exact h1
      · exact absurd hwq h1
    have k6 : ∀ u, UOk s v w u → s.cref w = none := by
      intro u hu
      cases u with
      | user => exact (k1 hu.1).elim
      | wait a g st =>
        simp only [UOk] at hu
        split at hu
        · exact k2 hu
        · exact k3 st hu.2
    have k7 : ∀ u, ROk s v w u → s.cref w = none := by
      intro u hu
      cases u with
      | unlock u p => exact k6 u hu.1
      | one b => exact (k1 hu.1).elim
      | all b => exact (k1 hu.1).elim
    cases hpw : s.pc w with
    | parked x => rw [hpw] at hko; cases x <;> simp only [OkAt] at hko <;> grind
    | susp x => rw [hpw] at hko; cases x <;> simp only [OkAt] at hko <;> grind
    | swap x => rw [hpw] at hko; cases x <;> simp only [OkAt] at hko <;> grind
    | fwait x st => rw [hpw] at hko; cases x <;> simp only [OkAt] at hko <;> grind
    | fasleep x st => rw [hpw] at hko; cases x <;> simp only [OkAt] at hko <;> grind
    | fcheck x st => rw [hpw] at hko; cases x <;> simp only [OkAt] at hko <;> grind
    | _ => rw [hpw] at hko; simp only [OkAt] at hko; grind
  let v' : Cv := ⟨q.filter fun x => !s.sat x, upd v.ph w (.noted (v.ph w = .entered))⟩
  have hvn : v.next (.noted w) = some v' := by simp [Cv.next, hwait, v']
  refine ⟨l, v', by simp [Lk.replay, Lk.next], Cv.replay1 hvn, by simp, ?_⟩
  have hpc : ({ s.to t (.res .look r w) with cq := q, sat := (if s.fib w then upd s.sat w true else s.sat),
                                             cref := upd s.cref w (some (.thr t)) } : St).pc = upd s.pc t (.res .look r w) := rfl
  have hsx : ∀ x, x ≠ w → (if s.fib w then upd s.sat w true else s.sat) x = s.sat x := by
    intro x hx; split <;> simp [upd, hx]
  refine h.build (t := t) (x := w) ⟨fun x hx => by rw [hpc, upd_ne _ _ hx], ?_, rfl, .inl (by rw [hp]; rfl),
    by simp [hp], by rw [hpc, upd_same, hp]; cases r <;> first | rfl | simp [R.mx?] at hmx, fun _ => h.small t (by simp [hp]), .inr (.inl rfl)⟩
    ⟨rfl, rfl, rfl, rfl, rfl⟩ ?_ ?_ (by rw [Lnk, hpc, upd_same]; trivial) (Fs.none (by rw [hpc, upd_same]) (by simp)) ?_
    (PSlow.keep h.slow hpc rfl (by rw [hp]; rfl))
    (PSlk.keep h.slk hpc rfl rfl (by rw [hp]; cases r <;> first | (simp [R.mx?] at hmx; done) | simp [Pc.self, R.wait?]) (by rw [hp]; rfl) rfl rfl)
    (PM.keep h.mref hpc rfl (by rw [hp, Pc.mc_res (g := .look) (by simp), hmx]; rfl))
    (PC.take h.cref (t := t) (x := w) hcw rfl (cc_ne hpc) (by rw [hp]; rfl)
      (by rw [hpc, upd_same, Pc.cc_res (g := .look) (by simp), hmx]; rfl) rfl rfl)
    (PL.keep h.pl hpc rfl rfl (by rw [hp]; rfl) (by rw [hp]; rfl) (by rw [hp]; rfl) (by rw [hp]; rfl)) ?_
  · intro x hx hxw
    constructor <;> first | rfl | (simp [St.to, upd, hx, hxw, v']; done) | exact fun _ => rfl | skip
    · exact hsx x hxw
    · intro h1; show x ∈ s.cq; rw [hq]; simp; right; right; exact h1
    · intro h1 h2
      show x ∈ q
      rw [hq] at h1
      rcases List.mem_append.1 h1 with h1 | h1
      · rw [hpre x h1] at h2; simp at h2
      · rcases List.mem_cons.1 h1 with h1 | h1
        · exact absurd h1 hxw
        · exact h1
  · rw [Ok, hpc, upd_same]
    refine ⟨hr, hm, ?_, trivial⟩
    have hc' : NoC { s.to t (.res .look r w) with cq := q, sat := (if s.fib w then upd s.sat w true else s.sat),
                                                  cref := upd s.cref w (some (.thr t)) } t :=
      ⟨fun h1 => hc.1 (by rw [hq]; simp; right; right; exact h1), (upd_ne _ _ hwt.symm).trans hc.2⟩
    have hph' : v'.ph t = .no := by show upd _ _ _ _ = _; rw [upd_ne _ _ hwt.symm]; exact hph
    cases r with
    | unlock u p => exact absurd rfl (hru u p)
    | one b => exact ⟨hc', hph'⟩
    | all b => exact ⟨hc', hph'⟩
  · intro _
    have e1 : v'.ph w = .noted (v.ph w = .entered) := upd_same _ _ _
    have e2 : upd s.cref w (some (.thr t)) w ≠ none := by rw [upd_same]; simp
    refine (h.ok w).map (by rw [hpc, upd_ne _ _ hwt]) rfl rfl rfl rfl (fun h1 => by rw [hsw] at h1; simp at h1) id
      (fun h1 => absurd hwq h1.1) (fun h1 h2 h3 => ⟨h1, h2, h3⟩) (fun _ => id) (fun _ => id) (fun _ h1 => absurd hwq h1.1)
      (fun h1 => absurd hwq h1.1) ?_ (fun _ h1 => by have := h1.1.1; rw [hsw] at this; simp at this) ?_ ?_
    · intro hf _
      refine .inr ⟨⟨?_, .inr ⟨hnq, _, e1⟩⟩, e2⟩
      show (if s.fib w then upd s.sat w true else s.sat) w = true
      rw [hf]; simp
    · rintro - st (⟨-, -, h1, h2, -⟩ | ⟨h1, -⟩ | ⟨h1, -⟩)
      · exact .inr (.inl ⟨hnq, h2, .inl ⟨e2, h1⟩, _, e1⟩)
      · exact absurd hwq h1
      · exact absurd hwq h1
    · rintro - (⟨-, -, h1, h2⟩ | ⟨h1, -⟩)
      · exact .inr ⟨hnq, .inl ⟨e2, h1⟩, by rw [e1, h2]; rfl⟩
      · exact absurd hwq h1
  · intro _
    refine (h.fs w).frame (by rw [hpc, upd_ne _ _ hwt]) rfl rfl ?_
    intro y r' hy _
    by_cases hyt : y = t
    · subst hyt; rw [hp] at hy; simp at hy
    · rw [hpc, upd_ne _ _ hyt]
  · refine ⟨?_, (List.nodup_cons.1 (List.nodup_append.1 hnd).2.1).2, ?_⟩
    · show q.filter _ = q.filter _
      apply List.filter_congr
      intro x hx
      show _ = !((if s.fib w then upd s.sat w true else s.sat) x)
      rw [hsx x (fun he => hnq (he ▸ hx))]
    · intro x hx
      show (if s.fib w then upd s.sat w true else s.sat) x = false
      by_cases hxw : x = w
      · subst hxw; rw [show s.fib x = false from hx]; simp [hsw]
      · rw [hsx x hxw]; exact h.sat x hx

theorem Inv.nwakeStep {s : St} {l : Lk} {v : Cv} {t c : Nat} {r : R} (h : Inv s l v) (hp : s.pc t = .nwake r) :
    Good (threadStep s t c).1 (threadStep s t c).2 l v := by
  cases hw : wakeOne s.fib s.sat s.cq with
  | mk q o =>
    cases o with
    | none =>
      have he : threadStep s t c = ({ s.to t (if r.own then .own else .out) with cq := q }, [.nobody]) := by
        simp only [threadStep, hp, hw]
        cases r <;> rfl
      rw [he]
      exact h.nobodyStep hp hw
    | some w =>
      have he : threadStep s t c = ({ s.to t (.res .look r w) with cq := q, sat := (if s.fib w then upd s.sat w true else s.sat),
                                                                   cref := upd s.cref w (some (.thr t)) }, [.noted w]) := by
        simp only [threadStep, hp, hw]
      rw [he]
      exact h.notedStep hp hw

/-! ## `wait_until` -/

theorem UOk.fiber {s : St} {v : Cv} {t g st : Nat} {a : Bool} (hf : s.fib t = true) (h : CSt s v t) : UOk s v t (.wait a g st) := by
  simp only [UOk]; rw [if_pos hf]; exact h

theorem UOk.thread {s : St} {v : Cv} {t g st : Nat} (hf : s.fib t = false) (h : PSt s v t st) : UOk s v t (.wait false g st) := by
  simp only [UOk]; rw [if_neg (by simp [hf])]; exact ⟨by trivial, h⟩

theorem Inv.cslkStep {s : St} {l : Lk} {v : Cv} {t : Nat} {a : Bool} (h : Inv s l v) (hp : s.pc t = .cslk a) (h0 : s.slk t = none) :
    Good { s.to t (.cadd a) with slk := upd s.slk t (some (.thr t)) } [] l v := by
  have hk := h.ok t
  rw [Ok, hp] at hk
  apply Good.nil
  have hpc : ({ s.to t (.cadd a) with slk := upd s.slk t (some (.thr t)) } : St).pc = upd s.pc t (.cadd a) := rfl
  easy h hp hpc
  case ok => rw [Ok, hpc, upd_same]; exact hk
  case slk =>
    exact PSlk.take h.slk h0 rfl (hh_ne hpc rfl) (by rw [hpc, upd_same]; rfl) (by rw [hp]; rfl) (by rw [hpc, upd_same]; rfl) rfl rfl

/-- What starting to wait means. -/
theorem Inv.pvWait {s s' : St} {l : Lk} {v : Cv} {t : Nat} (h : Inv s l v) (hc : t ∉ s.cq) (h1 : s'.cq = s.cq ++ [t])
    (h2 : s'.sat = upd s.sat t false) (h3 : s'.fib = s.fib) : PV s' ⟨v.waiting ++ [t], upd v.ph t .entered⟩ := by
  refine ⟨?_, ?_, ?_⟩
  · rw [h1, h2, List.filter_append]
    simp only [h.waiting, List.filter_cons, List.filter_nil, upd_same]
    congr 1
    apply List.filter_congr
    intro x hx
    rw [upd_ne _ _ (fun (he : x = t) => hc (he ▸ hx))]
  · rw [h1]
    refine List.nodup_append.2 ⟨h.cqnd, by simp, ?_⟩
    intro x hx y hy he
    rw [List.mem_singleton] at hy
    rw [he, hy] at hx
    exact hc hx
  · rw [h2, h3]
    intro x hx
    by_cases hxt : x = t
    · subst hxt; rw [upd_same]
    · rw [upd_ne _ _ hxt]; exact h.sat x hx

theorem Inv.caddStep {s : St} {l : Lk} {v : Cv} {t : Nat} {a : Bool} (h : Inv s l v) (hp : s.pc t = .cadd a) :
    Good { s.to t (if a then .ctimer else .cpost false 0) with cq := s.cq ++ [t], sat := upd s.sat t false,
                                                                cfut := upd s.cfut t 0 } [.wait t] l v := by
  have hk := h.ok t
  rw [Ok, hp] at hk
  obtain ⟨hf, hr, hm, hc, hph⟩ := hk
  refine ⟨l, ⟨v.waiting ++ [t], upd v.ph t .entered⟩, by simp [Lk.replay, Lk.next, (h.owner t).2 (show (s.pc t).ow = true by rw [hp]; rfl)], by simp [Cv.replay, Cv.next, hph], by simp, ?_⟩
  have key : ∀ p, CSt { s.to t p with cq := s.cq ++ [t], sat := upd s.sat t false, cfut := upd s.cfut t 0 }
      ⟨v.waiting ++ [t], upd v.ph t .entered⟩ t :=
    fun p => .inl ⟨upd_same _ _ _, by show t ∈ s.cq ++ [t]; simp, hc.2, .inl (upd_same _ _ _)⟩
  cases a
  · have hpc : ({ s.to t (.cpost false 0) with cq := s.cq ++ [t], sat := upd s.sat t false, cfut := upd s.cfut t 0 } : St).pc = upd s.pc t (.cpost false 0) := rfl
    show Inv { s.to t (.cpost false 0) with cq := s.cq ++ [t], sat := upd s.sat t false, cfut := upd s.cfut t 0 } _ _
    easy h hp hpc
    case ok => rw [Ok, hpc, upd_same]; exact ⟨hf, hr, hm, key _⟩
    case same =>
      intro x hx _
      constructor <;> first | rfl | (simp [St.to, upd, hx]; done) | exact fun _ => rfl | skip
      intro h1 _; exact List.mem_append_left _ h1
    case pv => exact h.pvWait hc.1 rfl rfl rfl
  · have hpc : ({ s.to t .ctimer with cq := s.cq ++ [t], sat := upd s.sat t false, cfut := upd s.cfut t 0 } : St).pc = upd s.pc t .ctimer := rfl
    show Inv { s.to t .ctimer with cq := s.cq ++ [t], sat := upd s.sat t false, cfut := upd s.cfut t 0 } _ _
    easy h hp hpc
    case ok => rw [Ok, hpc, upd_same]; exact ⟨hf, hr, hm, key _⟩
    case same =>
      intro x hx _
      constructor <;> first | rfl | (simp [St.to, upd, hx]; done) | exact fun _ => rfl | skip
      intro h1 _; exact List.mem_append_left _ h1
    case pv => exact h.pvWait hc.1 rfl rfl rfl

theorem Inv.cpostStep {s : St} {l : Lk} {v : Cv} {t g : Nat} {a : Bool} (h : Inv s l v) (hp : s.pc t = .cpost a g) :
    Good { s.to t (.ul (.wait a g 0)) with post := true } [] l v := by
  have hk := h.ok t
  rw [Ok, hp] at hk
  obtain ⟨hf, hr, hm, hc⟩ := hk
  apply Good.nil
  have hpc : ({ s.to t (.ul (.wait a g 0)) with post := true } : St).pc = upd s.pc t (.ul (.wait a g 0)) := rfl
  easy h hp hpc
  case ok =>
    rw [Ok, hpc, upd_same]
    exact ⟨hr, hm, UOk.fiber hf hc, fun _ _ => rfl⟩
  case cur => rw [hp]; cases a <;> rfl
  case slk => exact PSlk.keep h.slk hpc rfl rfl (by rw [hp, hf]; rfl) (by rw [hp]; rfl) rfl rfl
  case same =>
    intro x hx _
    constructor <;> first | rfl | (simp [St.to, upd, hx]; done) | exact id | exact fun h _ => h | skip
    exact fun ho => absurd (h.sole (by rw [hp]; rfl) ho) hx

theorem Inv.cremStep {s : St} {l : Lk} {v : Cv} {t g : Nat} {a : Bool} (h : Inv s l v) (hp : s.pc t = .crem a g) :
    Good { s.to t (if a then .crm g (!decide (t ∈ s.cq)) else .try_ true (.back (!decide (t ∈ s.cq)))) with cq := s.cq.erase t } [] l v := by
  have hk := h.ok t
  rw [Ok, hp] at hk
  obtain ⟨hf, hr, hm, hh, hcr⟩ := hk
  apply Good.nil
  have hkk : KOk v t (.back (!decide (t ∈ s.cq))) := by
    rcases hh.2 with h1 | ⟨h1, h2⟩
    · exact .inl h1
    · exact .inr ⟨by simp [h1], h2⟩
  have hV : ∀ p, PV { s.to t p with cq := s.cq.erase t } v := by
    intro p
    refine ⟨?_, h.cqnd.erase t, h.sat⟩
    show v.waiting = (s.cq.erase t).filter _
    rw [h.waiting]
    by_cases ht : t ∈ s.cq
    · have h1 : ∀ q : List Nat, (q.erase t).filter (fun x => !s.sat x) = q.filter (fun x => !s.sat x) := by
        intro q
        induction q with
        | nil => rfl
        | cons y q ih =>
          by_cases hy : y = t
          · subst hy; simp [hh.1]
          · rw [List.erase_cons_tail (by simpa using hy), List.filter_cons, List.filter_cons, ih]
      exact (h1 s.cq).symm
    · rw [List.erase_of_not_mem ht]; rfl
  have hnc : ∀ p, NoC { s.to t p with cq := s.cq.erase t } t :=
    fun p => ⟨by show t ∉ s.cq.erase t; rw [h.cqnd.mem_erase_iff]; simp, hcr⟩
  have hS : ∀ p u, u ≠ t → u ≠ t → Same s { s.to t p with cq := s.cq.erase t } v v u := by
    intro p x hx _
    constructor <;> first | rfl | (simp [St.to, upd, hx]; done) | exact fun _ => rfl | skip
    intro h1 _
    show x ∈ s.cq.erase t
    exact (List.mem_erase_of_ne hx).2 h1
  generalize (!decide (t ∈ s.cq)) = b at hkk ⊢
  cases a
  · have hpc : ({ s.to t (.try_ true (.back b)) with cq := s.cq.erase t } : St).pc = upd s.pc t (.try_ true (.back b)) := rfl
    show Inv { s.to t (.try_ true (.back b)) with cq := s.cq.erase t } l v
    easy h hp hpc
    case ok => rw [Ok, hpc, upd_same]; exact ⟨hr, hm, hnc _, hkk, by simp⟩
    case same => exact hS _
    case pv => exact hV _
  · have hpc : ({ s.to t (.crm g b) with cq := s.cq.erase t } : St).pc = upd s.pc t (.crm g b) := rfl
    show Inv { s.to t (.crm g b) with cq := s.cq.erase t } l v
    easy h hp hpc
    case ok => rw [Ok, hpc, upd_same]; exact ⟨hf, hr, hm, hnc _, hh.1, hkk⟩
    case same => exact hS _
    case pv => exact hV _

theorem Inv.paddStep {s : St} {l : Lk} {v : Cv} {t : Nat} {a : Bool} (h : Inv s l v) (hp : s.pc t = .padd a) :
    Good { s.to t (.pst a) with cq := s.cq ++ [t], sat := upd s.sat t false, cfut := upd s.cfut t 0 } [.wait t] l v := by
  have hk := h.ok t
  rw [Ok, hp] at hk
  obtain ⟨hf, ha, hr, hm, hc, hph⟩ := hk
  refine ⟨l, ⟨v.waiting ++ [t], upd v.ph t .entered⟩, by simp [Lk.replay, Lk.next, (h.owner t).2 (show (s.pc t).ow = true by rw [hp]; rfl)], by simp [Cv.replay, Cv.next, hph], by simp, ?_⟩
  have hpc : ({ s.to t (.pst a) with cq := s.cq ++ [t], sat := upd s.sat t false, cfut := upd s.cfut t 0 } : St).pc = upd s.pc t (.pst a) := rfl
  easy h hp hpc
  case ok =>
    rw [Ok, hpc, upd_same]
    exact ⟨hf, ha, hr, hm, .inl ⟨by show t ∈ s.cq ++ [t]; simp, hc.2, upd_same _ _ _, upd_same _ _ _⟩⟩
  case same =>
    intro x hx _
    constructor <;> first | rfl | (simp [St.to, upd, hx]; done) | exact fun _ => rfl | skip
    intro h1 _; exact List.mem_append_left _ h1
  case pv => exact h.pvWait hc.1 rfl rfl rfl

theorem Inv.pstStep {s : St} {l : Lk} {v : Cv} {t : Nat} {a : Bool} (h : Inv s l v) (hp : s.pc t = .pst a) :
    Good (s.to t (.ul (.wait a 0 (s.cfut t)))) [] l v := by
  have hk := h.ok t
  rw [Ok, hp] at hk
  obtain ⟨hf, ha, hr, hm, hc⟩ := hk
  subst ha
  apply Good.nil
  have hpc : (s.to t (.ul (.wait false 0 (s.cfut t)))).pc = upd s.pc t (.ul (.wait false 0 (s.cfut t))) := rfl
  easy h hp hpc
  case ok =>
    rw [Ok, hpc, upd_same]
    refine ⟨hr, hm, ?_, fun h1 => by rw [show s.fib t = true from h1] at hf; simp at hf⟩
    refine UOk.thread hf ?_
    rcases hc with ⟨h1, h2, h3, h4⟩ | ⟨h1, h2, h3⟩
    · exact .inl ⟨h1, h2, h3, h3, .inl h4⟩
    · rcases h2 with ⟨h2, h4⟩ | h2
      · exact .inr (.inl ⟨h1, h4, .inl ⟨h2, h4⟩, true, h3⟩)
      · exact .inr (.inr ⟨h1, h2, rfl, h3⟩)
  case cur => rw [hp]; rfl
  case slk => exact PSlk.keep h.slk hpc rfl rfl (by rw [hp, hf]; rfl) (by rw [hp]; rfl) rfl rfl

theorem Inv.premEnd {s : St} {l : Lk} {v : Cv} {t : Nat} {b : Bool} (h : Inv s l v) (hp : s.pc t = .prem b) :
    Good { s.to t (.try_ true (.back b)) with cq := s.cq.erase t } (if t ∈ s.cq then [.tmo t] else []) l v := by
  have hk := h.ok t
  rw [Ok, hp] at hk
  obtain ⟨hf, hr, hm, hc, hkk⟩ := hk
  rw [if_neg hc.1, List.erase_of_not_mem hc.1]
  apply Good.nil
  have hpc : (s.to t (.try_ true (.back b))).pc = upd s.pc t (.try_ true (.back b)) := rfl
  show Inv (s.to t (.try_ true (.back b))) l v
  easy h hp hpc
  case ok => rw [Ok, hpc, upd_same]; exact ⟨hr, hm, hc, hkk, by simp⟩

end Verif.Fiber.Sync
