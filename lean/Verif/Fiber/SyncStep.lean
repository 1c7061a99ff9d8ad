import Verif.Fiber.SyncBuild
/-!
# Every step keeps the invariant: the mutex
-/

namespace Verif.Fiber.Sync

theorem upd_self {α : Type} {f : Nat → α} {t : Nat} {a : α} (h : f t = a) : upd f t a = f := by
  funext u
  by_cases hu : u = t
  · subst hu; rw [upd_same, h]
  · rw [upd_ne _ _ hu]

/-- After a step with these events all is well. -/
def Good (s' : St) (evs : List Ev) (l : Lk) (v : Cv) : Prop :=
  ∃ l' v', l.replay evs = some l' ∧ v.replay evs = some v' ∧ (∀ e ∈ evs, e ≠ .crash ∧ e ≠ .ub) ∧ Inv s' l' v'

theorem Lk.replay1 {l l' : Lk} {e : Ev} (h : l.next e = some l') : l.replay [e] = some l' := by simp only [Lk.replay, h]
theorem Cv.replay1 {v v' : Cv} {e : Ev} (h : v.next e = some v') : v.replay [e] = some v' := by simp only [Cv.replay, h]

theorem Good.nil {s' : St} {l : Lk} {v : Cv} (h : Inv s' l v) : Good s' [] l v := ⟨l, v, rfl, rfl, by simp, h⟩

theorem PSlow.keep {s s' : St} {t : Nat} {p' : Pc} (h : PSlow s) (hpc : s'.pc = upd s.pc t p') (he : s'.slow = s.slow)
    (hc : p'.hs = (s.pc t).hs) : PSlow s' :=
  h.same he fun u => by rw [hpc]; by_cases hu : u = t <;> simp [upd, hu, hc]

theorem PSlk.keep {s s' : St} {t : Nat} {p' : Pc} (h : PSlk s) (hpc : s'.pc = upd s.pc t p') (hf : s'.fib = s.fib)
    (he : s'.slk = s.slk) (hc : p'.self (s.fib t) = (s.pc t).self (s.fib t)) (hr : p'.rs = (s.pc t).rs) (ht : s'.tm = s.tm)
    (ho : s'.town = s.town) : PSlk s' :=
  h.same he (fun u => by
    rw [HSame, hpc, hf]
    by_cases hu : u = t
    · subst hu; simp [hc, hr]
    · simp [upd, hu]) ht ho

theorem PM.keep {s s' : St} {t : Nat} {p' : Pc} (h : PM s) (hpc : s'.pc = upd s.pc t p') (he : s'.mref = s.mref)
    (hc : p'.mc = (s.pc t).mc) : PM s' :=
  h.same he fun u => by rw [hpc]; by_cases hu : u = t <;> simp [upd, hu, hc]

theorem PC.keep {s s' : St} {t : Nat} {p' : Pc} (h : PC s) (hpc : s'.pc = upd s.pc t p') (he : s'.cref = s.cref)
    (hc : p'.cc = (s.pc t).cc) (ht : s'.tm = s.tm) (ho : s'.town = s.town) : PC s' :=
  h.same he (fun u => by rw [hpc]; by_cases hu : u = t <;> simp [upd, hu, hc]) ht ho

theorem PL.keep {s s' : St} {l : Lk} {t : Nat} {p' : Pc} (h : PL s l) (hpc : s'.pc = upd s.pc t p') (h1 : s'.count = s.count)
    (h2 : s'.mq = s.mq) (ho : p'.ow = (s.pc t).ow) (hq : p'.qd = (s.pc t).qd) (hp : p'.pre = (s.pc t).pre)
    (hd : p'.duty = (s.pc t).duty) : PL s' l :=
  h.same (fun u => by
    by_cases hu : u = t
    · subst hu; constructor <;> simp [hpc, ho, hq, hp, hd]
    · constructor <;> simp [hpc, upd, hu]) h1 h2

theorem PV.keep {s s' : St} {v v' : Cv} (h : PV s v) (hw : v'.waiting = v.waiting) (hc : s'.cq = s.cq) (hs : s'.sat = s.sat)
    (hf : s'.fib = s.fib) : PV s' v' :=
  ⟨by rw [hw, hc, hs]; exact h.waiting, by rw [hc]; exact h.cqnd, by rw [hs, hf]; exact h.sat⟩

/-- The positions of the others. -/
theorem hs_ne {s s' : St} {t : Nat} {p' : Pc} (hpc : s'.pc = upd s.pc t p') : ∀ u, u ≠ t → (s'.pc u).hs = (s.pc u).hs :=
  fun u hu => by rw [hpc, upd_ne _ _ hu]

theorem mc_ne {s s' : St} {t : Nat} {p' : Pc} (hpc : s'.pc = upd s.pc t p') : ∀ u, u ≠ t → (s'.pc u).mc = (s.pc u).mc :=
  fun u hu => by rw [hpc, upd_ne _ _ hu]

theorem cc_ne {s s' : St} {t : Nat} {p' : Pc} (hpc : s'.pc = upd s.pc t p') : ∀ u, u ≠ t → (s'.pc u).cc = (s.pc u).cc :=
  fun u hu => by rw [hpc, upd_ne _ _ hu]

theorem ls_ne {s s' : St} {t : Nat} {p' : Pc} (hpc : s'.pc = upd s.pc t p') : ∀ u, u ≠ t → LSame s s' u :=
  fun u hu => by constructor <;> rw [hpc, upd_ne _ _ hu]

theorem hh_ne {s s' : St} {t : Nat} {p' : Pc} (hpc : s'.pc = upd s.pc t p') (hf : s'.fib = s.fib) : ∀ u, u ≠ t → HSame s s' u :=
  fun u hu => by constructor <;> rw [hpc, upd_ne _ _ hu]; rw [hf]

/-- The ordinary step: nothing but the position of `t` matters to the others. -/
theorem Inv.simple {s s' : St} {l l' : Lk} {v v' : Cv} {t : Nat} {p' : Pc} (h : Inv s l v) (hpc : s'.pc = upd s.pc t p')
    (same : ∀ u, u ≠ t → u ≠ t → Same s s' v v' u) (fib : s'.fib = s.fib)
    (run : (s.pc t).park = false ∨ s.mref t = none ∧ s.cref t = none)
    (nf : ∀ r y, s.pc t = .res .fsys r y → ∀ w st, s.pc y ≠ .fasleep w st) (cur : p'.cur = (s.pc t).cur)
    (out : s.pc t ≠ .out) (tsame : TSame s s')
    (ok : Ok s' v' t) (lnk : Lnk s' t) (fs : Fs s' t) (slow : PSlow s') (slk : PSlk s') (pm : PM s') (pc : PC s') (pl : PL s' l')
    (pv : PV s' v') : Inv s' l' v' :=
  h.build (t := t) (x := t)
    ⟨fun u hu => by rw [hpc, upd_ne _ _ hu], same, fib, run, nf, by rw [hpc, upd_same]; exact cur, fun _ => h.small t out, .inl rfl⟩
    tsame ok (by simp) lnk fs (by simp) slow slk pm pc pl pv

def Cv.leave (v : Cv) (t : Nat) : Cv := { v with ph := upd v.ph t .no }

/-- What follows from the position of `t`. -/
macro "easy " h:ident hp:ident hpc:ident : tactic => `(tactic| (
  apply Inv.simple $h $hpc
  all_goals try first
    | (intro u hu _; constructor <;> first | rfl | (simp [St.to, upd, hu, Cv.leave] <;> done) | exact id | exact fun h _ => h | exact fun _ => rfl)
    | rfl
    | (refine Or.inl ?_; simp [$hp:ident, Pc.park]; done)
    | (simp [$hp:ident, Pc.cur] <;> done)
    | (exact TSame.mk rfl rfl rfl rfl rfl)
    | (rw [Lnk, $hpc:ident, upd_same]; trivial)
    | (rw [Fs, $hpc:ident, upd_same]; trivial)
    | (refine PSlow.keep (Inv.slow $h) $hpc rfl ?_; simp [$hp:ident, Pc.hs]; done)
    | (refine PSlk.keep (Inv.slk $h) $hpc rfl rfl ?_ ?_ rfl rfl <;> (simp [$hp:ident, Pc.self, U.wait?, R.wait?, Pc.rs]; done))
    | (refine PM.keep (Inv.mref $h) $hpc rfl ?_; simp [$hp:ident, Pc.mc]; done)
    | (refine PC.keep (Inv.cref $h) $hpc rfl ?_ rfl rfl; simp [$hp:ident, Pc.cc]; done)
    | (refine PL.keep (Inv.pl $h) $hpc rfl rfl ?_ ?_ ?_ ?_ <;>
        (simp [$hp:ident, Pc.ow, R.own, Pc.qd, W.mx?, Pc.pre, Pc.duty]; done))
    | (exact PV.keep (Inv.pv $h) rfl rfl rfl rfl)))

/-- `returned` when no one has a pointer to the block. -/
def kev (t : Nat) : K → List Ev
  | .user => []
  | .back b => [.back t b]

theorem returned_eq {s : St} {t : Nat} (k : K) (h : s.cref t = none) : returned s t k = (s.to t .own, kev t k) := by
  cases k with
  | user => rfl
  | back b => simp [returned, kev, h, upd_self h]; rfl

theorem kev_lk {l : Lk} {t : Nat} (h : l.owner = some t) (k : K) : l.replay (kev t k) = some l := by
  cases k with
  | user => rfl
  | back b => simp [kev, Lk.replay, Lk.next, h]

theorem kev_cv {v : Cv} {t : Nat} {k : K} (h : KOk v t k) : v.replay (kev t k) = some (v.leave t) := by
  cases k with
  | user => simp only [kev, Cv.replay, Cv.leave]; rw [upd_self h]
  | back b =>
    rcases h with h | ⟨hb, e, h⟩
    · simp [kev, Cv.replay, Cv.next, h, Cv.leave]
    · simp [kev, Cv.replay, Cv.next, h, hb, Cv.leave]

theorem kev_ok (t : Nat) (k : K) : ∀ e ∈ kev t k, e ≠ .crash ∧ e ≠ .ub := by cases k <;> simp [kev]

/-! ## `lock` -/

theorem Inv.tryOk {s : St} {l : Lk} {v : Cv} {t : Nat} {a : Bool} {k : K} (h : Inv s l v) (hp : s.pc t = .try_ a k)
    (h0 : s.count = 0) : Good (locked { s with count := 1 } t k).1 (locked { s with count := 1 } t k).2 l v := by
  have hk := h.ok t
  rw [Ok, hp] at hk
  obtain ⟨hr, hm, hc, hk, -⟩ := hk
  simp only [locked, returned_eq (s := { s with count := 1 }) k hc.2]
  have hpc : (({ s with count := 1 } : St).to t .own).pc = upd s.pc t .own := rfl
  have hL := h.pl.acq (s' := ({ s with count := 1 } : St).to t .own) h0 (ls_ne hpc) rfl rfl (by rw [hpc]; simp [Pc.ow])
  refine ⟨_, v.leave t, by simp only [Lk.replay, hL.2]; exact kev_lk ((hL.1.owner t).2 (by rw [hpc, upd_same]; rfl)) k, by simp only [Cv.replay, Cv.next]; exact kev_cv hk,
    by simpa using kev_ok t k, ?_⟩
  easy h hp hpc
  case ok => rw [Ok, hpc, upd_same]; exact ⟨hr, hm, hc, by simp [Cv.leave]⟩
  case pl => exact hL.1

theorem Inv.trySlow {s : St} {l : Lk} {v : Cv} {t : Nat} {a : Bool} {k : K} (h : Inv s l v) (hp : s.pc t = .try_ a k) :
    Good (s.to t (.slow k)) [] l v := by
  have hk := h.ok t
  rw [Ok, hp] at hk
  obtain ⟨hr, hm, hc, hk, -⟩ := hk
  apply Good.nil
  have hpc : (s.to t (.slow k)).pc = upd s.pc t (.slow k) := rfl
  easy h hp hpc
  case ok => rw [Ok, hpc, upd_same]; exact ⟨hr, hm, hc, hk⟩

theorem Inv.tryBusy {s : St} {l : Lk} {v : Cv} {t : Nat} {k : K} (h : Inv s l v) (hp : s.pc t = .try_ false k)
    (h0 : s.count ≠ 0) : Good (s.to t .out) [.busy t] l v := by
  have hk := h.ok t
  rw [Ok, hp] at hk
  obtain ⟨hr, hm, hc, hk, hu⟩ := hk
  rw [hu rfl] at hk
  refine ⟨l, v, ?_, by simp [Cv.replay, Cv.next], by simp, ?_⟩
  · simp [Lk.replay, Lk.next, h.pl.taken h0]
  have hpc : (s.to t .out).pc = upd s.pc t .out := rfl
  easy h hp hpc
  case ok => rw [Ok, hpc, upd_same]; exact ⟨hr, hm, hc, hk⟩

theorem Inv.slowStep {s : St} {l : Lk} {v : Cv} {t : Nat} {k : K} (h : Inv s l v) (hp : s.pc t = .slow k)
    (h0 : s.slow = none) : Good { s.to t (.add k) with slow := some t } [] l v := by
  have hk := h.ok t
  rw [Ok, hp] at hk
  apply Good.nil
  have hpc : ({ s.to t (.add k) with slow := some t } : St).pc = upd s.pc t (.add k) := rfl
  easy h hp hpc
  case ok => rw [Ok, hpc, upd_same]; exact hk
  case slow => exact PSlow.take h.slow h0 rfl (hs_ne hpc) (by rw [hpc, upd_same]; rfl)

theorem Inv.addFree {s : St} {l : Lk} {v : Cv} {t : Nat} {k : K} (h : Inv s l v) (hp : s.pc t = .add k)
    (h0 : s.count = 0) : Good { s.to t (.free k) with count := 1 } [.acq t] l v := by
  have hk := h.ok t
  rw [Ok, hp] at hk
  have hpc : ({ s.to t (.free k) with count := 1 } : St).pc = upd s.pc t (.free k) := rfl
  have hL := h.pl.acq (s' := { s.to t (.free k) with count := 1 }) h0 (ls_ne hpc) rfl rfl (by rw [hpc, upd_same]; rfl)
  refine ⟨_, v, Lk.replay1 hL.2, by simp [Cv.replay, Cv.next], by simp, ?_⟩
  easy h hp hpc
  case ok => rw [Ok, hpc, upd_same]; exact hk
  case pl => exact hL.1

theorem Inv.addEnq {s : St} {l : Lk} {v : Cv} {t : Nat} {k : K} (h : Inv s l v) (hp : s.pc t = .add k)
    (h0 : s.count ≠ 0) :
    Good { s.to t (if s.fib t then .slk k else .enq k) with count := (s.count + 1) % 2 ^ 32 } [.enq t] l v := by
  have hk := h.ok t
  rw [Ok, hp] at hk
  have key : ∀ p', (p' = .slk k ∧ s.fib t = true ∨ p' = .enq k ∧ s.fib t = false) →
      ∃ l', l.next (.enq t) = some l' ∧ Inv { s.to t p' with count := s.count + 1 } l' v := by
    intro p' hp'
    have hpc : ({ s.to t p' with count := s.count + 1 } : St).pc = upd s.pc t p' := rfl
    have hL := h.pl.enq (s' := { s.to t p' with count := s.count + 1 }) h.slow h0 (ls_ne hpc) rfl rfl (by rw [hp]; rfl)
      (by rw [hp]; rfl) (by rw [hp]; rfl) (by rw [hp]; rfl)
      (by rcases hp' with h | h <;> rw [hpc, upd_same, h.1] <;> rfl) (by rcases hp' with h | h <;> rw [hpc, upd_same, h.1] <;> rfl)
      (by rcases hp' with h | h <;> rw [hpc, upd_same, h.1] <;> rfl)
    refine ⟨_, hL.2, ?_⟩
    rcases hp' with ⟨hp', hf⟩ | ⟨hp', hf⟩ <;> subst hp'
    · easy h hp hpc
      case ok => rw [Ok, hpc, upd_same]; exact ⟨hf, hk⟩
      case pl => exact hL.1
    · easy h hp hpc
      case ok => rw [Ok, hpc, upd_same]; exact hk
      case pl => exact hL.1
      case slk => exact PSlk.keep h.slk hpc rfl rfl (by simp [hp, Pc.self, hf]) (by rw [hp]; rfl) rfl rfl
  obtain ⟨l', h1, h2⟩ := key (if s.fib t then .slk k else .enq k) (by cases s.fib t <;> simp)
  have h3 := h2.pl.lt h2.small
  refine ⟨l', v, Lk.replay1 h1, by simp [Cv.replay, Cv.next], by simp, ?_⟩
  rw [Nat.mod_eq_of_lt h3]
  exact h2

theorem Inv.freeStep {s : St} {l : Lk} {v : Cv} {t : Nat} {k : K} (h : Inv s l v) (hp : s.pc t = .free k) :
    Good (returned { s with slow := none } t k).1 (returned { s with slow := none } t k).2 l v := by
  have hk := h.ok t
  rw [Ok, hp] at hk
  obtain ⟨hr, hm, hc, hk⟩ := hk
  rw [returned_eq (s := { s with slow := none }) k hc.2]
  have hpc : (({ s with slow := none } : St).to t .own).pc = upd s.pc t .own := rfl
  refine ⟨_, v.leave t, kev_lk ((h.owner t).2 (by rw [hp]; rfl)) k, kev_cv hk, kev_ok t k, ?_⟩
  easy h hp hpc
  case ok => rw [Ok, hpc, upd_same]; exact ⟨hr, hm, hc, by simp [Cv.leave]⟩
  case slow => exact PSlow.drop h.slow (t := t) (by rw [hp]; rfl) rfl (hs_ne hpc) (by rw [hpc, upd_same]; rfl)

theorem Inv.slkStep {s : St} {l : Lk} {v : Cv} {t : Nat} {k : K} (h : Inv s l v) (hp : s.pc t = .slk k) (h0 : s.slk t = none) :
    Good { s.to t (.enq k) with slk := upd s.slk t (some (.thr t)) } [] l v := by
  have hk := h.ok t
  rw [Ok, hp] at hk
  obtain ⟨hf, hk⟩ := hk
  apply Good.nil
  have hpc : ({ s.to t (.enq k) with slk := upd s.slk t (some (.thr t)) } : St).pc = upd s.pc t (.enq k) := rfl
  easy h hp hpc
  case ok => rw [Ok, hpc, upd_same]; exact hk
  case slk =>
    exact PSlk.take h.slk h0 rfl (hh_ne hpc rfl) (by rw [hpc, upd_same]; exact hf) (by rw [hp]; rfl) (by rw [hpc, upd_same]; rfl) rfl rfl

theorem Inv.enqStep {s : St} {l : Lk} {v : Cv} {t : Nat} {k : K} (h : Inv s l v) (hp : s.pc t = .enq k) :
    Good { s.to t (if s.fib t then .rel k 0 else .st k) with mq := s.mq ++ [t], mfut := upd s.mfut t 0 } [] l v := by
  have hk := h.ok t
  rw [Ok, hp] at hk
  obtain ⟨hr, hm, hc, hk⟩ := hk
  apply Good.nil
  cases hf : s.fib t
  · simp only [Bool.false_eq_true, if_false]
    have hpc : ({ s.to t (.st k) with mq := s.mq ++ [t], mfut := upd s.mfut t 0 } : St).pc = upd s.pc t (.st k) := rfl
    easy h hp hpc
    case ok => rw [Ok, hpc, upd_same]; exact ⟨hf, hr, by simp, hm.2, by simp, hc, hk⟩
    case slk => exact PSlk.keep h.slk hpc rfl rfl (by simp [hp, Pc.self, hf]) (by rw [hp]; rfl) rfl rfl
    case pl =>
      exact h.pl.list h.slow (ls_ne hpc) rfl rfl (by rw [hp]; rfl) (by rw [hpc, upd_same]; rfl) (by rw [hpc, upd_same]; rfl)
        (by rw [hp, hpc, upd_same]; rfl) (by rw [hp, hpc, upd_same]; rfl)
  · simp only [if_true]
    have hpc : ({ s.to t (.rel k 0) with mq := s.mq ++ [t], mfut := upd s.mfut t 0 } : St).pc = upd s.pc t (.rel k 0) := rfl
    easy h hp hpc
    case ok => rw [Ok, hpc, upd_same]; exact ⟨hr, by simp, hm.2, by simp, rfl, hc, hk⟩
    case pl =>
      exact h.pl.list h.slow (ls_ne hpc) rfl rfl (by rw [hp]; rfl) (by rw [hpc, upd_same]; rfl) (by rw [hpc, upd_same]; rfl)
        (by rw [hp, hpc, upd_same]; rfl) (by rw [hp, hpc, upd_same]; rfl)

theorem Inv.stStep {s : St} {l : Lk} {v : Cv} {t : Nat} {k : K} (h : Inv s l v) (hp : s.pc t = .st k) :
    Good (s.to t (.rel k (s.mfut t))) [] l v := by
  have hk := h.ok t
  rw [Ok, hp] at hk
  obtain ⟨hf, hr, hm, hm2, h0, hk⟩ := hk
  apply Good.nil
  have hpc : (s.to t (.rel k (s.mfut t))).pc = upd s.pc t (.rel k (s.mfut t)) := rfl
  easy h hp hpc
  case ok => rw [Ok, hpc, upd_same]; exact ⟨hr, hm, hm2, h0, h0, hk⟩
  case slk => exact PSlk.keep h.slk hpc rfl rfl (by simp [hp, Pc.self, hf]) (by rw [hp]; rfl) rfl rfl

theorem Inv.relStep {s : St} {l : Lk} {v : Cv} {t st : Nat} {k : K} (h : Inv s l v) (hp : s.pc t = .rel k st) :
    Good { s.to t (if s.fib t then .susp (.mx k) else .fwait (.mx k) st) with slow := none } [] l v := by
  have hk := h.ok t
  rw [Ok, hp] at hk
  obtain ⟨hr, hm, hm2, h0, h1, hc, hk⟩ := hk
  apply Good.nil
  cases hf : s.fib t
  · simp only [Bool.false_eq_true, if_false]
    have hpc : ({ s.to t (.fwait (.mx k) st) with slow := none } : St).pc = upd s.pc t (.fwait (.mx k) st) := rfl
    easy h hp hpc
    case ok => rw [Ok, hpc, upd_same]; exact ⟨hf, hr, hc, hk, h1, .inl ⟨h0, .inl ⟨hm, hm2⟩⟩⟩
    case slow => exact PSlow.drop h.slow (t := t) (by rw [hp]; rfl) rfl (hs_ne hpc) (by rw [hpc, upd_same]; rfl)
    case slk => exact PSlk.keep h.slk hpc rfl rfl (by simp [hp, Pc.self, hf]) (by rw [hp]; rfl) rfl rfl
  · simp only [if_true]
    have hpc : ({ s.to t (.susp (.mx k)) with slow := none } : St).pc = upd s.pc t (.susp (.mx k)) := rfl
    easy h hp hpc
    case ok => rw [Ok, hpc, upd_same]; exact ⟨hf, hr, .inl ⟨hm, hm2⟩, hc, hk⟩
    case cur => simp [hp, Pc.cur, W.cur]
    case slow => exact PSlow.drop h.slow (t := t) (by rw [hp]; rfl) rfl (hs_ne hpc) (by rw [hpc, upd_same]; rfl)
    case slk => exact PSlk.keep h.slk hpc rfl rfl (by simp [hp, Pc.self, hf]) (by rw [hp]; rfl) rfl rfl

theorem Inv.suspStep {s : St} {l : Lk} {v : Cv} {t : Nat} {w : W} (h : Inv s l v) (hp : s.pc t = .susp w) :
    s.fst t = .running ∧ Good { s.to t (.swap w) with fst := upd s.fst t .waiting } [] l v := by
  have hk := h.ok t
  have hpc : ({ s.to t (.swap w) with fst := upd s.fst t .waiting } : St).pc = upd s.pc t (.swap w) := rfl
  rw [Ok, hp] at hk
  cases w with
  | dir r => exact hk.elim
  | mx k =>
    refine ⟨hk.2.1.1, .nil ?_⟩
    easy h hp hpc
    case ok => rw [Ok, hpc, upd_same]; exact ⟨hk.1, hk.2.1.2, hk.2.2⟩
  | cv a g =>
    refine ⟨hk.2.1.1, .nil ?_⟩
    easy h hp hpc
    case ok => rw [Ok, hpc, upd_same]; exact ⟨hk.1, hk.2.1.2, hk.2.2⟩

theorem Inv.swapStep {s : St} {l : Lk} {v : Cv} {t : Nat} {w : W} (h : Inv s l v) (hp : s.pc t = .swap w) :
    Good { s.to t (.parked w) with slk := upd s.slk t none } [] l v := by
  have hk := h.ok t
  have hpc : ({ s.to t (.parked w) with slk := upd s.slk t none } : St).pc = upd s.pc t (.parked w) := rfl
  rw [Ok, hp] at hk
  have hS : PSlk { s.to t (.parked w) with slk := upd s.slk t none } :=
    PSlk.drop h.slk (t := t) (by rw [hp]; rfl) rfl (hh_ne hpc rfl) (by rw [hpc, upd_same]; rfl) (by rw [hp]; rfl)
      (by rw [hpc, upd_same]; rfl) rfl rfl
  apply Good.nil
  cases w with
  | dir r => exact hk.elim
  | mx k =>
    easy h hp hpc
    case ok => rw [Ok, hpc, upd_same]; exact ⟨hk.1, hk.2.2.2.1, hk.2.2.2.2, .inl ⟨hk.2.1, hk.2.2.1⟩⟩
    case slk => exact hS
  | cv a g =>
    easy h hp hpc
    case ok => rw [Ok, hpc, upd_same]; exact ⟨hk.1, hk.2.2.1, .inl ⟨hk.2.1, hk.2.2.2⟩⟩
    case slk => exact hS

/-- The wait for the mutex is over. -/
theorem Inv.lockedStep {s : St} {l : Lk} {v : Cv} {t : Nat} {k : K} (h : Inv s l v)
    (hp : s.pc t = .check k ∨ ∃ st, s.pc t = .fwait (.mx k) st ∨ s.pc t = .fasleep (.mx k) st ∨ s.pc t = .fcheck (.mx k) st)
    (hr : Run s t) (hm : NoM s t) (hc : NoC s t) (hk : KOk v t k) : Good (lockedSlow s t k).1 (lockedSlow s t k).2 l v := by
  have he : { s with mref := upd s.mref t none } = s := by rw [upd_self hm.2]
  simp only [lockedSlow, hm.2, if_true, List.nil_append, he]
  simp only [locked, returned_eq k hc.2]
  have hpc : (s.to t .own).pc = upd s.pc t .own := rfl
  have hcl : (s.pc t).qd = true ∧ (s.pc t).pre = false ∧ (s.pc t).park = false ∧ (s.pc t).hs = false ∧
      (s.pc t).self (s.fib t) = false ∧ (s.pc t).rs = none ∧ (s.pc t).mc = none ∧ (s.pc t).cc = none ∧ (s.pc t).cur = none ∧
      s.pc t ≠ .out ∧ ∀ r y, s.pc t ≠ .res .fsys r y := by
    rcases hp with hp | ⟨st, hp | hp | hp⟩ <;>
      simp [hp, Pc.qd, W.mx?, Pc.pre, Pc.park, Pc.hs, Pc.self, Pc.rs, Pc.mc, Pc.cc, Pc.cur]
  obtain ⟨c1, c2, c3, c4, c5, c6, c7, c8, c9, c10, c11⟩ := hcl
  have hL := h.pl.granted (s' := s.to t .own) (ls_ne hpc) rfl rfl c1 c2 hm.1 (by rw [hpc, upd_same]; rfl)
  refine ⟨_, v.leave t, by simp only [Lk.replay, hL.2]; exact kev_lk ((hL.1.owner t).2 (by rw [hpc, upd_same]; rfl)) k, by simp only [Cv.replay, Cv.next]; exact kev_cv hk,
    by simpa using kev_ok t k, ?_⟩
  refine h.simple hpc ?_ rfl (.inl c3) (fun r y hy => absurd hy (c11 r y)) (by rw [c9]; rfl) c10 ⟨rfl, rfl, rfl, rfl, rfl⟩ ?_
    (by rw [Lnk, hpc, upd_same]; trivial) (by rw [Fs, hpc, upd_same]; trivial) (PSlow.keep h.slow hpc rfl (by rw [c4]; rfl))
    (PSlk.keep h.slk hpc rfl rfl (by rw [c5]; rfl) (by rw [c6]; rfl) rfl rfl) (PM.keep h.mref hpc rfl (by rw [c7]; rfl))
    (PC.keep h.cref hpc rfl (by rw [c8]; rfl) rfl rfl) hL.1 (h.pv.keep rfl rfl rfl rfl)
  · intro u hu _; constructor <;> simp +contextual [St.to, upd, hu, Cv.leave]
  · rw [Ok, hpc, upd_same]; exact ⟨hr, hm, hc, by simp [Cv.leave]⟩

theorem Inv.checkStep {s : St} {l : Lk} {v : Cv} {t : Nat} {k : K} (h : Inv s l v) (hp : s.pc t = .check k) :
    t ∉ s.mq ∧ Good (lockedSlow s t k).1 (lockedSlow s t k).2 l v := by
  have hk := h.ok t
  rw [Ok, hp] at hk
  exact ⟨hk.2.2.1.1, h.lockedStep (.inl hp) hk.2.1 hk.2.2.1 hk.2.2.2.1 hk.2.2.2.2⟩

end Verif.Fiber.Sync
