import Verif.Fiber.SyncLock
/-!
# Putting the invariant together again after a step
-/

namespace Verif.Fiber.Sync

structure PV (s : St) (v : Cv) : Prop where
  waiting : v.waiting = s.cq.filter fun t => !s.sat t
  cqnd : s.cq.Nodup
  sat : ∀ t, s.fib t = false → s.sat t = false

theorem Inv.pl {s : St} {l : Lk} {v : Cv} (h : Inv s l v) : PL s l := ⟨h.owner, h.qd, h.nodup, h.count, h.tok⟩
theorem Inv.pv {s : St} {l : Lk} {v : Cv} (h : Inv s l v) : PV s v := ⟨h.waiting, h.cqnd, h.sat⟩

/-- The timers are the same. -/
structure TSame (s s' : St) : Prop where
  tm : s'.tm = s.tm
  town : s'.town = s.town
  tlock : s'.tlock = s.tlock
  tawake : s'.tawake = s.tawake
  ntm : s'.ntm = s.ntm

/-- A step of `t` that may change something for `x`. -/
structure Ord (s s' : St) (v v' : Cv) (t x : Nat) : Prop where
  pc : ∀ u, u ≠ t → s'.pc u = s.pc u
  same : ∀ u, u ≠ t → u ≠ x → Same s s' v v' u
  fib : s'.fib = s.fib
  run : (s.pc t).park = false ∨ s.mref t = none ∧ s.cref t = none
  nf : ∀ r y, s.pc t = .res .fsys r y → ∀ w st, s.pc y ≠ .fasleep w st
  cur : (s'.pc t).cur = (s.pc t).cur
  small : s'.pc t ≠ .out → t < 2 ^ 32 - 1
  fst : x = t ∨ s'.fst x = s.fst x ∨ s.mref x = some (.thr t) ∨ s.cref x = some (.thr t)

/-- The same without the timers. -/
structure Ord0 (s s' : St) (v v' : Cv) (t x : Nat) : Prop where
  pc : ∀ u, u ≠ t → s'.pc u = s.pc u
  same : ∀ u, u ≠ t → u ≠ x → Same s s' v v' u
  run : (s.pc t).park = false ∨ s.mref t = none ∧ s.cref t = none
  nf : ∀ r y, s.pc t = .res .fsys r y → ∀ w st, s.pc y ≠ .fasleep w st
  small : s'.pc t ≠ .out → t < 2 ^ 32 - 1
  fst : x = t ∨ s'.fst x = s.fst x ∨ s.mref x = some (.thr t) ∨ s.cref x = some (.thr t)

/-- What holds for a timer, without what it has to do with a parked fiber. -/
structure TOk0 (s : St) (g : Nat) : Prop where
  unused : s.tm g = .unused ↔ s.ntm ≤ g
  lock : s.tlock g = if s.tm g = .look ∨ s.tm g = .exch ∨ s.tm g = .rlock ∨ s.tm g = .rset ∨ s.tm g = .rpush ∨ s.tm g = .unlock
    then some (.tim g) else none
  live : s.tm g = .exch ∨ s.tm g = .rlock ∨ s.tm g = .rset ∨ s.tm g = .rpush → s.tawake g = false
  cur : g < s.ntm → s.tawake g = false → (s.pc (s.town g)).cur = some g
  fresh : s.ntm ≤ g → s.tawake g = false
  fib : g < s.ntm → s.fib (s.town g) = true

theorem Lnk.frame {s s' : St} {u : Nat} (h : Lnk s u) (hp : s'.pc u = s.pc u)
    (hk : ∀ w, (s.pc u).mc = some w ∨ (s.pc u).cc = some w → (s.pc w).park = true →
      (s'.pc w).park = true ∧ s'.fst w = s.fst w) : Lnk s' u := by
  unfold Lnk at *
  rw [hp]
  cases hpc : s.pc u with
  | res g r w =>
    rw [hpc] at h hk
    have hc : g ≠ .fsys → (Pc.mc (.res g r w) = some w ∨ Pc.cc (.res g r w) = some w) := by
      cases g <;> cases r <;> simp [Pc.mc, Pc.cc]
    cases g with
    | rset => have := hk w (hc (by simp)) h; exact this.1
    | dset => have := hk w (hc (by simp)) h; exact this.1
    | rpush => have := hk w (hc (by simp)) h.1; exact ⟨this.1, by rw [this.2]; exact h.2⟩
    | dswap => have := hk w (hc (by simp)) h.1; exact ⟨this.1, by rw [this.2]; exact h.2⟩
    | _ => trivial
  | _ => trivial

theorem Fs.frame {s s' : St} {u : Nat} (h : Fs s u) (hp : s'.pc u = s.pc u) (hm : s'.mfut u = s.mfut u)
    (hc : s'.cfut u = s.cfut u) (hf : ∀ y r, s.pc y = .res .fsys r u → (∃ w st, s.pc u = .fasleep w st) → s'.pc y = s.pc y) :
    Fs s' u := by
  unfold Fs at *
  rw [hp]
  cases hpc : s.pc u with
  | fasleep w st =>
    rw [hpc] at h
    intro hne
    have : word s' u w = word s u w := by cases w <;> simp [word, hm, hc]
    rw [this] at hne
    obtain ⟨y, r, hy⟩ := h hne
    exact ⟨y, r, by rw [hf y r hy ⟨w, st, hpc⟩]; exact hy⟩
  | _ => trivial

theorem Inv.build0 {s s' : St} {l l' : Lk} {v v' : Cv} {t x : Nat} (h : Inv s l v) (o : Ord0 s s' v v' t x)
    (hT : ∀ g, TOk0 s' g) (hT' : ∀ g, s'.tm g = .rset ∨ s'.tm g = .rpush → s'.tm g = s.tm g ∧ s'.town g = s.town g)
    (hcur : ∀ t g, (s'.pc t).cur = some g → g < s'.ntm ∧ s'.town g = t ∧ s'.tawake g = false)
    (hok : Ok s' v' t) (hokx : x ≠ t → Ok s' v' x) (hl : Lnk s' t) (hf : Fs s' t) (hfx : x ≠ t → Fs s' x) (hslow : PSlow s')
    (hslk : PSlk s') (hm : PM s') (hc : PC s') (hL : PL s' l') (hV : PV s' v') : Inv s' l' v' := by
  -- who is going to be resumed by somebody else than `t` stays as it is
  have hpark : ∀ w, s.mref w ≠ some (.thr t) → s.cref w ≠ some (.thr t) → s.mref w ≠ none ∨ s.cref w ≠ none →
      (s.pc w).park = true → (s'.pc w).park = true ∧ s'.fst w = s.fst w := by
    intro w h1 h2 h3 h4
    have hwt : w ≠ t := by
      intro hw
      subst hw
      rcases o.run with h5 | ⟨h5, h6⟩
      · rw [h5] at h4; simp at h4
      · rcases h3 with h3 | h3
        · exact h3 h5
        · exact h3 h6
    refine ⟨by rw [o.pc w hwt]; exact h4, ?_⟩
    by_cases hwx : w = x
    · subst hwx
      rcases o.fst with h5 | h5 | h5 | h5
      · exact absurd h5 hwt
      · exact h5
      · exact absurd h5 h1
      · exact absurd h5 h2
    · exact (o.same w hwt hwx).fst
  have hparkT : ∀ g w, CPtr s w (.tim g) → (s.pc w).park = true → (s'.pc w).park = true ∧ s'.fst w = s.fst w := by
    intro g w h1 h2
    have h3 := (h.cref w (.tim g)).2 h1
    refine hpark w ?_ (by rw [h3]; simp) (.inr (by rw [h3]; simp)) h2
    intro h4
    have h5 := h.ok w
    unfold Ok at h5
    cases hpc : s.pc w with
    | parked y =>
      rw [hpc] at h5
      cases y with
      | mx k => have := h5.2.1.2; rw [h3] at this; simp at this
      | cv a b => have := h5.2.1.2; rw [h4] at this; simp at this
      | dir r => rw [hpc] at h2; simp [Pc.park] at h2
    | _ => rw [hpc] at h2; simp [Pc.park] at h2
  have hfs : ∀ u, u ≠ t → u ≠ x → Fs s' u := by
    intro u hu hux
    have hs := o.same u hu hux
    refine (h.fs u).frame hs.pc hs.mfut hs.cfut ?_
    intro y r hy ⟨w, st, hw⟩
    by_cases hyt : y = t
    · subst hyt; exact absurd hw (o.nf r u hy w st)
    · exact o.pc y hyt
  exact {
    small := by
      intro u hu
      by_cases hut : u = t
      · subst hut; exact o.small hu
      · rw [o.pc u hut] at hu; exact h.small u hu
    ok := by
      intro u
      by_cases hut : u = t
      · subst hut; exact hok
      · by_cases hux : u = x
        · subst hux; exact hokx hut
        · exact (o.same u hut hux).ok h.sat (h.ok u)
    slow := hslow
    slk := hslk
    mref := hm
    cref := hc
    lnk := by
      intro u
      by_cases hut : u = t
      · subst hut; exact hl
      · refine (h.lnk u).frame (o.pc u hut) ?_
        intro w hw hp
        rcases hw with hw | hw
        · have h1 := (h.mref w (.thr u)).2 ⟨u, rfl, hw⟩
          refine hpark w ?_ ?_ (.inl (by rw [h1]; simp)) hp
          · rw [h1]; simp; exact hut
          · intro h2
            have h5 := h.ok w
            unfold Ok at h5
            cases hpc : s.pc w with
            | parked y =>
              rw [hpc] at h5
              cases y with
              | mx k => have := h5.2.1.2; rw [h2] at this; simp at this
              | cv a b => have := h5.2.1.2; rw [h1] at this; simp at this
              | dir r => rw [hpc] at hp; simp [Pc.park] at hp
            | _ => rw [hpc] at hp; simp [Pc.park] at hp
        · have h1 := (h.cref w (.thr u)).2 hw
          refine hpark w ?_ ?_ (.inr (by rw [h1]; simp)) hp
          · intro h2
            have h5 := h.ok w
            unfold Ok at h5
            cases hpc : s.pc w with
            | parked y =>
              rw [hpc] at h5
              cases y with
              | mx k => have := h5.2.1.2; rw [h1] at this; simp at this
              | cv a b => have := h5.2.1.2; rw [h2] at this; simp at this
              | dir r => rw [hpc] at hp; simp [Pc.park] at hp
            | _ => rw [hpc] at hp; simp [Pc.park] at hp
          · rw [h1]; simp; exact hut
    owner := hL.owner
    qd := hL.qd
    nodup := hL.nodup
    count := hL.count
    tok := hL.tok
    waiting := hV.waiting
    cqnd := hV.cqnd
    sat := hV.sat
    fs := by
      intro u
      by_cases hut : u = t
      · subst hut; exact hf
      · by_cases hux : u = x
        · subst hux; exact hfx hut
        · exact hfs u hut hux
    tim := by
      intro g
      have hg := h.tim g
      have hg' := hT g
      refine ⟨hg'.unused, hg'.lock, hg'.live, hg'.cur, hg'.fresh, hg'.fib, ?_, ?_⟩
      · intro h1
        have h2 := hT' g (.inl h1)
        rw [h2.1] at h1
        rw [h2.2]
        exact (hparkT g _ ⟨.inr (.inl h1), rfl⟩ (hg.park h1)).1
      · intro h1
        have h2 := hT' g (.inr h1)
        rw [h2.1] at h1
        rw [h2.2]
        have h3 := hg.park' h1
        have h4 := hparkT g _ ⟨.inr (.inr h1), rfl⟩ h3.1
        exact ⟨h4.1, by rw [h4.2]; exact h3.2⟩
    tcur := hcur }

theorem Inv.build {s s' : St} {l l' : Lk} {v v' : Cv} {t x : Nat} (h : Inv s l v) (o : Ord s s' v v' t x) (ht : TSame s s')
    (hok : Ok s' v' t) (hokx : x ≠ t → Ok s' v' x) (hl : Lnk s' t) (hf : Fs s' t) (hfx : x ≠ t → Fs s' x) (hslow : PSlow s')
    (hslk : PSlk s') (hm : PM s') (hc : PC s') (hL : PL s' l') (hV : PV s' v') : Inv s' l' v' := by
  have hcur : ∀ u, (s'.pc u).cur = (s.pc u).cur := by
    intro u
    by_cases hu : u = t
    · subst hu; exact o.cur
    · rw [o.pc u hu]
  refine h.build0 ⟨o.pc, o.same, o.run, o.nf, o.small, o.fst⟩ (fun g => ?_) (fun g _ => by rw [ht.tm, ht.town]; exact ⟨rfl, rfl⟩)
    (fun u g => by rw [hcur, ht.ntm, ht.town, ht.tawake]; exact h.tcur u g) hok hokx hl hf hfx hslow hslk hm hc hL hV
  have hg := h.tim g
  exact ⟨by rw [ht.tm, ht.ntm]; exact hg.unused, by rw [ht.tlock, ht.tm]; exact hg.lock,
    by rw [ht.tm, ht.tawake]; exact hg.live, by rw [ht.ntm, ht.tawake, ht.town, hcur]; exact hg.cur,
    by rw [ht.ntm, ht.tawake]; exact hg.fresh, by rw [ht.ntm, ht.town, o.fib]; exact hg.fib⟩

end Verif.Fiber.Sync
