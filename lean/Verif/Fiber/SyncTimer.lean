import Verif.Fiber.SyncCond
/-!
# Every step keeps the invariant: timers
-/

namespace Verif.Fiber.Sync

/-! ## The parts that timers have to do with -/

theorem PSlk.tsame {s s' : St} (h : PSlk s) (he : s'.slk = s.slk) (hpc : s'.pc = s.pc) (hf : s'.fib = s.fib)
    (ho : s'.town = s.town) (ht : ∀ g, s'.tm g = .rset ↔ s.tm g = .rset) : PSlk s' := by
  intro w r
  rw [he, h w r]
  cases r with
  | thr t => simp only [Holds, hpc, hf]
  | tim g => simp only [Holds, ht, ho]

theorem PSlk.ttake {s s' : St} {g : Nat} (h : PSlk s) (h0 : s.slk (s.town g) = none)
    (he : s'.slk = upd s.slk (s.town g) (some (.tim g))) (hpc : s'.pc = s.pc) (hf : s'.fib = s.fib) (ho : s'.town = s.town)
    (ht : s'.tm = upd s.tm g .rset) : PSlk s' := by
  intro w r
  rw [he]
  have hr : ∀ r, Holds s' w r ↔ Holds s w r ∨ r = .tim g ∧ s.town g = w := by
    intro r
    cases r with
    | thr t => simp [Holds, hpc, hf]
    | tim g' =>
      simp only [Holds, ht, ho]
      by_cases hg : g' = g
      · subst hg; simp
      · simp [upd, hg]
  rw [hr]
  by_cases hw : w = s.town g
  · rw [hw, upd_same]
    have := h (s.town g) r
    rw [h0] at this
    constructor
    · intro h1; exact .inr ⟨(Option.some.inj h1).symm, rfl⟩
    · rintro (h1 | ⟨h1, -⟩)
      · exact absurd (this.2 h1) (by simp)
      · rw [h1]
  · rw [upd_ne _ _ hw, h w r]
    constructor
    · exact .inl
    · rintro (h1 | ⟨-, h1⟩)
      · exact h1
      · exact absurd h1.symm hw

theorem PSlk.tdrop {s s' : St} {g : Nat} {q : TPc} (h : PSlk s) (h0 : s.tm g = .rset)
    (he : s'.slk = upd s.slk (s.town g) none) (hpc : s'.pc = s.pc) (hf : s'.fib = s.fib) (ho : s'.town = s.town)
    (ht : s'.tm = upd s.tm g q) (hq : q ≠ .rset) : PSlk s' := by
  intro w r
  rw [he]
  have h2 : s.slk (s.town g) = some (.tim g) := (h _ (.tim g)).2 ⟨h0, rfl⟩
  have hr : ∀ r, Holds s' w r ↔ Holds s w r ∧ r ≠ .tim g := by
    intro r
    cases r with
    | thr t => simp [Holds, hpc, hf]
    | tim g' =>
      simp only [Holds, ht, ho]
      by_cases hg : g' = g
      · subst hg; simp [hq]
      · simp [upd, hg]
  rw [hr]
  by_cases hw : w = s.town g
  · rw [hw, upd_same]
    constructor
    · intro h1; simp at h1
    · rintro ⟨h1, h3⟩
      have := (h _ _).2 h1
      rw [h2] at this
      exact absurd (Option.some.inj this).symm h3
  · rw [upd_ne _ _ hw, h w r]
    constructor
    · intro h1
      refine ⟨h1, fun h3 => ?_⟩
      rw [h3] at h1
      exact hw h1.2.symm
    · exact fun h1 => h1.1

/-- The timer has a pointer to the block of its owner. -/
def TPc.ptr : TPc → Bool
  | .rlock => true
  | .rset => true
  | .rpush => true
  | _ => false

theorem cptr_tim {s : St} {w g : Nat} : CPtr s w (.tim g) ↔ (s.tm g).ptr = true ∧ s.town g = w := by
  simp only [CPtr]
  cases s.tm g <;> simp [TPc.ptr]

theorem PC.tsame {s s' : St} (h : PC s) (he : s'.cref = s.cref) (hpc : s'.pc = s.pc) (ho : s'.town = s.town)
    (ht : ∀ g, (s'.tm g).ptr = (s.tm g).ptr) : PC s' := by
  intro w r
  rw [he, h w r]
  cases r with
  | thr t => simp only [CPtr, hpc]
  | tim g => rw [cptr_tim, cptr_tim, ht, ho]

theorem PC.ttake {s s' : St} {g : Nat} {q : TPc} (h : PC s) (h0 : s.cref (s.town g) = none)
    (he : s'.cref = upd s.cref (s.town g) (some (.tim g))) (hpc : s'.pc = s.pc) (ho : s'.town = s.town)
    (ht : s'.tm = upd s.tm g q) (hq : q.ptr = true) : PC s' := by
  intro w r
  rw [he]
  have hr : ∀ r, CPtr s' w r ↔ CPtr s w r ∨ r = .tim g ∧ s.town g = w := by
    intro r
    cases r with
    | thr t => simp [CPtr, hpc]
    | tim g' =>
      rw [cptr_tim, cptr_tim, ht, ho]
      by_cases hg : g' = g
      · subst hg; simp [hq]
      · simp [upd, hg]
  rw [hr]
  by_cases hw : w = s.town g
  · rw [hw, upd_same]
    have := h (s.town g) r
    rw [h0] at this
    constructor
    · intro h1; exact .inr ⟨(Option.some.inj h1).symm, rfl⟩
    · rintro (h1 | ⟨h1, -⟩)
      · exact absurd (this.2 h1) (by simp)
      · rw [h1]
  · rw [upd_ne _ _ hw, h w r]
    constructor
    · exact .inl
    · rintro (h1 | ⟨-, h1⟩)
      · exact h1
      · exact absurd h1.symm hw

theorem PC.tdrop {s s' : St} {g : Nat} {q : TPc} (h : PC s) (h0 : (s.tm g).ptr = true)
    (he : s'.cref = upd s.cref (s.town g) none) (hpc : s'.pc = s.pc) (ho : s'.town = s.town)
    (ht : s'.tm = upd s.tm g q) (hq : q.ptr = false) : PC s' := by
  intro w r
  rw [he]
  have h2 : s.cref (s.town g) = some (.tim g) := (h _ (.tim g)).2 (cptr_tim.2 ⟨h0, rfl⟩)
  have hr : ∀ r, CPtr s' w r ↔ CPtr s w r ∧ r ≠ .tim g := by
    intro r
    cases r with
    | thr t => simp [CPtr, hpc]
    | tim g' =>
      rw [cptr_tim, cptr_tim, ht, ho]
      by_cases hg : g' = g
      · subst hg; simp [hq]
      · simp [upd, hg]
  rw [hr]
  by_cases hw : w = s.town g
  · rw [hw, upd_same]
    constructor
    · intro h1; simp at h1
    · rintro ⟨h1, h3⟩
      have := (h _ _).2 h1
      rw [h2] at this
      exact absurd (Option.some.inj this).symm h3
  · rw [upd_ne _ _ hw, h w r]
    constructor
    · intro h1
      refine ⟨h1, fun h3 => ?_⟩
      rw [h3] at h1
      exact hw h1.2.symm
    · exact fun h1 => h1.1

/-! ## Steps of a timer -/

/-- A step of the timer `g`. -/
structure TMove (s s' : St) (v v' : Cv) (g : Nat) : Prop where
  pc : s'.pc = s.pc
  same : ∀ u, u ≠ s.town g → Same s s' v v' u
  fib : s'.fib = s.fib
  slow : s'.slow = s.slow
  mref : s'.mref = s.mref
  mq : s'.mq = s.mq
  count : s'.count = s.count
  mfut : s'.mfut = s.mfut
  cfut : s'.cfut = s.cfut
  town : s'.town = s.town
  tawake : s'.tawake = s.tawake
  ntm : s'.ntm = s.ntm
  tm : ∀ g', g' ≠ g → s'.tm g' = s.tm g'
  tlock : ∀ g', g' ≠ g → s'.tlock g' = s.tlock g'
  fst : s'.fst (s.town g) = s.fst (s.town g) ∨ s'.fst (s.town g) = .ready ∧ s.cref (s.town g) = some (.tim g)

theorem Inv.tmove {s s' : St} {l : Lk} {v v' : Cv} {g : Nat} (h : Inv s l v) (o : TMove s s' v v' g)
    (hok : Ok s' v' (s.town g)) (hslk : PSlk s') (hc : PC s') (hV : PV s' v') (hg : TOk s' g) : Inv s' l v' where
  small := by rw [o.pc]; exact h.small
  ok := by
    intro u
    by_cases hu : u = s.town g
    · rw [hu]; exact hok
    · exact (o.same u hu).ok h.sat (h.ok u)
  slow := by rw [o.slow, o.pc]; exact h.slow
  slk := hslk
  mref := by rw [o.mref, o.pc]; exact h.mref
  cref := hc
  lnk := by
    intro u
    refine (h.lnk u).frame (by rw [o.pc]) ?_
    intro w hw hp
    refine ⟨by rw [o.pc]; exact hp, ?_⟩
    by_cases hwo : w = s.town g
    · rcases o.fst with h1 | ⟨-, h1⟩
      · rw [hwo]; exact h1
      · rw [← hwo] at h1
        rcases hw with hw | hw
        · have h2 := (h.mref w (.thr u)).2 ⟨u, rfl, hw⟩
          have h3 := ((h.ok w).asleep hp (.inl (by rw [h2]; simp))).2.2
          rcases h3 with ⟨k, -, h3, -⟩ | ⟨a, b, -, h3, -⟩
          · rw [h3.2] at h1; simp at h1
          · rw [h3.2] at h2; simp at h2
        · have h2 := (h.cref w (.thr u)).2 hw
          rw [h2] at h1; simp at h1
    · exact (o.same w hwo).fst
  owner := by rw [o.pc]; exact h.owner
  qd := by rw [o.pc]; exact h.qd
  nodup := h.nodup
  count := by rw [o.count]; exact h.count
  tok := by
    obtain ⟨G, P, d, k⟩ := h.tok
    exact ⟨G, P, d, by rw [o.mq]; exact k.queue, by rw [o.pc]; exact k.pre, k.short, by rw [o.pc]; exact k.duty, k.owned, k.due,
      k.token⟩
  waiting := hV.waiting
  cqnd := hV.cqnd
  sat := hV.sat
  fs := by
    intro u
    exact (h.fs u).frame (by rw [o.pc]) (by rw [o.mfut]) (by rw [o.cfut]) (fun y r _ _ => by rw [o.pc])
  tim := by
    intro g'
    by_cases hgg : g' = g
    · rw [hgg]; exact hg
    · have k := h.tim g'
      refine ⟨by rw [o.tm g' hgg, o.ntm]; exact k.unused, by rw [o.tlock g' hgg, o.tm g' hgg]; exact k.lock,
        by rw [o.tm g' hgg, o.tawake]; exact k.live, by rw [o.ntm, o.tawake, o.town, o.pc]; exact k.cur,
        by rw [o.ntm, o.tawake]; exact k.fresh, by rw [o.ntm, o.town, o.fib]; exact k.fib,
        by rw [o.tm g' hgg, o.town, o.pc]; exact k.park, ?_⟩
      rw [o.tm g' hgg, o.town, o.pc]
      intro h1
      have h2 := k.park' h1
      refine ⟨h2.1, ?_⟩
      by_cases hto : s.town g' = s.town g
      · rw [hto] at h2 ⊢
        rcases o.fst with h3 | ⟨h3, -⟩
        · rw [h3]; exact h2.2
        · exact h3
      · rw [(o.same _ hto).fst]; exact h2.2
  tcur := by rw [o.pc, o.ntm, o.town, o.tawake]; exact h.tcur

theorem Inv.tused {s : St} {l : Lk} {v : Cv} {g : Nat} (h : Inv s l v) (hp : s.tm g ≠ .unused) : g < s.ntm := by
  apply Nat.lt_of_not_le
  intro h1; exact hp ((h.tim g).unused.2 h1)

/-- A step that changes nothing but the position and the lock of the timer. -/
theorem Inv.tpos {s : St} {l : Lk} {v : Cv} {g : Nat} {q : TPc} {k : Option Who} (h : Inv s l v) (h0 : (s.tm g).ptr = false) (h1 : q.ptr = false) (hlk : TOk0 { s with tm := upd s.tm g q, tlock := upd s.tlock g k } g) :
    Inv { s with tm := upd s.tm g q, tlock := upd s.tlock g k } l v := by
  have hq' : q ≠ .rset ∧ q ≠ .rpush := by constructor <;> (intro hc; rw [hc] at h1; simp [TPc.ptr] at h1)
  refine h.tmove (g := g) ⟨rfl, fun u _ => ?_, rfl, rfl, rfl, rfl, rfl, rfl, rfl, rfl, rfl, rfl, fun g' hg' => upd_ne _ _ hg',
    fun g' hg' => upd_ne _ _ hg', .inl rfl⟩ ?_ ?_ ?_ (h.pv.keep rfl rfl rfl rfl) ?_
  · constructor <;> first | rfl | exact id | exact fun h _ => h | exact fun _ => rfl
  · refine Same.ok (s := s) (v := v) ?_ h.sat (h.ok _)
    constructor <;> first | rfl | exact id | exact fun h _ => h | exact fun _ => rfl
  · refine PSlk.tsame h.slk rfl rfl rfl rfl ?_
    intro g'
    show upd _ _ _ _ = _ ↔ _
    by_cases hg' : g' = g
    · subst hg'
      rw [upd_same]
      constructor
      · intro h2; exact absurd h2 hq'.1
      · intro h2; rw [h2] at h0; simp [TPc.ptr] at h0
    · rw [upd_ne _ _ hg']
  · refine PC.tsame h.cref rfl rfl rfl ?_
    intro g'
    show TPc.ptr (upd _ _ _ _) = _
    by_cases hg' : g' = g
    · subst hg'; rw [upd_same, h0, h1]
    · rw [upd_ne _ _ hg']
  · refine ⟨hlk.unused, hlk.lock, hlk.live, hlk.cur, hlk.fresh, hlk.fib, ?_, ?_⟩
    · intro h2
      have h3 : upd s.tm g q g = .rset := h2
      rw [upd_same] at h3; exact absurd h3 hq'.1
    · intro h2
      have h3 : upd s.tm g q g = .rpush := h2
      rw [upd_same] at h3; exact absurd h3 hq'.2

/-- What holds for a timer after such a step. -/
theorem Inv.tok0 {s s' : St} {l : Lk} {v : Cv} {g : Nat} (h : Inv s l v) (hp : s.tm g ≠ .unused) (hq : s'.tm g ≠ .unused)
    (hpc : s'.pc = s.pc) (hf : s'.fib = s.fib) (ho : s'.town = s.town) (ha : s'.tawake = s.tawake) (hn : s'.ntm = s.ntm)
    (hl : s'.tlock g = if s'.tm g = .look ∨ s'.tm g = .exch ∨ s'.tm g = .rlock ∨ s'.tm g = .rset ∨ s'.tm g = .rpush ∨ s'.tm g = .unlock
      then some (.tim g) else none)
    (hlv : s'.tm g = .exch ∨ s'.tm g = .rlock ∨ s'.tm g = .rset ∨ s'.tm g = .rpush → s.tawake g = false) : TOk0 s' g := by
  have hu := h.tused hp
  have k := h.tim g
  refine ⟨?_, hl, by rw [ha]; exact hlv, by rw [hn, ha, hpc, ho]; exact k.cur, by rw [hn, ha]; exact k.fresh,
    by rw [hn, hf, ho]; exact k.fib⟩
  rw [hn]
  constructor
  · intro h1; exact absurd h1 hq
  · intro h1; omega

theorem Inv.fireStep {s : St} {l : Lk} {v : Cv} {g : Nat} {q : TPc} (h : Inv s l v) (hp : s.tm g = .armed)
    (hq : q = .lock ∨ q = .over) : Inv { s with tm := upd s.tm g q } l v := by
  have hl := (h.tim g).lock
  rw [hp] at hl
  simp at hl
  have he : ({ s with tm := upd s.tm g q } : St) = { s with tm := upd s.tm g q, tlock := upd s.tlock g none } := by rw [upd_self hl]
  rw [he]
  refine h.tpos (by rw [hp]; rfl) (by rcases hq with h | h <;> rw [h] <;> rfl) ?_
  refine h.tok0 (by simp [hp]) ?_ rfl rfl rfl rfl rfl ?_ ?_
  · simp; rcases hq with h | h <;> simp [h]
  · simp; rcases hq with h | h <;> simp [h]
  · simp; rcases hq with h | h <;> simp [h]

theorem Inv.timerStep {s : St} {l : Lk} {v : Cv} (h : Inv s l v) (g : Nat) : Good (timerStep s g).1 (timerStep s g).2 l v := by
  have k := h.tim g
  unfold Sync.timerStep
  cases hp : s.tm g with
  | unused => exact .nil h
  | armed => exact .nil h
  | over => exact .nil h
  | lock =>
    simp only
    split
    · refine .nil (h.tpos (by rw [hp]; rfl) rfl ?_)
      exact h.tok0 (by simp [hp]) (by simp) rfl rfl rfl rfl rfl (by simp) (by simp)
    · exact .nil h
  | look =>
    simp only
    have hl : s.tlock g = some (.tim g) := by rw [k.lock, hp]; simp
    refine .nil ?_
    have he : ∀ q, ({ s with tm := upd s.tm g q } : St) = { s with tm := upd s.tm g q, tlock := upd s.tlock g (some (.tim g)) } := by
      intro q; rw [upd_self hl]
    rw [he]
    refine h.tpos (by rw [hp]; rfl) (by split <;> rfl) ?_
    refine h.tok0 (by simp [hp]) ?_ rfl rfl rfl rfl rfl ?_ ?_
    · simp; split <;> simp
    · simp; split <;> simp
    · simp; split <;> simp_all
  | unlock =>
    simp only
    refine .nil (h.tpos (by rw [hp]; rfl) rfl ?_)
    exact h.tok0 (by simp [hp]) (by simp) rfl rfl rfl rfl rfl (by simp) (by simp)
  | exch =>
    have hl : s.tlock g = some (.tim g) := by rw [k.lock, hp]; simp
    have ha : s.tawake g = false := k.live (.inl hp)
    have hu := h.tused (g := g) (by simp [hp])
    have hcur := k.cur hu ha
    have hfo := k.fib hu
    simp only [ha, Bool.false_eq_true, if_false, List.nil_append]
    cases hsat : s.sat (s.town g)
    · simp only [Bool.false_eq_true, if_false]
      -- the owner has not been notified
      have hcs : s.cref (s.town g) = none ∧ s.town g ∈ s.cq := by
        have hko := h.ok (s.town g)
        have k1 : CSt s v (s.town g) → s.cref (s.town g) = none ∧ s.town g ∈ s.cq := by
          rintro (⟨-, h1, h2, -⟩ | ⟨⟨h1, -⟩, -⟩)
          · exact ⟨h2, h1⟩
          · rw [hsat] at h1; simp at h1
        have k4 : CDone s v (s.town g) → False := fun h => by have := h.1.1; rw [hsat] at this; simp at this
        have k6 : ∀ a b c, UOk s v (s.town g) (.wait a b c) → s.cref (s.town g) = none ∧ s.town g ∈ s.cq := by
          intro a b c hu
          simp only [UOk, hfo, if_true] at hu
          exact k1 hu
        have k7 : ∀ u, u.cur = some g → UOk s v (s.town g) u → s.cref (s.town g) = none ∧ s.town g ∈ s.cq := by
          intro u hu
          cases u with
          | user => simp [U.cur] at hu
          | wait a b c => exact k6 a b c
        rw [Ok] at hko
        cases hpw : s.pc (s.town g) with
        | parked x => rw [hpw] at hko hcur; cases x <;> simp only [OkAt, Pc.cur, W.cur] at hko hcur <;> grind
        | susp x => rw [hpw] at hko hcur; cases x <;> simp only [OkAt, Pc.cur, W.cur] at hko hcur <;> grind
        | swap x => rw [hpw] at hko hcur; cases x <;> simp only [OkAt, Pc.cur, W.cur] at hko hcur <;> grind
        | ul u => rw [hpw] at hko hcur; exact k7 u hcur hko.2.2.1
        | sub u p => rw [hpw] at hko hcur; exact k7 u hcur hko.2.2.1
        | usl u p => rw [hpw] at hko hcur; exact k7 u hcur hko.2.2.1
        | wake u p => rw [hpw] at hko hcur; exact k7 u hcur hko.2.2.1
        | urel u p w => rw [hpw] at hko hcur; exact k7 u hcur hko.2.2.1
        | res z r w =>
          rw [hpw] at hko hcur
          cases r with
          | unlock u p => exact k7 u hcur hko.2.2.1.1
          | _ => simp [Pc.cur] at hcur
        | cpost a b => rw [hpw] at hko; exact k1 hko.2.2.2
        | crem a b => rw [hpw] at hko; exact (k4 hko.2.2.2).elim
        | crm a b => rw [hpw] at hko; have := hko.2.2.2.2.1; rw [hsat] at this; simp at this
        | cawake a b => rw [hpw] at hko; have := hko.2.2.2.2.1; rw [hsat] at this; simp at this
        | _ => rw [hpw] at hcur; simp [Pc.cur] at hcur
      have hmem : s.town g ∈ v.waiting := by rw [h.waiting, List.mem_filter]; exact ⟨hcs.2, by simp [hsat]⟩
      refine ⟨l, ⟨v.waiting.erase (s.town g), upd v.ph (s.town g) .timedOut⟩, by simp [Lk.replay, Lk.next],
        Cv.replay1 (by simp [Cv.next, hmem]), by simp, ?_⟩
      refine h.tmove (g := g) ⟨rfl, fun u hu => ?_, rfl, rfl, rfl, rfl, rfl, rfl, rfl, rfl, rfl, rfl, fun g' hg' => upd_ne _ _ hg',
        fun g' hg' => rfl, .inl rfl⟩ ?_ ?_ ?_ ?_ ?_
      · constructor <;> first | rfl | (simp [upd, hu]; done) | exact id | exact fun h _ => h | exact fun _ => rfl
      · refine (h.ok _).map rfl rfl rfl rfl rfl (fun _ => upd_same _ _ _) id ?_ (fun a b c => ⟨a, b, c⟩) (fun _ => id) (fun _ => id) ?_ ?_ ?_ ?_ ?_ ?_
        · intro h1; exact absurd hcs.2 h1.1
        · intro _ h1; exact absurd hcs.2 h1.1
        · intro h1; exact absurd hcs.2 h1.1
        · intro _ _
          exact .inr ⟨⟨upd_same _ _ _, .inl (upd_same _ _ _)⟩, by show upd _ _ _ _ ≠ _; rw [upd_same]; simp⟩
        · intro _ h1; have := h1.1.1; rw [hsat] at this; simp at this
        · intro h1; rw [hfo] at h1; simp at h1
        · intro h1; rw [hfo] at h1; simp at h1
      · refine PSlk.tsame h.slk rfl rfl rfl rfl ?_
        intro g'
        show upd _ _ _ _ = _ ↔ _
        by_cases hg' : g' = g
        · subst hg'; rw [upd_same, hp]; simp
        · rw [upd_ne _ _ hg']
      · exact PC.ttake h.cref hcs.1 rfl rfl rfl rfl rfl
      · refine ⟨?_, h.cqnd, ?_⟩
        · show v.waiting.erase (s.town g) = s.cq.filter fun t => !(upd s.sat (s.town g) true t)
          rw [h.waiting, List.Nodup.erase_eq_filter (List.Pairwise.filter _ h.cqnd), List.filter_filter]
          apply List.filter_congr
          intro x _
          by_cases hx : x = s.town g
          · rw [hx, upd_same]; simp
          · rw [upd_ne _ _ hx]; simp [hx]
        · intro x hx
          show upd _ _ _ _ = _
          by_cases hxo : x = s.town g
          · rw [hxo] at hx; rw [show s.fib (s.town g) = false from hx] at hfo; simp at hfo
          · rw [upd_ne _ _ hxo]; exact h.sat x hx
      · have k0 := h.tok0 (s' := { s with tm := upd s.tm g .rlock, sat := upd s.sat (s.town g) true, cref := upd s.cref (s.town g) (some (.tim g)) })
          (g := g) (by simp [hp]) (by simp) rfl rfl rfl rfl rfl (by simp [hl]) (fun _ => ha)
        exact ⟨k0.unused, k0.lock, k0.live, k0.cur, k0.fresh, k0.fib, by simp, by simp⟩
    · simp only [if_true]
      refine .nil ?_
      have he : ∀ q, ({ s with tm := upd s.tm g q } : St) = { s with tm := upd s.tm g q, tlock := upd s.tlock g (some (.tim g)) } := by
        intro q; rw [upd_self hl]
      rw [he]
      refine h.tpos (by rw [hp]; rfl) rfl ?_
      exact h.tok0 (by simp [hp]) (by simp) rfl rfl rfl rfl rfl (by simp) (by simp)
  | rlock =>
    have hl : s.tlock g = some (.tim g) := by rw [k.lock, hp]; simp
    have ha : s.tawake g = false := k.live (.inr (.inl hp))
    have hu := h.tused (g := g) (by simp [hp])
    have hcr := (h.cref (s.town g) (.tim g)).2 ⟨.inl hp, rfl⟩
    simp only
    split
    · rename_i h0
      have hpark := h.parks (k.fib hu) h0 (.inr (by rw [hcr]; simp))
      refine .nil (h.tmove (g := g) ⟨rfl, fun u hu => ?_, rfl, rfl, rfl, rfl, rfl, rfl, rfl, rfl, rfl, rfl, fun g' hg' => upd_ne _ _ hg',
        fun g' hg' => rfl, .inl rfl⟩ ?_ ?_ ?_ (h.pv.keep rfl rfl rfl rfl) ?_)
      · constructor <;> first | rfl | exact id | exact fun h _ => h | exact fun _ => rfl
      · refine Same.ok (s := s) (v := v) ?_ h.sat (h.ok _)
        constructor <;> first | rfl | exact id | exact fun h _ => h | exact fun _ => rfl
      · exact PSlk.ttake h.slk h0 rfl rfl rfl rfl rfl
      · refine PC.tsame h.cref rfl rfl rfl ?_
        intro g'
        show TPc.ptr (upd _ _ _ _) = _
        by_cases hg' : g' = g
        · subst hg'; rw [upd_same, hp]; rfl
        · rw [upd_ne _ _ hg']
      · have k0 := h.tok0 (s' := { s with tm := upd s.tm g .rset, slk := upd s.slk (s.town g) (some (.tim g)) })
          (g := g) (by simp [hp]) (by simp) rfl rfl rfl rfl rfl (by simp [hl]) (fun _ => ha)
        exact ⟨k0.unused, k0.lock, k0.live, k0.cur, k0.fresh, k0.fib, fun _ => hpark, by simp⟩
    · exact .nil h
  | rset =>
    have hl : s.tlock g = some (.tim g) := by rw [k.lock, hp]; simp
    have ha : s.tawake g = false := k.live (.inr (.inr (.inl hp)))
    have hcr := (h.cref (s.town g) (.tim g)).2 ⟨.inr (.inl hp), rfl⟩
    have hpark := k.park hp
    simp only
    refine .nil (h.tmove (g := g) ⟨rfl, fun u hu => ?_, rfl, rfl, rfl, rfl, rfl, rfl, rfl, rfl, rfl, rfl, fun g' hg' => upd_ne _ _ hg',
      fun g' hg' => rfl, .inr ⟨upd_same _ _ _, hcr⟩⟩ ?_ ?_ ?_ (h.pv.keep rfl rfl rfl rfl) ?_)
    · constructor <;> first | rfl | (simp [upd, hu]; done) | exact id | exact fun h _ => h | exact fun _ => rfl
    · exact parked_fst (h.ok _) hpark (.inr (by rw [hcr]; simp)) rfl rfl rfl rfl rfl rfl rfl rfl
    · exact PSlk.tdrop h.slk hp rfl rfl rfl rfl rfl (by simp)
    · refine PC.tsame h.cref rfl rfl rfl ?_
      intro g'
      show TPc.ptr (upd _ _ _ _) = _
      by_cases hg' : g' = g
      · subst hg'; rw [upd_same, hp]; rfl
      · rw [upd_ne _ _ hg']
    · have k0 := h.tok0 (s' := { s with tm := upd s.tm g .rpush, fst := upd s.fst (s.town g) .ready, slk := upd s.slk (s.town g) none })
        (g := g) (by simp [hp]) (by simp) rfl rfl rfl rfl rfl (by simp [hl]) (fun _ => ha)
      exact ⟨k0.unused, k0.lock, k0.live, k0.cur, k0.fresh, k0.fib, by simp, fun _ => ⟨hpark, upd_same _ _ _⟩⟩
  | rpush =>
    have hl : s.tlock g = some (.tim g) := by rw [k.lock, hp]; simp
    have ha : s.tawake g = false := k.live (.inr (.inr (.inr hp)))
    have hcr := (h.cref (s.town g) (.tim g)).2 ⟨.inr (.inr hp), rfl⟩
    have hpark := k.park' hp
    have hs := (h.ok _).asleep hpark.1 (.inr (by rw [hcr]; simp))
    simp only [push, hs.2.1, Bool.false_eq_true, if_false]
    refine .nil (h.tmove (g := g) ⟨rfl, fun u hu => ?_, rfl, rfl, rfl, rfl, rfl, rfl, rfl, rfl, rfl, rfl, fun g' hg' => upd_ne _ _ hg',
      fun g' hg' => rfl, .inl rfl⟩ ?_ ?_ ?_ (h.pv.keep rfl rfl rfl rfl) ?_)
    · constructor <;> first | rfl | (simp [upd, hu]; done) | exact id | exact fun h _ => h | exact fun _ => rfl
    · rcases hs with ⟨h1, h2, ⟨y, -, h3, -⟩ | ⟨a, b, h3, h4, h5, h6⟩⟩
      · rw [h3.2] at hcr; simp at hcr
      · rw [Ok, show ({ s with rdy := upd s.rdy (s.town g) true, tm := upd s.tm g .unlock, cref := upd s.cref (s.town g) none } : St).pc
          (s.town g) = s.pc (s.town g) from rfl, h3]
        exact ⟨h1, h4, .inr ⟨upd_same _ _ _, hpark.2, h5, upd_same _ _ _⟩⟩
    · refine PSlk.tsame h.slk rfl rfl rfl rfl ?_
      intro g'
      show upd _ _ _ _ = _ ↔ _
      by_cases hg' : g' = g
      · subst hg'; rw [upd_same, hp]; simp
      · rw [upd_ne _ _ hg']
    · exact PC.tdrop h.cref (by rw [hp]; rfl) rfl rfl rfl rfl rfl
    · have k0 := h.tok0 (s' := { s with rdy := upd s.rdy (s.town g) true, tm := upd s.tm g .unlock, cref := upd s.cref (s.town g) none })
        (g := g) (by simp [hp]) (by simp) rfl rfl rfl rfl rfl (by simp [hl]) (fun _ => ha)
      exact ⟨k0.unused, k0.lock, k0.live, k0.cur, k0.fresh, k0.fib, by simp, by simp⟩

/-! ## `AsyncWaker` in the thread -/

theorem Inv.crmStep {s : St} {l : Lk} {v : Cv} {t g : Nat} {b : Bool} (h : Inv s l v) (hp : s.pc t = .crm g b) :
    Good { s.to t (.cawake g b) with tm := if s.tm g = .armed then upd s.tm g .over else s.tm } [] l v := by
  have key : ∀ s : St, Inv s l v → s.pc t = .crm g b → Inv (s.to t (.cawake g b)) l v := by
    intro s h hp
    have hk := h.ok t
    rw [Ok, hp] at hk
    have hpc : (s.to t (.cawake g b)).pc = upd s.pc t (.cawake g b) := rfl
    easy h hp hpc
    case ok => rw [Ok, hpc, upd_same]; exact hk
  apply Good.nil
  split
  · rename_i ha
    exact key _ (h.fireStep ha (.inr rfl)) hp
  · exact key s h hp

theorem Inv.ctimerStep {s : St} {l : Lk} {v : Cv} {t : Nat} (h : Inv s l v) (hp : s.pc t = .ctimer) :
    Good { s.to t (.cpost true s.ntm) with tm := upd s.tm s.ntm .armed, town := upd s.town s.ntm t, ntm := s.ntm + 1 } [] l v := by
  have hk := h.ok t
  rw [Ok, hp] at hk
  apply Good.nil
  have hn := h.tim s.ntm
  have hun : s.tm s.ntm = .unused := hn.unused.2 (Nat.le_refl _)
  have hpc : ({ s.to t (.cpost true s.ntm) with tm := upd s.tm s.ntm .armed, town := upd s.town s.ntm t, ntm := s.ntm + 1 } : St).pc =
      upd s.pc t (.cpost true s.ntm) := rfl
  have htc : ∀ g, s.tm g ≠ .unused → g ≠ s.ntm := fun g hg he => hg (by rw [he]; exact hun)
  refine h.build0 (t := t) (x := t) ⟨fun u hu => by rw [hpc, upd_ne _ _ hu], fun u hu _ => ?_, .inl (by rw [hp]; rfl), by simp [hp],
    fun _ => h.small t (by simp [hp]), .inl rfl⟩ ?_ ?_ ?_ (by rw [Ok, hpc, upd_same]; exact hk) (by simp)
    (by rw [Lnk, hpc, upd_same]; trivial) (by rw [Fs, hpc, upd_same]; trivial) (by simp)
    (PSlow.keep h.slow hpc rfl (by rw [hp]; rfl)) ?_ (PM.keep h.mref hpc rfl (by rw [hp]; rfl)) ?_
    (PL.keep h.pl hpc rfl rfl (by rw [hp]; rfl) (by rw [hp]; rfl) (by rw [hp]; rfl) (by rw [hp]; rfl)) (h.pv.keep rfl rfl rfl rfl)
  · constructor <;> first | rfl | (simp [St.to, upd, hu]; done) | exact id | exact fun h _ => h | exact fun _ => rfl
  · intro g
    by_cases hg : g = s.ntm
    · subst hg
      refine ⟨by simp, ?_, by simp, ?_, fun h1 => absurd h1 (by show ¬ (s.ntm + 1 ≤ s.ntm); omega), ?_⟩
      · have := hn.lock
        rw [hun] at this
        simp only [upd_same]
        show s.tlock s.ntm = _
        simpa using this
      · intro _ _
        show (upd s.pc t (.cpost true s.ntm) (upd s.town s.ntm t s.ntm)).cur = some s.ntm
        rw [upd_same, upd_same]; rfl
      · intro _
        show s.fib (upd s.town s.ntm t s.ntm) = true
        rw [upd_same]; exact hk.1
    · have k := h.tim g
      have e1 : upd s.tm s.ntm .armed g = s.tm g := upd_ne _ _ hg
      have e2 : upd s.town s.ntm t g = s.town g := upd_ne _ _ hg
      refine ⟨?_, ?_, ?_, ?_, ?_, ?_⟩
      · show upd s.tm s.ntm .armed g = _ ↔ s.ntm + 1 ≤ g
        rw [e1, k.unused]; omega
      · simp only [e1]; exact k.lock
      · simp only [e1]; exact k.live
      · show g < s.ntm + 1 → _ → (upd s.pc t (.cpost true s.ntm) (upd s.town s.ntm t g)).cur = some g
        rw [e2]
        intro h1 h2
        have h3 := k.cur (by omega) h2
        by_cases ht : s.town g = t
        · rw [ht, hp] at h3; simp [Pc.cur] at h3
        · rw [upd_ne _ _ ht]; exact h3
      · show s.ntm + 1 ≤ g → _
        intro h1; exact k.fresh (by omega)
      · show g < s.ntm + 1 → s.fib (upd s.town s.ntm t g) = true
        rw [e2]; intro h1; exact k.fib (by omega)
  · intro g hg
    by_cases hgn : g = s.ntm
    · subst hgn; simp at hg
    · exact ⟨upd_ne _ _ hgn, upd_ne _ _ hgn⟩
  · intro u g
    show (upd s.pc t (.cpost true s.ntm) u).cur = some g → g < s.ntm + 1 ∧ upd s.town s.ntm t g = u ∧ s.tawake g = false
    by_cases hu : u = t
    · subst hu
      rw [upd_same]
      intro h1
      simp [Pc.cur] at h1
      subst h1
      exact ⟨by omega, upd_same _ _ _, hn.fresh (Nat.le_refl _)⟩
    · rw [upd_ne _ _ hu]
      intro h1
      have h2 := h.tcur u g h1
      have h3 : g ≠ s.ntm := by omega
      exact ⟨by omega, by rw [upd_ne _ _ h3]; exact h2.2.1, h2.2.2⟩
  · intro w r
    show s.slk w = some r ↔ _
    rw [h.slk w r]
    cases r with
    | thr u =>
      show _ ↔ (u = w ∧ (upd s.pc t (.cpost true s.ntm) u).self (s.fib u) = true) ∨ (upd s.pc t (.cpost true s.ntm) u).rs = some w
      by_cases hu : u = t
      · subst hu; rw [upd_same, Holds, hp]; simp [Pc.self, Pc.rs]
      · rw [upd_ne _ _ hu]; rfl
    | tim g =>
      show _ ↔ upd _ _ _ _ = _ ∧ upd _ _ _ _ = _
      by_cases hg : g = s.ntm
      · subst hg; rw [upd_same]; simp [Holds, hun]
      · rw [upd_ne _ _ hg, upd_ne _ _ hg]; rfl
  · intro w r
    show s.cref w = some r ↔ _
    rw [h.cref w r]
    cases r with
    | thr u =>
      show _ ↔ (upd s.pc t (.cpost true s.ntm) u).cc = some w
      by_cases hu : u = t
      · subst hu; rw [upd_same, CPtr, hp]; simp [Pc.cc]
      · rw [upd_ne _ _ hu]; rfl
    | tim g =>
      rw [cptr_tim, cptr_tim]
      show _ ↔ TPc.ptr (upd _ _ _ _) = _ ∧ upd _ _ _ _ = _
      by_cases hg : g = s.ntm
      · subst hg; rw [upd_same]; simp [TPc.ptr, hun]
      · rw [upd_ne _ _ hg, upd_ne _ _ hg]

theorem Inv.cawakeStep {s : St} {l : Lk} {v : Cv} {t g : Nat} {b : Bool} (h : Inv s l v) (hp : s.pc t = .cawake g b)
    (h0 : s.tlock g = none) : Good { s.to t (.try_ true (.back b)) with tawake := upd s.tawake g true } [] l v := by
  have hk := h.ok t
  rw [Ok, hp] at hk
  obtain ⟨hf, hr, hm, hc, hsat, hkk⟩ := hk
  apply Good.nil
  have hcur := h.tcur t g (by rw [hp]; rfl)
  have hpc : ({ s.to t (.try_ true (.back b)) with tawake := upd s.tawake g true } : St).pc = upd s.pc t (.try_ true (.back b)) := rfl
  refine h.build0 (t := t) (x := t) ⟨fun u hu => by rw [hpc, upd_ne _ _ hu], fun u hu _ => ?_, .inl (by rw [hp]; rfl), by simp [hp],
    fun _ => h.small t (by simp [hp]), .inl rfl⟩ ?_ (fun g _ => ⟨rfl, rfl⟩) ?_
    (by rw [Ok, hpc, upd_same]; exact ⟨hr, hm, hc, hkk, by simp⟩) (by simp)
    (by rw [Lnk, hpc, upd_same]; trivial) (by rw [Fs, hpc, upd_same]; trivial) (by simp)
    (PSlow.keep h.slow hpc rfl (by rw [hp]; rfl)) (PSlk.keep h.slk hpc rfl rfl (by rw [hp]; rfl) (by rw [hp]; rfl) rfl rfl)
    (PM.keep h.mref hpc rfl (by rw [hp]; rfl)) (PC.keep h.cref hpc rfl (by rw [hp]; rfl) rfl rfl)
    (PL.keep h.pl hpc rfl rfl (by rw [hp]; rfl) (by rw [hp]; rfl) (by rw [hp]; rfl) (by rw [hp]; rfl)) (h.pv.keep rfl rfl rfl rfl)
  · constructor <;> first | rfl | (simp [St.to, upd, hu]; done) | exact id | exact fun h _ => h | exact fun _ => rfl
  · intro g'
    have k := h.tim g'
    refine ⟨k.unused, k.lock, ?_, ?_, ?_, k.fib⟩
    · show _ → upd s.tawake g true g' = false
      by_cases hg : g' = g
      · subst hg
        intro h1
        have h2 := k.lock
        rw [h0] at h2
        rcases h1 with h1 | h1 | h1 | h1 <;> (rw [show s.tm g' = _ from h1] at h2; simp at h2)
      · rw [upd_ne _ _ hg]; exact k.live
    · show g' < s.ntm → upd s.tawake g true g' = false → (upd s.pc t (.try_ true (.back b)) (s.town g')).cur = some g'
      by_cases hg : g' = g
      · subst hg; rw [upd_same]; simp
      · rw [upd_ne _ _ hg]
        intro h1 h2
        have h3 := k.cur h1 h2
        by_cases ht : s.town g' = t
        · rw [ht, hp] at h3; simp [Pc.cur] at h3; exact absurd h3.symm hg
        · rw [upd_ne _ _ ht]; exact h3
    · show s.ntm ≤ g' → upd s.tawake g true g' = false
      intro h1
      rw [upd_ne _ _ (show g' ≠ g by omega)]; exact k.fresh h1
  · intro u g'
    show (upd s.pc t (.try_ true (.back b)) u).cur = some g' → g' < s.ntm ∧ s.town g' = u ∧ upd s.tawake g true g' = false
    by_cases hu : u = t
    · subst hu; rw [upd_same]; simp [Pc.cur]
    · rw [upd_ne _ _ hu]
      intro h1
      have h2 := h.tcur u g' h1
      have h3 : g' ≠ g := by
        intro he; rw [he, hcur.2.1] at h2; exact hu h2.2.1.symm
      rw [upd_ne _ _ h3]; exact h2

end Verif.Fiber.Sync
