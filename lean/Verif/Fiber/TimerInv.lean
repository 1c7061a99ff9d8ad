import Verif.Fiber.HeapLemmas
import Verif.Fiber.TimerSpec
/-!
# The invariant of the timer thread: where timers are, and when it will look at them
-/

namespace Verif.Fiber.Timer

/-- The timers being moved to the heap. -/
def WPc.coll : WPc → List Nat
  | .collect _ t => t
  | _ => []

/-- The queue of producer `p` will be emptied before the timer thread sleeps. -/
def WPc.reaps (p : Nat) : WPc → Bool
  | .loop | .reset | .exited => true
  | .reap k => decide (k ≤ p)
  | .collect k _ => decide (k < p)
  | _ => false

def WPc.sleepy : WPc → Bool
  | .toSleep | .asleep _ _ => true
  | _ => false

/-- The timer at the top of the heap that is being worked on. -/
def WPc.cur : WPc → Option Nat
  | .take _ e | .calling _ e | .relock _ e | .noCb _ e => some e
  | _ => none

/-- The timer whose callback was taken. -/
def WPc.calls : WPc → Option Nat
  | .calling _ e | .relock _ e => some e
  | _ => none

/-- The timer whose enabling is in progress. -/
def CPc.id : CPc → Option Nat
  | .idle => none
  | .load e _ | .try e _ _ => some e

/-- The time the timer thread is to be woken for. -/
def CPc.target : CPc → Nat
  | .idle => 0
  | .load _ t | .try _ t _ => t

/-- `WakeWorkerIfNeeded` will return without doing anything. -/
def CPc.gives : CPc → Bool
  | .try _ t r => decide (r ≤ t)
  | _ => false

structure Inv (s : St) : Prop where
  qq : ∀ p p' e, e ∈ s.q p → e ∈ s.q p' → p = p'
  qn : ∀ p, (s.q p).Nodup
  qc : ∀ p e, e ∈ s.q p → e ∉ s.pc.coll
  qh : ∀ p e, e ∈ s.q p → ¬ s.heap.Has e
  cn : s.pc.coll.Nodup
  ch : ∀ e, e ∈ s.pc.coll → ¬ s.heap.Has e
  qe : ∀ p e, e ∈ s.q p → (s.ent e).enabled = true ∧ p < s.np
  ce : ∀ e, e ∈ s.pc.coll → (s.ent e).enabled = true
  he : ∀ e, s.heap.Has e → (s.ent e).enabled = true
  created : ∀ e, (s.ent e).created = false → (s.ent e).enabled = false ∧ (s.ent e).cancelled = false ∧ (s.ent e).cb = false
  inj : s.heap.Inj
  ord : s.heap.Ord s.key 0
  place : ∀ e, (s.ent e).enabled = true → (s.ent e).cancelled = false → (s.ent e).cb = true ∨ (s.ent e).interval.isSome = true →
    (∃ p, e ∈ s.q p) ∨ e ∈ s.pc.coll ∨ s.heap.Has e
  e1 : ∀ p e, e ∈ s.q p → s.earliest p ≤ s.key e
  e2 : ∀ p, s.earliest p = inf ∨ ∃ e, e ∈ s.q p ∧ s.key e = s.earliest p
  ni : s.next ≤ inf
  cov : ∀ p e, e ∈ s.q p → s.next ≤ s.key e ∨ s.pc.reaps p = true ∨ (s.c p).id = some e
  tgt : ∀ p e, (s.c p).id = some e → e ∈ s.q p → (s.c p).target = s.key e
  stale : ∀ p e, (s.c p).id = some e → (s.c p).gives = true → e ∈ s.q p → s.next ≤ s.key e ∨ s.pc.reaps p = true
  wl : ∀ t, s.pc = .load t → 0 < s.heap.n ∧ t = s.key s.heap.top
  wt : ∀ t r, s.pc = .try t r → 0 < s.heap.n ∧ t = s.key s.heap.top ∧ s.next ≤ r
  sl : s.pc.sleepy = true → s.heap.n = 0 ∨ s.next ≤ s.key s.heap.top
  asl : ∀ x d, s.pc = .asleep x d → s.next ≤ x ∧ (s.next ≠ x → s.notified = true) ∧ (s.stopped = true → s.notified = true) ∧
    (x ≠ inf → d = x)
  cur : ∀ e, s.pc.cur = some e → 0 < s.heap.n ∧ s.heap.top = e
  nocb : ∀ e, s.pc.calls = some e → (s.ent e).cb = false

theorem inv_init (np : Nat) : Inv (init np) := by
  constructor <;> simp [init, WPc.coll, Heap.empty, Heap.Has, Heap.Inj, Heap.Ord, inf, WPc.reaps, CPc.id, WPc.sleepy, WPc.cur, WPc.calls]

/-- Steps that do not change what timers are where, nor the keys. -/
theorem Inv.clock {s : St} (h : Inv s) (d : Nat) : Inv { s with clock := d } := by
  obtain ⟨qq, qn, qc, qh, cn, ch, qe, ce, he, created, inj, ord, place, e1, e2, ni, cov, tgt, stale, wl, wt, sl, asl, cur, nocb⟩ := h
  constructor <;> assumption

theorem Inv.stop {s : St} (h : Inv s) : Inv { s with stopped := true, notified := true } := by
  obtain ⟨qq, qn, qc, qh, cn, ch, qe, ce, he, created, inj, ord, place, e1, e2, ni, cov, tgt, stale, wl, wt, sl, asl, cur, nocb⟩ := h
  constructor
  case asl => intro x d hx; exact ⟨(asl x d hx).1, fun _ => rfl, fun _ => rfl, (asl x d hx).2.2.2⟩
  all_goals assumption

/-- Changes of a timer that keep its key, its interval, and whether it is enabled, and leave it less to do. -/
theorem Inv.ent {s : St} (h : Inv s) (e : Nat) (x : Entry) (h1 : x.expires = (s.ent e).expires) (h2 : x.enabled = (s.ent e).enabled)
    (h3 : x.created = (s.ent e).created) (h4 : x.interval = (s.ent e).interval)
    (h5 : x.cancelled = true ∨ x.cancelled = (s.ent e).cancelled) (h7 : x.cb = true → (s.ent e).cb = true)
    (h6 : x.created = false → x.cancelled = false ∧ x.cb = false) : Inv (s.setEnt e x) := by
  have hk : (s.setEnt e x).key = s.key := by
    funext e'
    simp only [St.key, St.setEnt, upd]
    split
    · next h => rw [h1, h]
    · rfl
  have he' : ∀ e', ((s.setEnt e x).ent e').enabled = (s.ent e').enabled := by
    intro e'; simp only [St.setEnt, upd]; split
    · next h => rw [h2, h]
    · rfl
  obtain ⟨qq, qn, qc, qh, cn, ch, qe, ce, he, created, inj, ord, place, e1, e2, ni, cov, tgt, stale, wl, wt, sl, asl, cur, nocb⟩ := h
  constructor
  case created =>
    intro e' hc
    have := created e'
    simp only [St.setEnt, upd] at hc ⊢
    grind
  case place =>
    intro e'
    have := place e'
    rw [he']
    simp only [St.setEnt, upd]
    grind
  case nocb =>
    intro e' hp
    have := nocb e' hp
    simp only [St.setEnt, upd]
    grind
  case qe => intro p e' hm; rw [he']; exact qe p e' hm
  case ce => intro e' hm; rw [he']; exact ce e' hm
  case he => intro e' hm; rw [he']; exact he e' hm
  all_goals (try rw [hk])
  all_goals assumption

theorem Inv.create {s : St} (h : Inv s) (e t : Nat) (i : Option Nat) (hc : (s.ent e).created = false) :
    Inv (s.setEnt e ⟨true, false, false, true, i, t, t⟩) := by
  have hcr := h.created e hc
  have hq : ∀ p, e ∉ s.q p := fun p hm => by have := (h.qe p e hm).1; simp [hcr.1] at this
  have hcoll : e ∉ s.pc.coll := fun hm => by have := h.ce e hm; simp [hcr.1] at this
  have hh : ¬ s.heap.Has e := fun hm => by have := h.he e hm; simp [hcr.1] at this
  have hk : ∀ e', e' ≠ e → (s.setEnt e ⟨true, false, false, true, i, t, t⟩).key e' = s.key e' := by
    intro e' hne; simp only [St.key, St.setEnt, upd]; rw [if_neg hne]
  have hen : ∀ e', e' ≠ e → (s.setEnt e ⟨true, false, false, true, i, t, t⟩).ent e' = s.ent e' := by
    intro e' hne; simp only [St.setEnt, upd]; rw [if_neg hne]
  have hkq : ∀ p e', e' ∈ s.q p → (s.setEnt e ⟨true, false, false, true, i, t, t⟩).key e' = s.key e' :=
    fun p e' hm => hk e' fun he => hq p (he ▸ hm)
  have hkh : ∀ e', s.heap.Has e' → (s.setEnt e ⟨true, false, false, true, i, t, t⟩).key e' = s.key e' :=
    fun e' hm => hk e' fun he => hh (he ▸ hm)
  have htop : 0 < s.heap.n → s.heap.Has s.heap.top := fun hn => ⟨0, hn, rfl⟩
  obtain ⟨qq, qn, qc, qh, cn, ch, qe, ce, he, created, inj, ord, place, e1, e2, ni, cov, tgt, stale, wl, wt, sl, asl, cur, nocb⟩ := h
  constructor
  case qe => intro p e' hm; rw [hen e' fun h => hq p (h ▸ hm)]; exact qe p e' hm
  case ce => intro e' hm; rw [hen e' fun h => hcoll (h ▸ hm)]; exact ce e' hm
  case he => intro e' hm; rw [hen e' fun h => hh (h ▸ hm)]; exact he e' hm
  case created =>
    intro e' hc
    by_cases hne : e' = e
    · subst hne; simp [St.setEnt] at hc
    · rw [hen e' hne] at hc ⊢; exact created e' hc
  case ord => exact ord.congr hkh
  case nocb =>
    intro e' hp
    have h1 := nocb e' hp
    by_cases hne : e' = e
    · subst hne
      have hcur : s.pc.cur = some e' := by
        have hp' : s.pc.calls = some e' := hp
        revert hp'
        cases s.pc <;> simp [WPc.calls, WPc.cur]
      obtain ⟨g1, g2⟩ := cur e' hcur
      exact absurd (g2 ▸ htop g1) hh
    · rw [hen e' hne]; exact h1
  case place =>
    intro e' a b c
    by_cases hne : e' = e
    · subst hne; simp [St.setEnt] at a
    · rw [hen e' hne] at a b c; exact place e' a b c
  case e1 => intro p e' hm; rw [hkq p e' hm]; exact e1 p e' hm
  case e2 =>
    intro p
    rcases e2 p with h | ⟨e', hm, he'⟩
    · exact Or.inl h
    · exact Or.inr ⟨e', hm, by rw [hkq p e' hm]; exact he'⟩
  case cov => intro p e' hm; rw [hkq p e' hm]; exact cov p e' hm
  case tgt => intro p e' hi hm; rw [hkq p e' hm]; exact tgt p e' hi hm
  case stale => intro p e' hi hg hm; rw [hkq p e' hm]; exact stale p e' hi hg hm
  case wl => intro t' hp; have := wl t' hp; exact ⟨this.1, by rw [this.2]; exact (hkh _ (htop this.1)).symm⟩
  case wt => intro t' r hp; have := wt t' r hp; exact ⟨this.1, by rw [this.2.1]; exact (hkh _ (htop this.1)).symm, this.2.2⟩
  case sl =>
    intro hp
    rcases sl hp with h | h
    · exact Or.inl h
    · by_cases hn : s.heap.n = 0
      · exact Or.inl hn
      · right
        show s.next ≤ _
        rw [show (s.setEnt e ⟨true, false, false, true, i, t, t⟩).heap.top = s.heap.top from rfl, hkh _ (htop (by omega))]
        exact h
  all_goals assumption

theorem Inv.enable {s : St} (h : Inv s) (p e : Nat) (hp : p < s.np) (hi : s.c p = .idle) (hc : (s.ent e).created = true)
    (hen : (s.ent e).enabled = false) : Inv (enable s p e).1 := by
  have hq : ∀ p, e ∉ s.q p := fun p hm => by have := (h.qe p e hm).1; simp [hen] at this
  have hcoll : e ∉ s.pc.coll := fun hm => by have := h.ce e hm; simp [hen] at this
  have hh : ¬ s.heap.Has e := fun hm => by have := h.he e hm; simp [hen] at this
  have hk : ∀ e', (s.setEnt e { s.ent e with enabled := true }).key e' = s.key e' := by
    intro e'; simp only [St.key, St.setEnt, upd]; split
    · next h => rw [h]
    · rfl
  have hk' : (s.setEnt e { s.ent e with enabled := true }).key = s.key := funext hk
  have hent : ∀ e', e' ≠ e → (s.setEnt e { s.ent e with enabled := true }).ent e' = s.ent e' := by
    intro e' hne; simp only [St.setEnt, upd]; rw [if_neg hne]
  have hente : (s.setEnt e { s.ent e with enabled := true }).ent e = { s.ent e with enabled := true } := by simp [St.setEnt]
  have hmem : ∀ p' e', e' ∈ upd s.q p (s.q p ++ [e]) p' ↔ e' ∈ s.q p' ∨ p' = p ∧ e' = e := by
    intro p' e'; simp only [upd]; split <;> simp_all
  -- everything but the keys and the waking
  have base : ∀ s' : St, s'.np = s.np → s'.ent = upd s.ent e { s.ent e with enabled := true } → s'.q = upd s.q p (s.q p ++ [e]) →
      s'.heap = s.heap → s'.pc = s.pc → s'.next = s.next → s'.notified = s.notified → s'.stopped = s.stopped →
      (∀ p', s'.c p' = s.c p' ∨ p' = p ∧ s'.c p = .load e (s.ent e).expires) →
      (∀ p', s'.earliest p' = s.earliest p' ∧ (p' = p → s.earliest p ≤ s.key e ∧ s'.c p = .idle) ∨
        p' = p ∧ s'.earliest p = s.key e ∧ s.key e < s.earliest p ∧ s'.c p = .load e (s.ent e).expires) → Inv s' := by
    intro s' h1 h2 h3 h4 h5 h6 h7 h8 h9 h10
    have hkk : s'.key = s.key := by
      rw [← hk']; funext x; simp only [St.key, h2, St.setEnt]
    obtain ⟨qq, qn, qc, qh, cn, ch, qe, ce, he, created, inj, ord, place, e1, e2, ni, cov, tgt, stale, wl, wt, sl, asl, cur, nocb⟩ := h
    have hent' : ∀ e', e' ≠ e → s'.ent e' = s.ent e' := by intro e' hne; rw [h2, upd_ne _ _ hne]
    have hente' : s'.ent e = { s.ent e with enabled := true } := by rw [h2, upd_same]
    constructor <;> (try simp only [h1, h3, h4, h5, h6, h7, h8, hkk, hmem])
    case qq => grind
    case qn =>
      intro p'
      simp only [upd]
      split
      · rw [List.nodup_append]
        refine ⟨qn p, by simp, ?_⟩
        intro a ha b hb
        simp only [List.mem_singleton] at hb
        intro hab
        exact hq p (hb ▸ hab ▸ ha)
      · exact qn p'
    case qc => grind
    case qh => grind
    case cn => exact cn
    case ch => exact ch
    case qe => grind
    case ce => grind
    case he => grind
    case created => grind
    case inj => exact inj
    case ord => exact ord
    case place =>
      intro e' a b c
      by_cases hne : e' = e
      · exact Or.inl ⟨p, Or.inr ⟨rfl, hne⟩⟩
      · rw [hent' e' hne] at a b c
        rcases place e' a b c with ⟨p', hm⟩ | h | h
        · exact Or.inl ⟨p', Or.inl hm⟩
        · exact Or.inr (Or.inl h)
        · exact Or.inr (Or.inr h)
    case e1 =>
      intro p' e' hm
      have := e1 p'
      rcases h10 p' with ⟨g1, g2⟩ | ⟨g1, g2, g3, g4⟩
      · grind
      · grind
    case e2 =>
      intro p'
      rcases h10 p' with ⟨g1, g2⟩ | ⟨g1, g2, g3, g4⟩
      · rw [g1]
        rcases e2 p' with h | ⟨e', hm, he'⟩
        · exact Or.inl h
        · exact Or.inr ⟨e', Or.inl hm, he'⟩
      · exact Or.inr ⟨e, Or.inr ⟨g1, rfl⟩, by rw [g1]; exact g2.symm⟩
    case ni => exact ni
    case cov =>
      intro p' e' hm
      rcases hm with hm | ⟨rfl, rfl⟩
      · rcases h9 p' with g | ⟨rfl, g⟩
        · rw [g]; exact cov p' e' hm
        · rcases cov p' e' hm with g' | g' | g'
          · exact Or.inl g'
          · exact Or.inr (Or.inl g')
          · rw [hi] at g'; simp [CPc.id] at g'
      · rcases h10 p' with ⟨g1, g2⟩ | ⟨g1, g2, g3, g4⟩
        · obtain ⟨g3, g4⟩ := g2 rfl
          rcases e2 p' with g | ⟨e0, hm0, he0⟩
          · left; omega
          · rcases cov p' e0 hm0 with g' | g' | g'
            · left; omega
            · exact Or.inr (Or.inl g')
            · rw [hi] at g'; simp [CPc.id] at g'
        · right; right; rw [g4]; rfl
    case tgt =>
      intro p' e' hid hm
      rcases h9 p' with g | ⟨rfl, g⟩
      · rw [g] at hid ⊢
        rcases hm with hm | ⟨rfl, rfl⟩
        · exact tgt p' e' hid hm
        · rw [hi] at hid; simp [CPc.id] at hid
      · rw [g] at hid ⊢
        simp only [CPc.id, Option.some.injEq] at hid
        subst hid
        rfl
    case stale =>
      intro p' e' hid hg hm
      rcases h9 p' with g | ⟨rfl, g⟩
      · rw [g] at hid hg
        rcases hm with hm | ⟨rfl, rfl⟩
        · exact stale p' e' hid hg hm
        · rw [hi] at hid; simp [CPc.id] at hid
      · rw [g] at hg; simp [CPc.gives] at hg
    case wl => exact wl
    case wt => exact wt
    case sl => exact sl
    case asl => exact asl
    case cur => exact cur
    case nocb => grind
  simp only [Timer.enable]
  split
  · next hlt =>
    refine base _ rfl rfl rfl rfl rfl rfl rfl rfl ?_ ?_
    · intro p'
      simp only [St.toC, St.setEnt, upd]
      split
      · next h => exact Or.inr ⟨h, by simp⟩
      · exact Or.inl rfl
    · intro p'
      simp only [St.toC, St.setEnt, upd, St.key]
      split
      · next h => exact Or.inr ⟨h, by simp, hlt, by simp⟩
      · next h => exact Or.inl ⟨rfl, fun h' => absurd h' h⟩
  · next hlt =>
    refine base _ rfl rfl rfl rfl rfl rfl rfl rfl (fun p' => Or.inl rfl) ?_
    intro p'
    exact Or.inl ⟨rfl, fun _ => ⟨by simp only [St.key]; omega, hi⟩⟩

theorem Inv.client {s : St} (h : Inv s) (p : Nat) (weak : Bool) : Inv (clientStep s p weak) := by
  -- a thread looks at `next`, or gives up
  have look : ∀ x : CPc, (x = .idle ∧ (s.c p).gives = true ∨ (x.id = (s.c p).id ∧ x.target = (s.c p).target ∧
      (x.gives = true → s.next ≤ (s.c p).target))) → Inv (s.toC p x) := by
    intro x hx
    obtain ⟨qq, qn, qc, qh, cn, ch, qe, ce, he, created, inj, ord, place, e1, e2, ni, cov, tgt, stale, wl, wt, sl, asl, cur, nocb⟩ := h
    constructor
    case cov =>
      intro p' e' hm
      have hm' : e' ∈ s.q p' := hm
      simp only [St.toC, upd]
      split
      · next hp =>
        subst hp
        rcases hx with ⟨rfl, hg⟩ | ⟨g1, g2, g3⟩
        · rcases cov p' e' hm' with g | g | g
          · exact Or.inl g
          · exact Or.inr (Or.inl g)
          · rcases stale p' e' g hg hm' with g' | g'
            · exact Or.inl g'
            · exact Or.inr (Or.inl g')
        · rw [g1]; exact cov p' e' hm'
      · exact cov p' e' hm'
    case tgt =>
      intro p' e' hid hm
      have hm' : e' ∈ s.q p' := hm
      simp only [St.toC, upd] at hid ⊢
      split
      · next hp =>
        subst hp
        rw [if_pos rfl] at hid
        rcases hx with ⟨rfl, hg⟩ | ⟨g1, g2, g3⟩
        · simp [CPc.id] at hid
        · rw [g2]; exact tgt p' e' (g1 ▸ hid) hm'
      · next hp => rw [if_neg hp] at hid; exact tgt p' e' hid hm'
    case stale =>
      intro p' e' hid hg hm
      have hm' : e' ∈ s.q p' := hm
      simp only [St.toC, upd] at hid hg ⊢
      by_cases hp : p' = p
      · subst hp
        rw [if_pos rfl] at hid hg
        rcases hx with ⟨rfl, hg'⟩ | ⟨g1, g2, g3⟩
        · simp [CPc.id] at hid
        · left
          have := tgt p' e' (g1 ▸ hid) hm'
          show s.next ≤ s.key e'
          rw [← this]
          exact g3 hg
      · rw [if_neg hp] at hid hg; exact stale p' e' hid hg hm'
    all_goals assumption
  unfold clientStep
  split
  · exact h
  · next e t hc => exact look _ (Or.inr (by simp [hc, CPc.id, CPc.target, CPc.gives]))
  · next e t r hc =>
    split
    · next hr => exact look _ (Or.inl ⟨rfl, by simp [hc, CPc.gives, hr]⟩)
    · next hr =>
      split
      · next hn =>
        obtain ⟨qq, qn, qc, qh, cn, ch, qe, ce, he, created, inj, ord, place, e1, e2, ni, cov, tgt, stale, wl, wt, sl, asl, cur, nocb⟩ := h
        have hle : t ≤ s.next := by omega
        constructor
        case ni => show t ≤ inf; omega
        case cov =>
          intro p' e' hm
          have hm' : e' ∈ s.q p' := hm
          show t ≤ s.key e' ∨ _
          simp only [St.toC, upd]
          rcases cov p' e' hm' with g | g | g
          · left; omega
          · exact Or.inr (Or.inl g)
          · by_cases hp : p' = p
            · subst hp
              have := tgt p' e' g hm'
              rw [hc] at this
              simp only [CPc.target] at this
              left; omega
            · rw [if_neg hp]; exact Or.inr (Or.inr g)
        case tgt =>
          intro p' e' hid hm
          have hm' : e' ∈ s.q p' := hm
          simp only [St.toC, upd] at hid ⊢
          by_cases hp : p' = p
          · rw [if_pos hp] at hid; simp [CPc.id] at hid
          · rw [if_neg hp] at hid ⊢; exact tgt p' e' hid hm'
        case stale =>
          intro p' e' hid hg hm
          have hm' : e' ∈ s.q p' := hm
          show t ≤ s.key e' ∨ _
          simp only [St.toC, upd] at hid hg
          by_cases hp : p' = p
          · rw [if_pos hp] at hid; simp [CPc.id] at hid
          · rw [if_neg hp] at hid hg
            rcases stale p' e' hid hg hm' with g | g
            · left; omega
            · exact Or.inr g
        case wt => intro t' r' hp; have := wt t' r' hp; exact ⟨this.1, this.2.1, by show t ≤ r'; omega⟩
        case sl =>
          intro hp
          rcases sl hp with g | g
          · exact Or.inl g
          · right; show t ≤ s.key s.heap.top; omega
        case asl =>
          intro x d hx
          have := asl x d hx
          exact ⟨by show t ≤ x; omega, fun _ => rfl, fun _ => rfl, this.2.2.2⟩
        all_goals assumption
      · exact look _ (Or.inr (by simp [hc, CPc.id, CPc.target, CPc.gives]))

end Verif.Fiber.Timer
