import Verif.Fiber.TimerStep
/-!
# Timers fire when they should
-/

namespace Verif.Fiber.Timer

/-- The clock reading `FireTimers` works with. -/
def WPc.now : WPc → Option Nat
  | .fireLoop n | .take n _ | .calling n _ | .relock n _ | .noCb n _ => some n
  | _ => none

theorem fires_append (e : Nat) (a b : List Ev) : fires e (a ++ b) = fires e a ++ fires e b := by simp [fires]
theorem fires_nil (e : Nat) : fires e [] = [] := rfl
theorem fires_fired (e e' t : Nat) : fires e [.fired e' t] = if e' = e then [t] else [] := by
  by_cases h : e' = e <;> simp [fires, h]
theorem fires_none (e : Nat) (ev : Ev) (h : ∀ e t, ev ≠ .fired e t) : fires e [ev] = [] := by
  cases ev <;> simp_all [fires]

structure InvF (s : St) (tr : List Ev) : Prop where
  now : ∀ n, s.pc.now = some n → n ≤ s.clock
  tk : ∀ n e, s.pc = .take n e → s.key e ≤ n
  cc : ∀ e, (s.ent e).cancelled = true → (s.ent e).cb = false
  ncb : ∀ n e, s.pc = .noCb n e → (s.ent e).cancelled = true
  alive : ∀ e, (s.ent e).created = true → (s.ent e).cancelled = false → (s.ent e).cb = false → s.pc.calls ≠ some e →
    (s.ent e).interval = none ∧ fires e tr ≠ []
  one : ∀ e, (s.ent e).interval = none → (fires e tr).length ≤ 1 ∧ ((s.ent e).cb = true → fires e tr = []) ∧
    s.key e = (s.ent e).first
  per : ∀ e i, (s.ent e).interval = some i → 0 < i ∧ ((s.ent e).cancelled = false →
    s.key e + (if s.pc.calls = some e then i else 0) = (s.ent e).first + (fires e tr).length * i)
  early : ∀ e k t, (fires e tr)[k]? = some t → due (s.ent e).first (s.ent e).interval k ≤ t
  rl : ∀ n e, s.pc = .relock n e → (s.ent e).interval.isSome = true
  cf : ∀ n e, s.pc = .calling n e → fires e tr ≠ []
  rem : ∀ e, .removed e ∈ tr ↔ (s.ent e).cancelled = true
  en : ∀ e, .enabled e ∈ tr ↔ (s.ent e).enabled = true
  cr : ∀ e x i, .created e x i ∈ tr → (s.ent e).created = true ∧ (s.ent e).first = x ∧ (s.ent e).interval = i
  ec : ∀ e, (s.ent e).enabled = true → (s.ent e).created = true
  fe : ∀ e, (s.ent e).enabled = false → fires e tr = []
  after : ∀ e a b, tr = a ++ .removed e :: b → fires e b = []
  before : ∀ e t a b, tr = a ++ .fired e t :: b → .enabled e ∈ a
  crash : .crash ∉ tr

theorem invF_init (np : Nat) : InvF (init np) [] := by
  constructor <;> simp [init, WPc.now, fires_nil, St.key]

/-- A split of a list with one more element at the end. -/
theorem split_last {tr a b : List Ev} {x y : Ev} (h : tr ++ [y] = a ++ x :: b) :
    (∃ b', b = b' ++ [y] ∧ tr = a ++ x :: b') ∨ b = [] ∧ x = y ∧ tr = a := by
  rcases List.eq_nil_or_concat b with rfl | ⟨b', z, rfl⟩
  · right
    have := List.append_inj' h (by simp)
    simp_all
  · left
    rw [List.concat_eq_append, show a ++ x :: (b' ++ [z]) = (a ++ x :: b') ++ [z] by simp] at h
    have := List.append_inj' h (by simp)
    simp_all

/-- The timer thread goes elsewhere, without having called a timer, or with one that has been removed. -/
theorem InvF.goto {s s' : St} {tr : List Ev} (h : InvF s tr) (he : s'.ent = s.ent) (hk : s.clock ≤ s'.clock)
    (hn : ∀ n, s'.pc.now = some n → s.pc.now = some n ∨ n ≤ s.clock) (ht : ∀ n e, s'.pc = .take n e → s.key e ≤ n)
    (hc : ∀ n e, s'.pc = .noCb n e → (s.ent e).cancelled = true)
    (hr : ∀ n e, s'.pc = .relock n e → (s.ent e).interval.isSome = true)
    (hcf : ∀ n e, s'.pc = .calling n e → fires e tr ≠ [])
    (hcl : s'.pc.calls = s.pc.calls ∨ s'.pc.calls = none ∧ ∀ e, s.pc.calls = some e → (s.ent e).cancelled = true ∨
      (s.ent e).interval = none ∧ fires e tr ≠ []) : InvF s' tr := by
  obtain ⟨now, tk, cc, ncb, alive, one, per, early, rl, cf, rem, en, cr, ec, fe, after, before, crash⟩ := h
  have hkey : s'.key = s.key := by funext e; simp [St.key, he]
  constructor <;> (try simp only [he, hkey])
  case now =>
    intro n h
    rcases hn n h with g | g
    · exact Nat.le_trans (now n g) hk
    · exact Nat.le_trans g hk
  case tk => exact ht
  case ncb => exact hc
  case rl => exact hr
  case cf => exact hcf
  case alive =>
    intro e a b c d
    rcases hcl with g | ⟨g1, g2⟩
    · exact alive e a b c (g ▸ d)
    · by_cases hx : s.pc.calls = some e
      · rcases g2 e hx with g | g
        · rw [b] at g; simp at g
        · exact g
      · exact alive e a b c hx
  case per =>
    intro e i hi
    obtain ⟨p1, p2⟩ := per e i hi
    refine ⟨p1, fun hc => ?_⟩
    rcases hcl with g | ⟨g1, g2⟩
    · rw [g]; exact p2 hc
    · by_cases hx : s.pc.calls = some e
      · rcases g2 e hx with g | g
        · rw [hc] at g; simp at g
        · rw [hi] at g; simp at g
      · have := p2 hc
        rw [if_neg hx] at this
        rw [g1, if_neg (by simp)]
        exact this
  all_goals assumption

theorem InvF.fire {s : St} {tr : List Ev} (h : InvF s tr) (hI : Inv s) (now e : Nat) (hp : s.pc = .take now e)
    (hcb : (s.ent e).cb = true) :
    InvF { (s.setEnt e { s.ent e with cb := false }) with pc := .calling now e } (tr ++ [.fired e s.clock]) := by
  obtain ⟨now', tk, cc, ncb, alive, one, per, early, rl, cf, rem, en, cr, ec, fe, after, before, crash⟩ := h
  obtain ⟨g1, g2⟩ := hI.cur e (by simp [hp, WPc.cur])
  have hen : (s.ent e).enabled = true := hI.he e ⟨0, g1, g2⟩
  have hcan : (s.ent e).cancelled = false := by
    cases hc : (s.ent e).cancelled with
    | false => rfl
    | true => rw [cc e hc] at hcb; simp at hcb
  have hnow := now' now (by simp [hp, WPc.now])
  have htk := tk now e hp
  have hcalls : s.pc.calls = none := by simp [hp, WPc.calls]
  have hpre : (tr ++ [Ev.fired e s.clock]).length = tr.length + 1 := by simp
  have hentF : ∀ e', ∀ {β : Type} (f : Entry → β), (∀ x : Entry, f { x with cb := false } = f x) →
      f (upd s.ent e { s.ent e with cb := false } e') = f (s.ent e') := by
    intro e' β f hf
    by_cases hne : e' = e
    · rw [hne, upd_same, hf]
    · rw [upd_ne _ _ hne]
  have hne : ∀ e', e' ≠ e → fires e' (tr ++ [.fired e s.clock]) = fires e' tr := by
    intro e' hne; rw [fires_append, fires_fired, if_neg (fun h => hne h.symm), List.append_nil]
  have heq : fires e (tr ++ [.fired e s.clock]) = fires e tr ++ [s.clock] := by
    rw [fires_append, fires_fired, if_pos rfl]
  have hkey : (s.setEnt e { s.ent e with cb := false }).key = s.key := by
    funext e'; exact hentF e' Entry.expires (fun _ => rfl)
  constructor <;> (try simp only [St.setEnt])
  case now => intro n hn; simp only [WPc.now, Option.some.injEq] at hn; subst hn; exact hnow
  case tk => intro n e' hp'; simp at hp'
  case cc =>
    intro e' hc
    by_cases hx : e' = e
    · rw [hx, upd_same]
    · rw [upd_ne _ _ hx] at hc ⊢; exact cc e' hc
  case ncb => intro n e' hp'; simp at hp'
  case alive =>
    intro e' a b c d
    have hx : e' ≠ e := by rintro rfl; simp [WPc.calls] at d
    rw [upd_ne _ _ hx] at a b c ⊢
    rw [hne e' hx]
    exact alive e' a b c (by simp [hcalls])
  case one =>
    intro e' hi
    by_cases hx : e' = e
    · subst hx
      rw [upd_same] at hi ⊢
      obtain ⟨o1, o2, o3⟩ := one e' hi
      refine ⟨by rw [heq, o2 hcb]; simp, by simp, ?_⟩
      simpa [St.key] using o3
    · simp only [upd_ne _ _ hx, hne e' hx, St.key] at hi ⊢
      exact one e' hi
  case per =>
    intro e' i hi
    by_cases hx : e' = e
    · subst hx
      rw [upd_same] at hi ⊢
      obtain ⟨p1, p2⟩ := per e' i hi
      refine ⟨p1, fun _ => ?_⟩
      have := p2 hcan
      rw [hcalls, if_neg (by simp)] at this
      rw [heq]
      simp only [WPc.calls, if_pos, List.length_append, List.length_singleton, St.key, upd_same]
      rw [Nat.add_mul, Nat.one_mul, ← Nat.add_assoc, ← this]
      rfl
    · simp only [upd_ne _ _ hx, hne e' hx, St.key] at hi ⊢
      have := per e' i hi
      rw [hcalls] at this
      simp only [WPc.calls, Option.some.injEq]
      rw [if_neg (fun h => hx h.symm)]
      simpa [St.key] using this
  case early =>
    intro e' k t hk
    by_cases hx : e' = e
    · subst hx
      rw [upd_same]
      rw [heq, List.getElem?_append] at hk
      split at hk
      · exact early e' k t hk
      · next hge =>
        have hk0 : k = (fires e' tr).length ∧ t = s.clock := by
          rcases Nat.lt_or_ge (k - (fires e' tr).length) 1 with hl | hl
          · have h0 : k - (fires e' tr).length = 0 := by omega
            rw [h0] at hk
            simp at hk
            exact ⟨by omega, hk.symm⟩
          · rw [List.getElem?_eq_none (by simpa using hl)] at hk; simp at hk
        obtain ⟨hk1, hk2⟩ := hk0
        have hdue : due (s.ent e').first (s.ent e').interval k = s.key e' := by
          unfold due
          cases hi : (s.ent e').interval with
          | none => have := (one e' hi).2.2; simp [this]
          | some i =>
            have := (per e' i hi).2 hcan
            rw [hcalls, if_neg (by simp)] at this
            simp only [Option.getD_some, hk1]
            omega
        simp only
        omega
    · rw [hne e' hx] at hk
      rw [upd_ne _ _ hx]
      exact early e' k t hk
  case rl => intro n e' hp'; simp at hp'
  case cf => intro n e' hp'; simp only [WPc.calling.injEq] at hp'; rw [← hp'.2, heq]; simp
  case rem => intro e'; rw [hentF e' Entry.cancelled (fun _ => rfl), ← rem e']; simp
  case en => intro e'; rw [hentF e' Entry.enabled (fun _ => rfl), ← en e']; simp
  case cr =>
    intro e' x i hm
    rw [hentF e' Entry.created (fun _ => rfl), hentF e' Entry.first (fun _ => rfl), hentF e' Entry.interval (fun _ => rfl)]
    exact cr e' x i (by simpa using hm)
  case ec => intro e'; rw [hentF e' Entry.created (fun _ => rfl), hentF e' Entry.enabled (fun _ => rfl)]; exact ec e'
  case fe =>
    intro e' hf
    rw [hentF e' Entry.enabled (fun _ => rfl)] at hf
    have hx : e' ≠ e := by rintro rfl; rw [hen] at hf; simp at hf
    rw [hne e' hx]
    exact fe e' hf
  case after =>
    intro e' a b hs
    rcases split_last hs with ⟨b', rfl, hs'⟩ | ⟨-, h2, -⟩
    · have hx : e' ≠ e := by
        rintro rfl
        have : Ev.removed e' ∈ tr := by rw [hs']; simp
        rw [(rem e').1 this] at hcan; simp at hcan
      rw [fires_append, after e' a b' hs', fires_fired, if_neg (fun h => hx h.symm)]; rfl
    · simp at h2
  case before =>
    intro e' t a b hs
    rcases split_last hs with ⟨b', rfl, hs'⟩ | ⟨-, h2, h3⟩
    · exact before e' t a b' hs'
    · simp only [Ev.fired.injEq] at h2
      rw [h2.1, ← h3]
      exact (en e).2 hen
  case crash => simp [crash]

/-- Events other than `fired` and `crash`, with the timers unchanged but for one. -/
theorem InvF.ev {s s' : St} {tr : List Ev} {ev : Ev} (h : InvF s tr) (e : Nat) (x : Entry) (he : s'.ent = upd s.ent e x)
    (hpc : s'.pc = s.pc) (hk : s'.clock = s.clock) (hev : ∀ e t, ev ≠ .fired e t) (hcrash : ev ≠ .crash)
    (hrem : ∀ e', ev = .removed e' ↔ e' = e ∧ x.cancelled = true ∧ (s.ent e).cancelled = false)
    (hen : ∀ e', ev = .enabled e' ↔ e' = e ∧ x.enabled = true ∧ (s.ent e).enabled = false)
    (hcr : ∀ e' y i, ev = .created e' y i → e' = e ∧ x.created = true ∧ x.first = y ∧ x.interval = i)
    (hold : (s.ent e).created = true → x.created = true ∧ x.first = (s.ent e).first ∧ x.interval = (s.ent e).interval ∧
      x.expires = (s.ent e).expires ∧ (x.cb = true → (s.ent e).cb = true) ∧
      (x.cancelled = false → (s.ent e).cancelled = false ∧ x.cb = (s.ent e).cb))
    (hnew : (s.ent e).created = false → x.cancelled = false ∧ x.enabled = false ∧ x.cb = true ∧ x.expires = x.first ∧
      x.interval ≠ some 0 ∧ x.created = true ∧ s.pc.cur ≠ some e)
    (hmono1 : (s.ent e).cancelled = true → x.cancelled = true) (hmono2 : (s.ent e).enabled = true → x.enabled = true)
    (hcc : x.cancelled = true → x.cb = false) (hec : x.enabled = true → x.created = true) : InvF s' (tr ++ [ev]) := by
  obtain ⟨now, tk, cc, ncb, alive, one, per, early, rl, cf, rem, en, cr, ec, fe, after, before, crash⟩ := h
  have hf : ∀ e', fires e' (tr ++ [ev]) = fires e' tr := by
    intro e'; rw [fires_append, fires_none e' ev hev, List.append_nil]
  have hfn : (s.ent e).created = false → fires e tr = [] := by
    intro hc
    apply fe
    cases hh : (s.ent e).enabled with
    | false => rfl
    | true => rw [ec e hh] at hc; simp at hc
  have hx1 : ∀ e', e' ≠ e → s'.ent e' = s.ent e' := fun e' hne => by rw [he, upd_ne _ _ hne]
  have hx2 : s'.ent e = x := by rw [he, upd_same]
  have hkx : ∀ e', e' ≠ e → s'.key e' = s.key e' := fun e' hne => by simp only [St.key, hx1 e' hne]
  have hke : s'.key e = x.expires := by simp only [St.key, hx2]
  constructor <;> (try simp only [hpc, hk, hf])
  case now => exact now
  case tk =>
    intro n e' hp
    by_cases hne : e' = e
    · subst hne
      rw [hke]
      cases hc : (s.ent e').created with
      | false => exact absurd (by simp [hp, WPc.cur]) (hnew hc).2.2.2.2.2.2
      | true => rw [(hold hc).2.2.2.1]; exact tk n e' hp
    · rw [hkx e' hne]; exact tk n e' hp
  case cc => intro e'; by_cases hne : e' = e
             · subst hne; rw [hx2]; exact hcc
             · rw [hx1 e' hne]; exact cc e'
  case ncb =>
    intro n e' hp
    by_cases hne : e' = e
    · subst hne; rw [hx2]; exact hmono1 (ncb n e' hp)
    · rw [hx1 e' hne]; exact ncb n e' hp
  case alive =>
    intro e' a b c d
    by_cases hne : e' = e
    · subst hne
      simp only [hx2] at *
      cases hc : (s.ent e').created with
      | false => rw [(hnew hc).2.2.1] at c; simp at c
      | true =>
        obtain ⟨o1, o2, o3, o4, o5, o6⟩ := hold hc
        rw [o3]
        exact alive e' hc (o6 b).1 (by rw [← (o6 b).2]; exact c) d
    · rw [hx1 e' hne] at *; exact alive e' a b c d
  case one =>
    intro e' hi
    by_cases hne : e' = e
    · subst hne
      rw [hke]
      simp only [hx2] at *
      cases hc : (s.ent e').created with
      | false => rw [hfn hc]; simp [(hnew hc).2.2.2.1]
      | true =>
        obtain ⟨o1, o2, o3, o4, o5, o6⟩ := hold hc
        obtain ⟨p1, p2, p3⟩ := one e' (o3 ▸ hi)
        exact ⟨p1, fun g => p2 (o5 g), by rw [o4, o2]; exact p3⟩
    · rw [hkx e' hne]
      rw [hx1 e' hne] at *; exact one e' hi
  case per =>
    intro e' i hi
    by_cases hne : e' = e
    · subst hne
      rw [hke]
      simp only [hx2] at *
      cases hc : (s.ent e').created with
      | false =>
        obtain ⟨n1, n2, n3, n4, n5, n6, n7⟩ := hnew hc
        refine ⟨?_, fun _ => ?_⟩
        · rcases Nat.eq_zero_or_pos i with g | g
          · rw [g] at hi; exact absurd hi n5
          · exact g
        · rw [hfn hc, if_neg (fun h => n7 (WPc.cur_of_calls h)), n4]; simp
      | true =>
        obtain ⟨o1, o2, o3, o4, o5, o6⟩ := hold hc
        obtain ⟨p1, p2⟩ := per e' i (o3 ▸ hi)
        exact ⟨p1, fun g => by rw [o4, o2]; exact p2 (o6 g).1⟩
    · rw [hkx e' hne]
      rw [hx1 e' hne] at *; exact per e' i hi
  case early =>
    intro e' k t hk
    by_cases hne : e' = e
    · subst hne
      rw [hx2]
      cases hc : (s.ent e').created with
      | false => rw [hfn hc] at hk; simp at hk
      | true =>
        obtain ⟨o1, o2, o3, o4, o5, o6⟩ := hold hc
        rw [o2, o3]; exact early e' k t hk
    · rw [hx1 e' hne]; exact early e' k t hk
  case cf => exact cf
  case rl =>
    intro n e' hp
    by_cases hne : e' = e
    · subst hne
      rw [hx2]
      cases hc : (s.ent e').created with
      | false => exact absurd (by simp [hp, WPc.cur]) (hnew hc).2.2.2.2.2.2
      | true => rw [(hold hc).2.2.1]; exact rl n e' hp
    · rw [hx1 e' hne]; exact rl n e' hp
  case rem =>
    intro e'
    have := rem e'
    have := hrem e'
    rw [List.mem_append, List.mem_singleton]
    by_cases hne : e' = e
    · subst hne; rw [hx2]; grind
    · rw [hx1 e' hne]; grind
  case en =>
    intro e'
    have := en e'
    have := hen e'
    rw [List.mem_append, List.mem_singleton]
    by_cases hne : e' = e
    · subst hne; rw [hx2]; grind
    · rw [hx1 e' hne]; grind
  case cr =>
    intro e' y i hm
    rw [List.mem_append, List.mem_singleton] at hm
    rcases hm with hm | hm
    · by_cases hne : e' = e
      · subst hne
        obtain ⟨c1, c2, c3⟩ := cr e' y i hm
        obtain ⟨o1, o2, o3, o4, o5, o6⟩ := hold c1
        rw [hx2, o2, o3]
        exact ⟨o1, c2, c3⟩
      · rw [hx1 e' hne]; exact cr e' y i hm
    · obtain ⟨rfl, c⟩ := hcr e' y i hm.symm
      rw [hx2]; exact c
  case ec => intro e'; by_cases hne : e' = e
             · subst hne; rw [hx2]; exact hec
             · rw [hx1 e' hne]; exact ec e'
  case fe =>
    intro e' hh
    by_cases hne : e' = e
    · subst hne
      rw [hx2] at hh
      apply fe
      cases h3 : (s.ent e').enabled with
      | false => rfl
      | true => rw [hmono2 h3] at hh; simp at hh
    · rw [hx1 e' hne] at hh; exact fe e' hh
  case after =>
    intro e' a b hs
    rcases split_last hs with ⟨b', rfl, hs'⟩ | ⟨h1, -, -⟩
    · rw [fires_append, after e' a b' hs', fires_none e' ev hev]; rfl
    · rw [h1]; rfl
  case before =>
    intro e' t a b hs
    rcases split_last hs with ⟨b', rfl, hs'⟩ | ⟨-, h2, -⟩
    · exact before e' t a b' hs'
    · exact absurd h2.symm (hev e' t)
  case crash =>
    rw [List.mem_append, List.mem_singleton]
    rintro (h | h)
    · exact crash h
    · exact hcrash h.symm

theorem InvF.relock {s : St} {tr : List Ev} (h : InvF s tr) (now e : Nat) (hp : s.pc = .relock now e)
    (hcan : (s.ent e).cancelled = false) (hint : (s.ent e).interval.isSome = true) (hcr : (s.ent e).created = true) (hn : Heap) :
    InvF { (s.setEnt e { s.ent e with expires := (s.ent e).expires + (s.ent e).interval.getD 0, cb := true }) with
      pc := .fireLoop now, heap := hn } tr := by
  obtain ⟨now', tk, cc, ncb, alive, one, per, early, rl, cf, rem, en, cr, ec, fe, after, before, crash⟩ := h
  have hcalls : s.pc.calls = some e := by simp [hp, WPc.calls]
  have hentF : ∀ e', ∀ {β : Type} (f : Entry → β), (∀ (x : Entry) y z, f { x with expires := y, cb := z } = f x) →
      f (upd s.ent e { s.ent e with expires := (s.ent e).expires + (s.ent e).interval.getD 0, cb := true } e') = f (s.ent e') := by
    intro e' β f hf
    by_cases hne : e' = e
    · rw [hne, upd_same, hf]
    · rw [upd_ne _ _ hne]
  constructor <;> (try simp only [St.setEnt])
  case now => intro n hn; exact now' n (by simpa [hp, WPc.now] using hn)
  case tk => intro n e' hp'; simp at hp'
  case cc =>
    intro e' hc
    rw [hentF e' Entry.cancelled (fun _ _ _ => rfl)] at hc
    have hx : e' ≠ e := by rintro rfl; rw [hcan] at hc; simp at hc
    rw [upd_ne _ _ hx]; exact cc e' hc
  case ncb => intro n e' hp'; simp at hp'
  case alive =>
    intro e' a b c d
    have hx : e' ≠ e := by rintro rfl; rw [upd_same] at c; simp at c
    rw [upd_ne _ _ hx] at a b c ⊢
    exact alive e' a b c (by rw [hcalls]; simpa using fun h => hx h.symm)
  case one =>
    intro e' hi
    rw [hentF e' Entry.interval (fun _ _ _ => rfl)] at hi
    have hx : e' ≠ e := by rintro rfl; rw [hi] at hint; simp at hint
    simp only [upd_ne _ _ hx, St.key]
    exact one e' hi
  case per =>
    intro e' i hi
    rw [hentF e' Entry.interval (fun _ _ _ => rfl)] at hi
    obtain ⟨p1, p2⟩ := per e' i hi
    refine ⟨p1, fun hc => ?_⟩
    rw [hentF e' Entry.cancelled (fun _ _ _ => rfl)] at hc
    have := p2 hc
    rw [hentF e' Entry.first (fun _ _ _ => rfl), ← this, hcalls]
    by_cases hx : e' = e
    · subst hx
      simp [St.key, WPc.calls, hi]
    · simp only [St.key, upd_ne _ _ hx, WPc.calls]
      simp only [Option.some.injEq, if_neg (fun h : e = e' => hx h.symm)]
      simp
  case early =>
    intro e' k t hk
    rw [hentF e' Entry.first (fun _ _ _ => rfl), hentF e' Entry.interval (fun _ _ _ => rfl)]
    exact early e' k t hk
  case rl => intro n e' hp'; simp at hp'
  case cf => intro n e' hp'; simp at hp'
  case rem => intro e'; rw [hentF e' Entry.cancelled (fun _ _ _ => rfl)]; exact rem e'
  case en => intro e'; rw [hentF e' Entry.enabled (fun _ _ _ => rfl)]; exact en e'
  case cr =>
    intro e' x i hm
    rw [hentF e' Entry.created (fun _ _ _ => rfl), hentF e' Entry.first (fun _ _ _ => rfl), hentF e' Entry.interval (fun _ _ _ => rfl)]
    exact cr e' x i hm
  case ec => intro e'; rw [hentF e' Entry.created (fun _ _ _ => rfl), hentF e' Entry.enabled (fun _ _ _ => rfl)]; exact ec e'
  case fe => intro e'; rw [hentF e' Entry.enabled (fun _ _ _ => rfl)]; exact fe e'
  all_goals assumption

theorem InvF.worker {s : St} {tr : List Ev} (h : InvF s tr) (hI : Inv s) (weak : Bool) :
    InvF (workerStep s weak).1 (tr ++ (workerStep s weak).2) := by
  have hcre : ∀ e, s.pc.cur = some e → (s.ent e).created = true := fun e he => by
    obtain ⟨g1, g2⟩ := hI.cur e he
    exact h.ec e (hI.he e ⟨0, g1, g2⟩)
  unfold workerStep
  split
  · next hp => cases s.stopped <;> simp only [List.append_nil] <;>
      refine h.goto rfl (Nat.le_refl _) ?_ ?_ ?_ ?_ ?_ ?_ <;> simp [St.goto, hp, WPc.now, WPc.calls]
  · next hp => simp only [List.append_nil]; refine h.goto rfl (Nat.le_refl _) ?_ ?_ ?_ ?_ ?_ ?_ <;> simp [St.goto, hp, WPc.now, WPc.calls]
  · next p hp =>
    split <;> simp only [List.append_nil] <;>
      refine h.goto rfl (Nat.le_refl _) ?_ ?_ ?_ ?_ ?_ ?_ <;> simp [St.goto, hp, WPc.now, WPc.calls]
  · next p hp => simp only [List.append_nil]; refine h.goto rfl (Nat.le_refl _) ?_ ?_ ?_ ?_ ?_ ?_ <;> simp [St.goto, hp, WPc.now, WPc.calls]
  · next p e t hp =>
    split <;> simp only [List.append_nil] <;>
      refine h.goto rfl (Nat.le_refl _) ?_ ?_ ?_ ?_ ?_ ?_ <;> simp [St.goto, hp, WPc.now, WPc.calls]
  · next hp => simp only [List.append_nil]; refine h.goto rfl (Nat.le_refl _) ?_ ?_ ?_ ?_ ?_ ?_ <;> simp [St.goto, hp, WPc.now, WPc.calls]
  · next now hp =>
    split
    · simp only [List.append_nil]; refine h.goto rfl (Nat.le_refl _) ?_ ?_ ?_ ?_ ?_ ?_ <;> simp [St.goto, hp, WPc.now, WPc.calls]
    · split
      · simp only [List.append_nil]; refine h.goto rfl (Nat.le_refl _) ?_ ?_ ?_ ?_ ?_ ?_ <;> simp [hp, WPc.now, WPc.calls]
      · split
        · simp only [List.append_nil]; refine h.goto rfl (Nat.le_refl _) ?_ ?_ ?_ ?_ ?_ ?_ <;> simp [St.goto, hp, WPc.now, WPc.calls]
        · simp only [List.append_nil]; refine h.goto rfl (Nat.le_refl _) ?_ ?_ ?_ ?_ ?_ ?_ <;> simp [St.goto, hp, WPc.now, WPc.calls]
          omega
  · next now e hp =>
    split
    · next hcb => exact h.fire hI now e hp hcb
    · next hcb =>
      split
      · next hi =>
        simp only [List.append_nil]; refine h.goto rfl (Nat.le_refl _) ?_ ?_ ?_ ?_ ?_ ?_ <;> simp [St.goto, hp, WPc.now, WPc.calls]
        cases hc : (s.ent e).cancelled with
        | true => rfl
        | false =>
          have := (h.alive e (hcre e (by simp [hp, WPc.cur])) hc (by simpa using hcb) (by simp [hp, WPc.calls])).1
          rw [this] at hi; simp at hi
      · simp only [List.append_nil]; refine h.goto rfl (Nat.le_refl _) ?_ ?_ ?_ ?_ ?_ ?_ <;> simp [St.goto, hp, WPc.now, WPc.calls]
  · next now e hp =>
    split
    · next hi => simp only [List.append_nil]; refine h.goto rfl (Nat.le_refl _) ?_ ?_ ?_ ?_ ?_ ?_ <;> simp [St.goto, hp, WPc.now, WPc.calls, hi]
    · next hi =>
      simp only [List.append_nil]; refine h.goto rfl (Nat.le_refl _) ?_ ?_ ?_ ?_ ?_ ?_ <;> simp [St.goto, hp, WPc.now, WPc.calls]
      right
      exact ⟨by simpa using hi, h.cf now e hp⟩
  · next now e hp =>
    split
    · next hc =>
      simp only [List.append_nil]; refine h.goto rfl (Nat.le_refl _) ?_ ?_ ?_ ?_ ?_ ?_ <;> simp [St.goto, hp, WPc.now, WPc.calls, hc]
    · next hc =>
      simp only [List.append_nil]
      exact h.relock now e hp (by simpa using hc) (h.rl now e hp) (hcre e (by simp [hp, WPc.cur])) _
  · next now e hp =>
    have := h.ncb now e hp
    rw [if_pos this]
    simp only [List.append_nil]; refine h.goto rfl (Nat.le_refl _) ?_ ?_ ?_ ?_ ?_ ?_ <;> simp [St.goto, hp, WPc.now, WPc.calls]
  · next hp => split <;> simp only [List.append_nil] <;>
      refine h.goto rfl (Nat.le_refl _) ?_ ?_ ?_ ?_ ?_ ?_ <;> simp [St.goto, hp, WPc.now, WPc.calls]
  · next t hp => simp only [List.append_nil]; refine h.goto rfl (Nat.le_refl _) ?_ ?_ ?_ ?_ ?_ ?_ <;> simp [St.goto, hp, WPc.now, WPc.calls]
  · next t r hp =>
    split
    · simp only [List.append_nil]; refine h.goto rfl (Nat.le_refl _) ?_ ?_ ?_ ?_ ?_ ?_ <;> simp [St.goto, hp, WPc.now, WPc.calls]
    · split <;> simp only [List.append_nil] <;>
        refine h.goto rfl (Nat.le_refl _) ?_ ?_ ?_ ?_ ?_ ?_ <;> simp [St.goto, hp, WPc.now, WPc.calls]
  · next hp => split <;> simp only [List.append_nil] <;>
      refine h.goto rfl (Nat.le_refl _) ?_ ?_ ?_ ?_ ?_ ?_ <;> simp [St.goto, hp, WPc.now, WPc.calls]
  · next x d hp => split <;> simp only [List.append_nil] <;>
      refine h.goto rfl (Nat.le_refl _) ?_ ?_ ?_ ?_ ?_ ?_ <;> simp [St.goto, hp, WPc.now, WPc.calls]
  · simp only [List.append_nil]; exact h

theorem InvF.other {s s' : St} {tr : List Ev} (h : InvF s tr) (he : s'.ent = s.ent) (hk : s.clock ≤ s'.clock) (hp : s'.pc = s.pc) :
    InvF s' tr := by
  refine h.goto he hk ?_ ?_ ?_ ?_ ?_ ?_ <;> rw [hp]
  · exact fun n hn => Or.inl hn
  · exact h.tk
  · exact h.ncb
  · exact h.rl
  · exact h.cf
  · exact Or.inl rfl

theorem clientStep_ent (s : St) (p : Nat) (weak : Bool) :
    (clientStep s p weak).ent = s.ent ∧ (clientStep s p weak).pc = s.pc ∧ (clientStep s p weak).clock = s.clock := by
  unfold clientStep
  split
  · simp
  · simp [St.toC]
  · split
    · simp [St.toC]
    · split <;> simp [St.toC]

theorem InvF.step {s : St} {tr : List Ev} (h : InvF s tr) (hI : Inv s) (a : Act) :
    InvF (Timer.step s a).1 (tr ++ (Timer.step s a).2) := by
  cases a with
  | tick d => simp only [Timer.step, List.append_nil]; exact h.other rfl (Nat.le_add_right _ _) rfl
  | create e t i =>
    simp only [Timer.step]
    split
    · simp only [List.append_nil]; exact h
    · next hc =>
      simp only [not_or, Bool.not_eq_true] at hc
      have hcr := hI.created e hc.1
      have hcur : s.pc.cur ≠ some e := fun hx => by
        obtain ⟨g1, g2⟩ := hI.cur e hx
        have := hI.he e ⟨0, g1, g2⟩
        rw [hcr.1] at this; simp at this
      refine h.ev e _ rfl rfl rfl ?_ ?_ ?_ ?_ ?_ ?_ ?_ ?_ ?_ ?_ ?_ <;> simp_all
  | enable p e =>
    simp only [Timer.step]
    split
    · next hc =>
      have hev : (enable s p e).2 = [.enabled e] := by simp only [enable]; split <;> rfl
      rw [hev]
      refine h.ev e { s.ent e with enabled := true } ?_ ?_ ?_ ?_ ?_ ?_ ?_ ?_ ?_ ?_ ?_ ?_ ?_ ?_
      · simp only [enable]; split <;> rfl
      · simp only [enable]; split <;> rfl
      · simp only [enable]; split <;> rfl
      all_goals simp_all
      grind
    · simp only [List.append_nil]; exact h
  | remove e =>
    simp only [Timer.step]
    split
    · next hc =>
      refine h.ev e { s.ent e with cancelled := true, cb := false } rfl rfl rfl ?_ ?_ ?_ ?_ ?_ ?_ ?_ ?_ ?_ ?_ ?_ <;> simp_all
      grind
    · simp only [List.append_nil]; exact h
  | stop => simp only [Timer.step, List.append_nil]; exact h.other rfl (Nat.le_refl _) rfl
  | client p weak =>
    simp only [Timer.step, List.append_nil]
    obtain ⟨h1, h2, h3⟩ := clientStep_ent s p weak
    exact h.other h1 (Nat.le_of_eq h3.symm) h2
  | worker weak => exact h.worker hI weak

theorem inv_run {s : St} {tr : List Ev} (h : Inv s) (hF : InvF s tr) (as : List Act) :
    Inv (run s tr as).1 ∧ InvF (run s tr as).1 (run s tr as).2 := by
  induction as generalizing s tr with
  | nil => exact ⟨h, hF⟩
  | cons a as ih => exact ih (h.step a) (hF.step h a)

/-! ### The timer thread running on its own -/

/-- From here, some steps of the timer thread alone lead there. -/
def Reaches (s : St) (tr : List Ev) (s' : St) (tr' : List Ev) : Prop :=
  ∃ n, run s tr (List.replicate n (.worker false)) = (s', tr')

theorem run_append (s : St) (tr : List Ev) (a b : List Act) : run s tr (a ++ b) = run (run s tr a).1 (run s tr a).2 b := by
  induction a generalizing s tr with
  | nil => rfl
  | cons x a ih => exact ih _ _

theorem Reaches.refl (s : St) (tr : List Ev) : Reaches s tr s tr := ⟨0, rfl⟩

theorem Reaches.trans {a b c : St} {x y z : List Ev} (h : Reaches a x b y) (h' : Reaches b y c z) : Reaches a x c z := by
  obtain ⟨n, h⟩ := h
  obtain ⟨m, h'⟩ := h'
  exact ⟨n + m, by rw [← List.replicate_append_replicate, run_append, h, h']⟩

theorem Reaches.one {s s' : St} {tr evs : List Ev} (h : workerStep s false = (s', evs)) : Reaches s tr s' (tr ++ evs) :=
  ⟨1, by simp only [List.replicate, run, step, h]⟩

theorem Reaches.one' {s s' : St} {tr : List Ev} (h : workerStep s false = (s', [])) : Reaches s tr s' tr := by
  have := Reaches.one (tr := tr) h
  rwa [List.append_nil] at this

theorem Reaches.inv {s s' : St} {tr tr' : List Ev} (h : Reaches s tr s' tr') (hI : Inv s) (hF : InvF s tr) :
    Inv s' ∧ InvF s' tr' := by
  obtain ⟨n, h⟩ := h
  have := inv_run hI hF (List.replicate n (.worker false))
  rw [h] at this
  exact this

/-- What the first part of a round keeps. -/
structure Same (s s' : St) : Prop where
  np : s'.np = s.np
  clock : s'.clock = s.clock
  ent : s'.ent = s.ent

theorem reaches_collect (p : Nat) (t : List Nat) (s : St) (tr : List Ev) (hp : s.pc = .collect p t) :
    ∃ s', Reaches s tr s' tr ∧ s'.pc = .reap (p + 1) ∧ s'.q = s.q ∧ Same s s' := by
  induction t generalizing s with
  | nil => exact ⟨s.goto (.reap (p + 1)), Reaches.one' (by simp [workerStep, hp]), rfl, rfl, ⟨rfl, rfl, rfl⟩⟩
  | cons e t ih =>
    by_cases hc : (s.ent e).cancelled = true
    · obtain ⟨s', h1, h2, h3, h4⟩ := ih (s.goto (.collect p t)) rfl
      exact ⟨s', (Reaches.one' (by simp [workerStep, hp, hc])).trans h1, h2, h3, ⟨h4.np, h4.clock, h4.ent⟩⟩
    · obtain ⟨s', h1, h2, h3, h4⟩ := ih { s.goto (.collect p t) with heap := s.heap.push s.key e } rfl
      exact ⟨s', (Reaches.one' (by simp [workerStep, hp, hc])).trans h1, h2, h3, ⟨h4.np, h4.clock, h4.ent⟩⟩

theorem reaches_reap (k p : Nat) (s : St) (tr : List Ev) (hk : s.np = p + k) (hp : s.pc = .reap p) (he : ∀ p', p' < p → s.q p' = []) :
    ∃ s', Reaches s tr s' tr ∧ s'.pc = .fire ∧ (∀ p', p' < s.np → s'.q p' = []) ∧ Same s s' := by
  induction k generalizing s p with
  | zero =>
    exact ⟨s.goto .fire, Reaches.one' (by simp [workerStep, hp, hk]), rfl, fun p' hp' => he p' (by omega), ⟨rfl, rfl, rfl⟩⟩
  | succ k ih =>
    obtain ⟨s1, h1, h2, h3, h4⟩ := reaches_collect p (s.q p)
      { s.goto (.collect p (s.q p)) with q := upd s.q p [], earliest := upd s.earliest p inf } tr rfl
    obtain ⟨s2, g1, g2, g3, g4⟩ := ih (p + 1) s1 (by rw [h4.np]; show s.np = _; omega) h2 (by
      intro p' hp'
      rw [h3]
      simp only [upd]
      split
      · rfl
      · exact he p' (by omega))
    refine ⟨s2, ((Reaches.one' (by simp [workerStep, hp, show p < s.np by omega])).trans h1).trans g1, g2, ?_, ?_⟩
    · intro p' hp'
      exact g3 p' (by rw [h4.np]; exact hp')
    · exact ⟨g4.np.trans h4.np, g4.clock.trans h4.clock, g4.ent.trans h4.ent⟩

theorem sum_lt {f g : Nat → Nat} {n e : Nat} (he : e < n) (h : ∀ x, f x ≤ g x) (h' : f e < g e) :
    ((List.range n).map f).sum < ((List.range n).map g).sum := by
  have hle : ∀ n, ((List.range n).map f).sum ≤ ((List.range n).map g).sum := by
    intro n
    induction n with
    | zero => simp
    | succ n ih => simp only [List.range_succ, List.map_append, List.sum_append, List.map_cons, List.map_nil, List.sum_cons,
        List.sum_nil]; have := h n; omega
  induction n with
  | zero => omega
  | succ n ih =>
    simp only [List.range_succ, List.map_append, List.sum_append, List.map_cons, List.map_nil, List.sum_cons, List.sum_nil]
    by_cases hen : e = n
    · subst hen; have := hle e; omega
    · have := ih (by omega); have := h n; omega

open Classical in
/-- How much there is to do for timer `e`. -/
noncomputable def todo (now : Nat) (s : St) (e : Nat) : Nat := if s.heap.Has e then 1 + (now + 1 - s.key e) else 0

theorem heap_bound (h : Heap) : ∃ n, ∀ x, h.Has x → x < n := by
  have : ∀ k, ∃ n, ∀ i, i < k → h.a i < n := by
    intro k
    induction k with
    | zero => exact ⟨0, by omega⟩
    | succ k ih =>
      obtain ⟨n, hn⟩ := ih
      refine ⟨n + h.a k + 1, fun i hi => ?_⟩
      by_cases hik : i = k
      · subst hik; omega
      · have := hn i (by omega); omega
  obtain ⟨n, hn⟩ := this h.n
  exact ⟨n, fun x ⟨i, hi, hx⟩ => hx ▸ hn i hi⟩

theorem todo_pop {s s' : St} (now : Nat) (hi : s.heap.Inj) (hn : 0 < s.heap.n) (hh : s'.heap = s.heap.pop s.key) (he : ∀ e, s'.key e = s.key e)
    (e : Nat) : todo now s' e ≤ todo now s e ∧ (e = s.heap.top → todo now s' e < todo now s e) := by
  unfold todo
  rw [he, hh, Heap.pop_has hi hn]
  constructor
  · by_cases h1 : s.heap.Has e <;> by_cases h2 : e = s.heap.top <;> simp [h1, h2] <;> grind
  · rintro rfl
    have : s.heap.Has s.heap.top := ⟨0, hn, rfl⟩
    simp [this]
    omega

theorem reaches_fire (now m n : Nat) (s : St) (tr : List Ev) (hI : Inv s) (hF : InvF s tr) (hp : s.pc = .fireLoop now)
    (hb : ∀ x, s.heap.Has x → x < n) (hm : ((List.range n).map (todo now s)).sum < m) :
    ∃ s' tr', Reaches s tr s' tr' ∧ s'.pc = .after ∧ (s'.heap.n = 0 ∨ now < s'.key s'.heap.top) ∧ s'.q = s.q ∧
      s'.clock = s.clock ∧ s'.np = s.np := by
  induction m generalizing s tr with
  | zero => omega
  | succ m ih =>
    by_cases hn : s.heap.n = 0
    · exact ⟨s.goto .after, tr, Reaches.one' (by simp [workerStep, hp, hn]), rfl, Or.inl hn, rfl, rfl, rfl⟩
    have htop : s.heap.Has s.heap.top := ⟨0, by omega, rfl⟩
    -- going on from a state with less to do
    have go : ∀ s1 tr1, Reaches s tr s1 tr1 → s1.pc = .fireLoop now → (∀ x, s1.heap.Has x → s.heap.Has x) →
        (∀ e, todo now s1 e ≤ todo now s e ∧ (e = s.heap.top → todo now s1 e < todo now s e)) → s1.q = s.q →
        s1.clock = s.clock → s1.np = s.np → ∃ s' tr', Reaches s tr s' tr' ∧ s'.pc = .after ∧
        (s'.heap.n = 0 ∨ now < s'.key s'.heap.top) ∧ s'.q = s.q ∧ s'.clock = s.clock ∧ s'.np = s.np := by
      intro s1 tr1 hr hp1 hsub htd hq hc hst
      obtain ⟨i1, i2⟩ := hr.inv hI hF
      have := sum_lt (hb _ htop) (fun x => (htd x).1) ((htd _).2 rfl)
      obtain ⟨s', tr', g1, g2, g3, g4, g5, g6⟩ := ih s1 tr1 i1 i2 hp1 (fun x hx => hb x (hsub x hx)) (by omega)
      exact ⟨s', tr', hr.trans g1, g2, g3, g4.trans hq, g5.trans hc, g6.trans hst⟩
    have hsub : ∀ x, (s.heap.pop s.key).Has x → s.heap.Has x := fun x hx => ((Heap.pop_has hI.inj (by omega) x).1 hx).1
    by_cases hc : (s.ent s.heap.top).cancelled = true
    · refine go { s with heap := s.heap.pop s.key } tr (Reaches.one' (by simp [workerStep, hp, hn, hc])) hp hsub
        (todo_pop now hI.inj (by omega) rfl (fun _ => rfl)) rfl rfl rfl
    by_cases hk : now < s.key s.heap.top
    · exact ⟨s.goto .after, tr, Reaches.one' (by simp [workerStep, hp, hn, hc, hk]), rfl, Or.inr hk, rfl, rfl, rfl⟩
    have r1 : Reaches s tr (s.goto (.take now s.heap.top)) tr := Reaches.one' (by simp [workerStep, hp, hn, hc, hk])
    have hcr : (s.ent s.heap.top).created = true := hF.ec _ (hI.he _ htop)
    by_cases hcb : (s.ent s.heap.top).cb = true
    · -- the callback is called
      have r2 : Reaches (s.goto (.take now s.heap.top)) tr
          ((s.setEnt s.heap.top { s.ent s.heap.top with cb := false }).goto (.calling now s.heap.top))
          (tr ++ [.fired s.heap.top s.clock]) := Reaches.one (by simp [workerStep, St.goto, hcb, St.setEnt])
      have hkey : ∀ e, (s.setEnt s.heap.top { s.ent s.heap.top with cb := false }).key e = s.key e := by
        intro e; simp only [St.key, St.setEnt, upd]; split
        · next h => rw [h]
        · rfl
      have hkey' := funext hkey
      by_cases hi : (s.ent s.heap.top).interval.isSome = true
      · obtain ⟨i, hii⟩ := Option.isSome_iff_exists.1 hi
        have hi0 := (hF.per _ i hii).1
        have r3 := Reaches.one' (tr := tr ++ [.fired s.heap.top s.clock])
          (s := (s.setEnt s.heap.top { s.ent s.heap.top with cb := false }).goto (.calling now s.heap.top))
          (s' := (s.setEnt s.heap.top { s.ent s.heap.top with cb := false }).goto (.relock now s.heap.top))
          (by simp [workerStep, St.goto, St.setEnt, hi])
        have r4 := Reaches.one' (tr := tr ++ [.fired s.heap.top s.clock])
          (s := (s.setEnt s.heap.top { s.ent s.heap.top with cb := false }).goto (.relock now s.heap.top)) (by
            simp only [workerStep, St.goto, St.setEnt, upd_same]
            rw [if_neg hc])
        refine go _ _ (((r1.trans r2).trans r3).trans r4) rfl ?_ ?_ rfl rfl rfl
        · intro x hx
          exact ((Heap.again_has hI.inj (by omega) _).1 x).1 hx
        · intro e
          unfold todo
          simp only [St.goto, St.setEnt]
          rw [(Heap.again_has hI.inj (by omega) _).1 e]
          simp only [St.key, upd]
          simp only [St.key] at hk
          by_cases hx : e = s.heap.top
          · subst hx
            simp only [htop, hii, if_true, Option.getD_some]
            omega
          · simp [hx]
      · have hr3 := Reaches.one' (tr := tr ++ [.fired s.heap.top s.clock])
          (s := (s.setEnt s.heap.top { s.ent s.heap.top with cb := false }).goto (.calling now s.heap.top))
          (s' := { (s.setEnt s.heap.top { s.ent s.heap.top with cb := false }).goto (.fireLoop now) with heap := s.heap.pop s.key })
          (by
            simp only [workerStep, St.goto, St.setEnt, upd_same]
            rw [if_neg hi]
            rw [← hkey']
            rfl)
        refine go _ _ ((r1.trans r2).trans hr3) rfl hsub (todo_pop now hI.inj (by omega) rfl ?_) rfl rfl rfl
        exact hkey
    · -- it has been called
      have hi : (s.ent s.heap.top).interval.isSome = false := by
        have := (hF.alive _ hcr (by simpa using hc) (by simpa using hcb) (by simp [hp, WPc.calls])).1
        rw [this]; rfl
      have r2 := Reaches.one' (tr := tr) (s := s.goto (.take now s.heap.top))
        (s' := { s.goto (.fireLoop now) with heap := s.heap.pop s.key }) (by
          simp [workerStep, St.goto, hcb, hi]
          rfl)
      exact go _ _ (r1.trans r2) rfl hsub (todo_pop now hI.inj (by omega) rfl (fun _ => rfl)) rfl rfl rfl

/-! ### The properties -/

/-- A timer never fires before it is due: a periodic timer, the `k`-th time. -/
theorem C50_early (np : Nat) (as : List Act) (e x k t : Nat) (i : Option Nat)
    (hc : .created e x i ∈ (run (init np) [] as).2) (hf : (fires e (run (init np) [] as).2)[k]? = some t) : due x i k ≤ t := by
  obtain ⟨-, h⟩ := inv_run (inv_init np) (invF_init np) as
  obtain ⟨-, h2, h3⟩ := h.cr e x i hc
  rw [← h2, ← h3]
  exact h.early e k t hf

/-- A timer that is not periodic fires at most once. -/
theorem C50_once (np : Nat) (as : List Act) (e x : Nat) (hc : .created e x none ∈ (run (init np) [] as).2) :
    (fires e (run (init np) [] as).2).length ≤ 1 := by
  obtain ⟨-, h⟩ := inv_run (inv_init np) (invF_init np) as
  exact (h.one e (h.cr e x none hc).2.2).1

/-- Once `RemoveTimer` has taken effect, the timer does not fire. -/
theorem C50_removed (np : Nat) (as : List Act) (e : Nat) (a b : List Ev) (h : (run (init np) [] as).2 = a ++ .removed e :: b) :
    fires e b = [] := (inv_run (inv_init np) (invF_init np) as).2.after e a b h

/-- Only timers that were enabled fire. -/
theorem C50_enabled (np : Nat) (as : List Act) (e t : Nat) (a b : List Ev) (h : (run (init np) [] as).2 = a ++ .fired e t :: b) :
    .enabled e ∈ a := (inv_run (inv_init np) (invF_init np) as).2.before e t a b h

/-- The check in `FireTimers` never fails. -/
theorem C50_check (np : Nat) (as : List Act) : .crash ∉ (run (init np) [] as).2 :=
  (inv_run (inv_init np) (invF_init np) as).2.crash

/-- Where a timer that is to fire is, and under which key. -/
theorem live_place {s : St} {tr : List Ev} (hI : Inv s) (hF : InvF s tr) {e x : Nat} {i : Option Nat} (hc : .created e x i ∈ tr)
    (hl : Live tr e i) (hpc : s.pc.calls = none) :
    ((∃ p, e ∈ s.q p) ∨ e ∈ s.pc.coll ∨ s.heap.Has e) ∧ s.key e = due x i (fires e tr).length := by
  obtain ⟨c1, rfl, rfl⟩ := hF.cr e x i hc
  obtain ⟨l1, l2, l3⟩ := hl
  have hcan : (s.ent e).cancelled = false := by
    cases h : (s.ent e).cancelled with
    | false => rfl
    | true => exact absurd ((hF.rem e).2 h) l2
  refine ⟨hI.place e ((hF.en e).1 l1) hcan ?_, ?_⟩
  · cases hcb : (s.ent e).cb with
    | true => exact Or.inl rfl
    | false =>
      right
      cases hi : (s.ent e).interval with
      | some i => rfl
      | none => exact absurd (l3 hi) (hF.alive e c1 hcan hcb (by simp [hpc])).2
  · unfold due
    cases hi : (s.ent e).interval with
    | none => have := (hF.one e hi).2.2; simpa using this
    | some i =>
      have := (hF.per e i hi).2 hcan
      rw [hpc] at this
      simpa using this

/-- The timer thread never sleeps too long: as long as it has not been notified, no timer to fire is due before the end of its
sleep (if the call that enabled it is over). -/
theorem C51_sleep (np : Nat) (as : List Act) (x d e y : Nat) (i : Option Nat) (hp : (run (init np) [] as).1.pc = .asleep x d)
    (hn : (run (init np) [] as).1.notified = false) (hc : .created e y i ∈ (run (init np) [] as).2)
    (hl : Live (run (init np) [] as).2 e i) (hs : Settled (run (init np) [] as).1 e)
    (hinf : due y i (fires e (run (init np) [] as).2).length < inf) :
    d ≤ due y i (fires e (run (init np) [] as).2).length := by
  obtain ⟨hI, hF⟩ := inv_run (inv_init np) (invF_init np) as
  generalize (run (init np) [] as).1 = s at *
  generalize (run (init np) [] as).2 = tr at *
  obtain ⟨h1, h2⟩ := live_place hI hF hc hl (by simp [hp, WPc.calls])
  obtain ⟨a1, a2, a3, a4⟩ := hI.asl x d hp
  have hx : s.next = x := by
    by_cases h : s.next = x
    · exact h
    · rw [a2 h] at hn; simp at hn
  have hle : s.next ≤ s.key e := by
    rcases h1 with ⟨p, hm⟩ | hm | hm
    · rcases hI.cov p e hm with g | g | g
      · exact g
      · simp [hp, WPc.reaps] at g
      · exfalso
        cases hcp : s.c p with
        | idle => rw [hcp] at g; simp [CPc.id] at g
        | load e' t => rw [hcp] at g; simp [CPc.id] at g; subst g; exact (hs p t 0).1 hcp
        | «try» e' t r => rw [hcp] at g; simp [CPc.id] at g; subst g; exact (hs p t r).2 hcp
    · simp [hp, WPc.coll] at hm
    · rcases hI.sl (by simp [hp, WPc.sleepy]) with g | g
      · obtain ⟨j, hj, -⟩ := hm; omega
      · exact Nat.le_trans g (hI.ord.top_le hm)
  rw [a4 (by omega)]
  omega

/-- `Stop` wakes the timer thread up. -/
theorem C51_stop (np : Nat) (as : List Act) (x d : Nat) (hp : (run (init np) [] as).1.pc = .asleep x d)
    (hs : (run (init np) [] as).1.stopped = true) : (run (init np) [] as).1.notified = true :=
  ((inv_run (inv_init np) (invF_init np) as).1.asl x d hp).2.2.1 hs

/-- When the timer thread begins a round, left alone, it fires all timers that are due (as often as they are). -/
theorem C51_round (np : Nat) (as : List Act) (hp : (run (init np) [] as).1.pc = .loop)
    (hs : (run (init np) [] as).1.stopped = false) :
    ∃ n, ∀ e y i, .created e y i ∈ (run (init np) [] (as ++ List.replicate n (.worker false))).2 →
      Live (run (init np) [] (as ++ List.replicate n (.worker false))).2 e i →
      (run (init np) [] as).1.clock < due y i (fires e (run (init np) [] (as ++ List.replicate n (.worker false))).2).length := by
  obtain ⟨hI, hF⟩ := inv_run (inv_init np) (invF_init np) as
  simp only [run_append]
  generalize (run (init np) [] as).1 = s at *
  generalize (run (init np) [] as).2 = tr at *
  have r1 := Reaches.one' (tr := tr) (s := s) (s' := s.goto .reset) (by simp [workerStep, hp, hs])
  have r2 := Reaches.one' (tr := tr) (s := s.goto .reset) (s' := { s.goto (.reap 0) with next := inf }) (by simp [workerStep, St.goto])
  obtain ⟨s3, r3, p3, q3, e3⟩ := reaches_reap s.np 0 { s.goto (.reap 0) with next := inf } tr
    (by rw [Nat.zero_add]; rfl) rfl (by omega)
  have r4 := Reaches.one' (tr := tr) (s := s3) (s' := s3.goto (.fireLoop s3.clock)) (by simp [workerStep, p3])
  have r := ((r1.trans r2).trans r3).trans r4
  obtain ⟨hI4, hF4⟩ := r.inv hI hF
  obtain ⟨b, hb⟩ := heap_bound s3.heap
  obtain ⟨s5, tr5, r5, p5, h5, q5, c5, n5⟩ := reaches_fire s3.clock _ b (s3.goto (.fireLoop s3.clock)) tr hI4 hF4 rfl hb (Nat.lt_succ_self _)
  obtain ⟨hI5, hF5⟩ := (r.trans r5).inv hI hF
  obtain ⟨n, hn⟩ := r.trans r5
  refine ⟨n, ?_⟩
  rw [hn]
  intro e y i hc hl
  obtain ⟨h1, h2⟩ := live_place hI5 hF5 hc hl (by simp [p5, WPc.calls])
  rw [← h2]
  have hclk : s3.clock = s.clock := e3.clock
  rcases h1 with ⟨p, hm⟩ | hm | hm
  · have hnp := (hI5.qe p e hm).2
    rw [q5] at hm
    rw [show St.q (s3.goto (.fireLoop s3.clock)) = s3.q from rfl, q3 p (by rw [n5, show St.np (s3.goto (.fireLoop s3.clock)) = s3.np from rfl, e3.np] at hnp; exact hnp)] at hm
    simp at hm
  · simp [p5, WPc.coll] at hm
  · rcases h5 with g | g
    · obtain ⟨j, hj, -⟩ := hm; omega
    · have := hI5.ord.top_le hm; omega

/-! ### The assumptions can be met -/

/-- A timer for time 5 that is enabled by the only thread. -/
def demo : List Act := [.create 0 5 none, .enable 0 0, .client 0 false, .client 0 false]

/-- Rounds of the timer thread, up to the first sleep. -/
def demoSleep : List Act := demo ++ List.replicate 12 (.worker false)

example : (run (init 1) [] demoSleep).1.pc = .asleep 5 5 ∧ (run (init 1) [] demoSleep).1.notified = false ∧
    .created 0 5 none ∈ (run (init 1) [] demoSleep).2 ∧ Live (run (init 1) [] demoSleep).2 0 none ∧
    Settled (run (init 1) [] demoSleep).1 0 ∧ due 5 none (fires 0 (run (init 1) [] demoSleep).2).length < inf := by
  refine ⟨?_, ?_, ?_, ?_, ?_, ?_⟩ <;>
  simp [demoSleep, demo, run, step, workerStep, clientStep, enable, init, St.setEnt, St.goto, St.toC, St.key, Heap.push, Heap.empty, Heap.top,
    siftUp, upd, inf, Live, fires, Settled, due, List.replicate]
  intro p t r
  split <;> simp_all

example : fires 0 (run (init 1) [] (demoSleep ++ [.tick 7] ++ List.replicate 20 (.worker false))).2 = [7] := by
  simp [demoSleep, demo, run, step, workerStep, clientStep, enable, init, St.setEnt, St.goto, St.toC, St.key, Heap.push, Heap.pop,
    Heap.empty, Heap.top, siftUp, upd, inf, fires, List.replicate]

example : (run (init 1) [] demo).1.pc = .loop ∧ (run (init 1) [] demo).1.stopped = false := by
  simp [demo, run, step, clientStep, enable, init, St.setEnt, St.toC, upd, inf]

example : (run (init 1) [] [.create 0 5 none, .remove 0]).2 = [.created 0 5 none] ++ .removed 0 :: [] := by
  simp [run, step, remove, init, St.setEnt]

/-- A periodic timer fires again and again in one round if the clock has moved on. -/
example : fires 0 (run (init 1) [] ([.create 0 5 (some 3), .enable 0 0, .tick 12] ++ List.replicate 20 (.worker false))).2 = [12, 12, 12] := by
  simp [run, step, workerStep, enable, init, St.setEnt, St.goto, St.toC, St.key, Heap.push, Heap.pop,
    Heap.empty, Heap.top, siftUp, siftDown, upd, inf, fires, List.replicate]

example : ∃ x d, (run (init 1) [] (demoSleep ++ [.stop])).1.pc = .asleep x d ∧ (run (init 1) [] (demoSleep ++ [.stop])).1.stopped = true := by
  refine ⟨5, 5, ?_, ?_⟩ <;>
  simp [demoSleep, demo, run, step, workerStep, clientStep, enable, init, St.setEnt, St.goto, St.toC, St.key, Heap.push, Heap.empty, Heap.top,
    siftUp, upd, inf, List.replicate]

end Verif.Fiber.Timer
