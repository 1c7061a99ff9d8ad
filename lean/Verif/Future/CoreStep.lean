import Verif.Future.CoreInv
/-!
# Every step keeps the invariant of futures
-/

namespace Verif.Future.Core

variable {V E : Type} {bp : E} {s : St V E} {tr : List (Ev V E)}

theorem Loc.avail {f : Fut V E} (hl : Loc f) (h : f.ready = true ∨ f.failed = true) : f.Avail := by
  have h1 : f.prod = .lock ∨ f.hasResult = true := by
    have he := hl.early
    have hr := hl.res
    have hh := hl.hr
    cases hp : f.prod <;> simp_all
  rcases hl.late h1 with h' | ⟨h2, h3, -⟩
  · exact h'
  · simp_all

theorem Inv.chainDone (h : Inv bp s tr) {i p : Nat} {r : Res V E} {f : Fut V E}
    (hp : (s.fut i).cons = .chainV p ∨ (s.fut i).cons = .chainE p) (hl : Loc f) (hcb : f.callback = none)
    (hfr : f.res = (s.fut i).res) (hfp : f.prod = (s.fut i).prod) (hfrun : f.run = (s.fut i).run) (hfc : f.cons = .done)
    (hres : (s.fut i).res = some r) : ∃ s', (s.put i f).resolve p r = (s', []) ∧ Inv bp s' tr := by
  have hcons : (s.fut i).cons ≠ .done := by rcases hp with hp | hp <;> simp [hp]
  have hrun : (s.fut i).run = .none := by
    by_cases h' : (s.fut i).run = .none
    · exact h'
    · exact absurd ((h.loc i).run h').2.1 hcons
  have hslot : (s.fut i).slot = some (.chain p) := by rcases hp with hp | hp <;> simp [Fut.slot, hp]
  have hcar : (s.fut i).carry = some p := by simp [Fut.carry, hrun, hslot, Cont.target]
  have hfs : f.slot = none := by simp [Fut.slot, hfc, hcb]
  have hip : i ≠ p := by
    rintro rfl
    have := (h.loc i).res.2 (by simp [h.held _ _ hcar])
    simp [hres] at this
  obtain ⟨i', kind, h1, h2⟩ := h.slotC _ _ hslot
  refine h.resolve hcar hip hl hfr (by simp [Fut.carry, hfs, hfrun, hrun]) hfp (by simp [hfs, hslot]) (by simp [hfs])
    (by simp [hfc]) (by simp [hrun]) ?_ ?_ (.chain h1 h2 (h.sound _ _ hres)) hres
  · intro r'; simp [Fut.Called, hfs, hslot]
  · intro _; exact .inl hrun

theorem Inv.runDone (h : Inv bp s tr) {i p : Nat} {r : Res V E} {c : Cont} (hr : (s.fut i).run = .queued c r)
    (hc : c = .chain p ∨ (c = .user .withValue (some p) ∧ ∃ e, r = .exc e)) :
    ∃ s', (s.put i { s.fut i with run := .over }).resolve p r = (s', []) ∧ Inv bp s' tr := by
  have hl := h.loc i
  obtain ⟨d1, d2, d3, d4⟩ := hl.run (by simp [hr])
  obtain ⟨e1, e2⟩ := hl.queued _ _ hr
  have hslot : (s.fut i).slot = some c := by simp [Fut.slot, d2, e1]
  have hcar : (s.fut i).carry = some p := by
    rcases hc with rfl | ⟨rfl, -⟩ <;> simp [Fut.carry, hr, hslot, Cont.target]
  have hip : i ≠ p := by
    rintro rfl
    have := h.held _ _ hcar
    simp [d1] at this
  refine h.resolve hcar hip (hl.runChange (.inr ⟨_, _, hr⟩)) rfl rfl rfl (fun _ _ => .rfl) (fun _ => id) (by simp [d2])
    (fun _ => rfl) ?_ ?_ ?_ e2
  · intro r'
    have hs : ({ s.fut i with run := .over } : Fut V E).slot = (s.fut i).slot := rfl
    simp only [Fut.Called, hr, hs, hslot]
    rcases hc with rfl | ⟨rfl, e, rfl⟩
    · simp
    · simp only [reduceCtorEq, exists_false, or_self, and_false, iff_false]
      rintro ⟨⟨kind, q, h1, h2⟩, h3, -⟩
      cases h1
      simp only [e2, Option.some.injEq] at h3
      subst h3
      simp [calls] at h2
  · simp
  · rcases hc with rfl | ⟨rfl, e, rfl⟩
    · obtain ⟨i', kind, h1, h2⟩ := h.slotC _ _ hslot
      exact .chain h1 h2 (h.sound _ _ e2)
    · exact .skip ((h.slotU _ _ _).1 hslot) (h.sound _ _ e2)

theorem Inv.consStep (h : Inv bp s tr) (i : Nat) : Inv bp (consStep s i).1 (tr ++ (consStep s i).2) := by
  have hl := h.loc i
  by_cases h1 : ∃ p, (s.fut i).cons = .chainV p
  · obtain ⟨p, hp⟩ := h1
    have hr := hl.cv p hp
    rcases hl.avail (.inl hr) with ⟨v, a1, a2, a3, a4⟩ | ⟨e, a1, a2, a3, a4⟩
    · obtain ⟨b1, b2⟩ := cons_take_local hl (.inr (.inl ⟨p, hp⟩)) (.inl ⟨hr, rfl⟩)
      obtain ⟨s', c1, c2⟩ := h.chainDone (.inl hp) b1 b2 rfl rfl rfl rfl a1
      unfold Core.consStep
      simp only [hp, a4, c1, List.append_nil]
      exact c2
    · simp [hr] at a3
  · by_cases h2 : ∃ p, (s.fut i).cons = .chainE p
    · obtain ⟨p, hp⟩ := h2
      have hr := hl.ce p hp
      rcases hl.avail (.inr hr) with ⟨v, a1, a2, a3, a4⟩ | ⟨e, a1, a2, a3, a4⟩
      · simp [hr] at a3
      · obtain ⟨b1, b2⟩ := cons_take_local hl (.inr (.inr ⟨p, hp⟩)) (.inr ⟨a3, hr, rfl⟩)
        obtain ⟨s', c1, c2⟩ := h.chainDone (.inr hp) b1 b2 rfl rfl rfl rfl a1
        unfold Core.consStep
        simp only [hp]
        split
        · rename_i e' he'
          rw [a4] at he'
          cases he'
          rw [c1, List.append_nil]
          exact c2
        · simp_all
    · rcases cons_local hl (fun p hp => h1 ⟨p, hp⟩) (fun p hp => h2 ⟨p, hp⟩) with h' | ⟨f', h', b1, b2⟩
      · rw [h']; simpa using h
      · rw [h']; simpa using h.silent b1 b2

theorem Inv.prodStep (h : Inv bp s tr) (i : Nat) : Inv bp (prodStep s i).1 (tr ++ (prodStep s i).2) := by
  rcases prod_local (h.loc i) with h' | ⟨f', h', b1, b2⟩
  · rw [h']; simpa using h
  · rw [h']; simpa using h.silent b1 b2

theorem Inv.runStep (h : Inv bp s tr) (i : Nat) : Inv bp (runStep s i).1 (tr ++ (runStep s i).2) := by
  unfold Core.runStep
  simp only []
  split
  · rename_i e hr
    simpa using h.runOver (.inr ⟨e, hr⟩)
  · rename_i p e hr
    obtain ⟨s', c1, c2⟩ := h.runDone hr (.inr ⟨rfl, e, rfl⟩)
    rw [c1]; simpa using c2
  · rename_i kind p r h1 h2 hr
    refine h.call hr ?_
    cases kind <;> cases r <;> simp [calls]
    cases p with
    | none => exact h1 _ rfl rfl rfl
    | some q => exact h2 _ _ rfl rfl rfl
  · rename_i p r hr
    obtain ⟨s', c1, c2⟩ := h.runDone hr (.inl rfl)
    rw [c1]; simpa using c2
  all_goals simpa using h

theorem Loc.made (r : Res V E) : Loc (match r with
      | .val v => { Fut.empty V E with value := some v, ready := true, hasResult := true, prod := .done, res := some r }
      | .exc e => { Fut.empty V E with exc := some e, failed := true, hasResult := true, prod := .done, res := some r }) := by
  cases r <;> constructor <;> simp [Fut.empty, Fut.Avail]

theorem Inv.then_ (h : Inv bp s tr) {i : Nat} {kind : Kind} (hb : (s.fut i).prod ≠ .unborn)
    (hc : (s.fut i).cons = .free) :
    Inv bp { (s.put i { s.fut i with cons := .store (.user kind (some s.next)) }).put s.next
        { Fut.empty V E with prod := .held } with next := s.next + 1 } (tr ++ [.then_ i kind (some s.next)]) := by
  have hlt : i < s.next := by
    have := h.born i
    rw [Iff.comm, ← Nat.not_lt] at this
    grind
  have h1 : Inv bp { s.put s.next { Fut.empty V E with prod := .held } with next := s.next + 1 } (tr ++ []) := by
    refine h.alloc ?_ (by simp) rfl rfl rfl (.inl ⟨rfl, rfl⟩)
    constructor <;> simp [Fut.empty]
  rw [List.append_nil] at h1
  have hi : i ≠ s.next := by omega
  have h2 := h1.attach (i := i) (kind := kind) (p := some s.next) (by simpa [hi] using hb) (by simpa [hi] using hc) (by
    rintro q hq
    cases hq
    refine ⟨by simp, by simp, ?_⟩
    intro j
    by_cases hj : j = s.next
    · subst hj; simp [Fut.carry, Fut.slot, Fut.empty]
    · simp only [put_fut, hj, ↓reduceIte]
      intro h3
      have h4 := h.held _ _ h3
      rw [(h.loc s.next).unborn ((h.born _).2 (Nat.le_refl _))] at h4
      simp [Fut.empty] at h4)
  refine cast ?_ h2
  congr 1
  simp only [St.put, hi, upd_apply, ↓reduceIte, St.mk.injEq, and_true]
  funext j
  simp only [upd_apply]
  by_cases hj : j = i
  · subst hj; simp [hi]
  · by_cases hj' : j = s.next <;> simp [hj, hj', Ne.symm hi]

theorem Inv.get (h : Inv bp s tr) (i : Nat) : Inv bp (act bp s (.get i)).1 (tr ++ (act bp s (.get i)).2) := by
  have hl := h.loc i
  simp only [act]
  by_cases hc : (s.fut i).cons = .free
  · have hrun : (s.fut i).run = .none := by
      by_cases h' : (s.fut i).run = .none
      · exact h'
      · have := ((h.loc i).run h').2.1
        simp [hc] at this
    obtain ⟨i1, i2, i3, i4, i5⟩ := hl.idle (by simp [hc]) (by simp [hc]) (by simp [hc])
    have hslot : (s.fut i).slot = none := by simp [Fut.slot, hc, i2]
    cases hr : (s.fut i).ready
    · cases hf : (s.fut i).failed
      · simpa [hc] using h
      · rcases hl.avail (.inr hf) with ⟨v, a1, a2, a3, a4⟩ | ⟨e, a1, a2, a3, a4⟩
        · simp [hr] at a2
        · obtain ⟨b1, b2⟩ := cons_take_local hl (.inl hc) (.inr ⟨hr, hf, rfl⟩)
          have e1 : ({ s.fut i with failed := false, cons := .done } : Fut V E) =
            ⟨(s.fut i).value, some e, false, false, (s.fut i).hasResult, (s.fut i).hasCallback, (s.fut i).flag,
              (s.fut i).callback, (s.fut i).prod, .done, (s.fut i).run, (s.fut i).res⟩ := by rw [← a4, ← hr]
          simp only [hc, a4]
          rw [← e1]
          refine Inv.got' (h.silent b1 ⟨rfl, ?_, .rfl, .rfl, .rfl, fun _ => .rfl, by simp⟩) ?_
          · rw [hslot]; simpa [Fut.slot] using i2
          · simpa using a1
    · rcases hl.avail (.inl hr) with ⟨v, a1, a2, a3, a4⟩ | ⟨e, a1, a2, a3, a4⟩
      · obtain ⟨b1, b2⟩ := cons_take_local hl (.inl hc) (.inl ⟨hr, rfl⟩)
        simp only [hc, a4]
        refine Inv.got' (h.silent b1 ⟨rfl, ?_, .rfl, .rfl, .rfl, fun _ => .rfl, by simp⟩) ?_
        · rw [hslot]; simpa [Fut.slot] using i2
        · simpa using a1
      · simp [hr] at a3
  · split <;> simp_all

theorem Inv.step (h : Inv bp s tr) (a : Act V E) : Inv bp (step bp s a).1 (tr ++ (step bp s a).2) := by
  unfold Core.step
  rw [h.ok]
  simp only [Bool.false_eq_true, ↓reduceIte]
  cases a with
  | promise =>
    refine h.alloc ?_ (by simp) rfl rfl rfl (.inl ⟨rfl, rfl⟩)
    constructor <;> simp [Fut.empty]
  | make r =>
    refine h.alloc (Loc.made r) ?_ ?_ ?_ ?_ (.inr ⟨r, ?_, rfl⟩) <;> cases r <;> simp [Fut.empty]
  | set i r =>
    simp only [act]
    split
    · exact h.setUser ‹_› (.inl rfl)
    · simpa using h
  | drop i =>
    simp only [act]
    split
    · exact h.setUser ‹_› (.inr ⟨rfl, rfl⟩)
    · simpa using h
  | then_ i kind void =>
    simp only [act]
    split
    · simpa using h
    · rename_i hc hb
      cases void with
      | true => exact h.attach hb hc (by simp)
      | false => exact h.then_ hb hc
    · simpa using h
  | get i => exact h.get i
  | ret i k =>
    simp only [act]
    split
    · simpa using h.runOver (.inl ‹_›)
    · simpa using h
    · rename_i p hr hc hb
      have hki : k ≠ i := by
        rintro rfl
        have := ((h.loc k).run (by simp [hr])).2.1
        simp [hc] at this
      simp only [put_fut, hki, ↓reduceIte]
      exact h.retFut hr hb hc
    · simpa using h
  | prod i => exact h.prodStep i
  | cons i => exact h.consStep i
  | run i => exact h.runStep i

theorem inv_run (h : Inv bp s tr) (as : List (Act V E)) : Inv bp (run bp s tr as).1 (run bp s tr as).2 := by
  induction as generalizing s tr with
  | nil => exact h
  | cons a as ih => exact ih (h.step a)

end Verif.Future.Core
