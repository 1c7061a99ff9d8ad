import Verif.Sync.NotifierThms

/-! A run of the notifier: the hypotheses of C142 can be met. -/

namespace Verif.Sync.Notifier

/-- Only waiter 0 and notifier 0 do something. -/
def G (word E : Nat) (w : W) (nt : N) (nx : Option Nat) (ep : Nat) (st : Sg) (tk : Nat) (P L U : List Nat) (fl : Nat) : S :=
  ⟨word, upd (fun _ => none) 0 nx, upd (fun _ => 0) 0 ep, upd (fun _ => .no) 0 st, upd (fun _ => .idle) 0 w, upd (fun _ => .idle) 0 nt, false, E,
    upd (fun _ => 0) 0 tk, P, L, upd (fun _ => []) 0 U, 0, fun _ => 0, fun _ => 0, fl⟩

theorem uu {α : Type} (f : Nat → α) (a b : α) : upd (upd f 0 a) 0 b = upd f 0 b := by funext i; simp only [upd_apply]; split <;> rfl

theorem u_const {α : Type} (a : α) : upd (fun _ => a) 0 a = fun _ => a := by funext i; simp only [upd_apply]; split <;> rfl

theorem G.lag {word E : Nat} {w : W} {nt : N} {nx : Option Nat} {ep : Nat} {st : Sg} {tk : Nat} {P L U : List Nat} {fl : Nat} (h1 : E ≤ tk + 1)
    (h2 : ∀ c x e, w = .sn c x e ∨ w = .cs c x e → e = E) (h3 : ∀ a x e l y, nt = .ns a x e l ∨ nt = .nc a x e l y → e = E) : Lag (G word E w nt nx ep st tk P L U fl) := by
  constructor
  · intro i hi
    simp only [G, upd_apply] at *
    split at hi
    · next h => rw [if_pos h]; omega
    · cases hi
  · intro i c x e hi
    simp only [G, upd_apply] at *
    split at hi
    · have := h2 c x e hi; omega
    · simp at hi
  · intro j a x e l y hj
    simp only [G, upd_apply] at *
    split at hj
    · have := h3 a x e l y hj; omega
    · simp at hj

theorem init_eq : S.init 1 = G 18446744060824715263 4294967293 .idle .idle none 0 .no 0 [] [] [] 0 := by
  simp [S.init, G, u_const]

local macro "go" s:term : tactic => `(tactic| (have := $s; simpa [G, S.w, S.t, S.look, S.swap, S.flush, easy, stk, wts, epo, target, pass, withTop, diff, dec, uu, u_const] using this))

/-- Waiter 0 prepares, tests, commits and sleeps. -/
theorem asleep : Reach 1 (G 18446744065119617024 4294967294 .sleep .idle none 18446744060824715263 .waiting 4294967293 [] [0] [] 0) := by
  have r0 : Reach 1 (G 18446744060824715263 4294967293 .idle .idle none 0 .no 0 [] [] [] 0) := init_eq ▸ .init
  have r1 : Reach 1 (G 18446744060824780799 4294967293 .pre .idle none 18446744060824715263 .no 4294967293 [0] [] [] 0) :=
    r0.step (by go (Step.prepare (n := 1) (s := G 18446744060824715263 4294967293 .idle .idle none 0 .no 0 [] [] [] 0) 0 (by decide) rfl)) (G.lag (by decide) (by simp) (by simp))
  have r2 : Reach 1 (G 18446744060824780799 4294967293 (.chk true) .idle none 18446744060824715263 .no 4294967293 [0] [] [] 0) :=
    r1.step (by go (Step.test (n := 1) (s := G 18446744060824780799 4294967293 .pre .idle none 18446744060824715263 .no 4294967293 [0] [] [] 0) 0 true rfl)) (G.lag (by decide) (by simp) (by simp))
  have r3 : Reach 1 (G 18446744060824780799 4294967293 (.sn true 18446744060824780799 4294967293) .idle none 18446744060824715263 .no 4294967293 [0] [] [] 0) :=
    r2.step (by go (Step.load (n := 1) (s := G 18446744060824780799 4294967293 (.chk true) .idle none 18446744060824715263 .no 4294967293 [0] [] [] 0) 0 true rfl)) (G.lag (by decide) (by simp) (by simp))
  have r4 : Reach 1 (G 18446744060824780799 4294967293 (.cs true 18446744060824780799 4294967293) .idle none 18446744060824715263 .no 4294967293 [0] [] [] 0) :=
    r3.step (by go (Step.turn (n := 1) (s := G 18446744060824780799 4294967293 (.sn true 18446744060824780799 4294967293) .idle none 18446744060824715263 .no 4294967293 [0] [] [] 0) 0 true _ _ rfl (by decide +kernel))) (G.lag (by decide) (by simp) (by simp))
  have r5 : Reach 1 (G 18446744065119617024 4294967294 .park .idle none 18446744060824715263 .no 4294967293 [] [0] [] 0) :=
    r4.step (by go (Step.commit (n := 1) (s := G 18446744060824780799 4294967293 (.cs true 18446744060824780799 4294967293) .idle none 18446744060824715263 .no 4294967293 [0] [] [] 0) 0 _ _ rfl rfl)) (G.lag (by decide) (by simp) (by simp))
  exact r5.step (by go (Step.rest (n := 1) (s := G 18446744065119617024 4294967294 .park .idle none 18446744060824715263 .no 4294967293 [] [0] [] 0) 0 rfl (by decide))) (G.lag (by decide) (by simp) (by simp))

/-- C142_parked, C142_turn: it is on the stack. -/
example : ∃ s, Reach 1 s ∧ s.waits 0 ∧ s.L = [0] ∧ s.wk 0 = .sleep := ⟨_, asleep, ⟨rfl, by decide⟩, rfl, rfl⟩

/-- C142_all, C142_wakes: `Notify(true)` takes it off the stack. -/
theorem taken : ∃ s, Reach 1 s ∧ s.U 0 = [0] ∧ s.nt 0 = .up (some 0) ∧ s.wk 0 = .sleep := by
  have r1 : Reach 1 (G 18446744065119617024 4294967294 .sleep (.start true) none 18446744060824715263 .waiting 4294967293 [] [0] [] 0) :=
    asleep.step (by go (Step.notify (n := 1) (s := G 18446744065119617024 4294967294 .sleep .idle none 18446744060824715263 .waiting 4294967293 [] [0] [] 0) 0 true rfl)) (G.lag (by decide) (by simp) (by simp))
  have r2 : Reach 1 (G 18446744065119617024 4294967294 .sleep (.ns true 18446744065119617024 4294967294 [0]) none 18446744060824715263 .waiting 4294967293 [] [0] [] 0) :=
    r1.step (by go (Step.look (n := 1) (s := G 18446744065119617024 4294967294 .sleep (.start true) none 18446744060824715263 .waiting 4294967293 [] [0] [] 0) 0 true rfl)) (G.lag (by decide) (by simp) (by simp))
  have r3 : Reach 1 (G 18446744065119617024 4294967294 .sleep (.nc true 18446744065119617024 4294967294 [0] 18446744065119682559) none 18446744060824715263 .waiting 4294967293 [] [0] [] 0) :=
    r2.step (by go (Step.plan (n := 1) (s := G 18446744065119617024 4294967294 .sleep (.ns true 18446744065119617024 4294967294 [0]) none 18446744060824715263 .waiting 4294967293 [] [0] [] 0) 0 true _ _ _ rfl)) (G.lag (by decide) (by simp) (by rintro _ _ _ _ _ (h | h) <;> cases h; rfl))
  have r4 : Reach 1 (G 18446744065119682559 4294967294 .sleep (.up (some 0)) none 18446744060824715263 .waiting 4294967293 [] [] [0] 0) :=
    r3.step (by go (Step.swap (n := 1) (s := G 18446744065119617024 4294967294 .sleep (.nc true 18446744065119617024 4294967294 [0] 18446744065119682559) none 18446744060824715263 .waiting 4294967293 [] [0] [] 0) 0 true _ _ _ _ rfl rfl)) (G.lag (by decide) (by simp) (by simp))
  exact ⟨_, r4, rfl, rfl, rfl⟩

/-- And wakes it. -/
example : ∃ t, Reach 1 t ∧ t.nt 0 = .idle ∧ t.st 0 = .yes ∧ t.wk 0 ≠ .sleep := by
  obtain ⟨s, h, hu, -, -⟩ := taken
  obtain ⟨t, r, -, ht, h1⟩ := C142_wakes (by decide) h 0 (by rw [hu]; simp)
  exact ⟨t, r.reach h, ht, h1 0 (by rw [hu]; simp)⟩

end Verif.Sync.Notifier
