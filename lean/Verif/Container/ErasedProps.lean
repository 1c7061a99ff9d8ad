import Verif.Container.Erased

/-!
# C167: type-erased pointers own what they are given

A pointer that was given is, at any time, in exactly one of three places: held by one object, deleted once, or leaked.
-/

namespace Verif.Container.Erased

def Held (s : St) (h p d : Nat) : Prop := s.obj h = some (some p, d)

structure Inv (t : List (Nat × Nat)) (k : List Nat) (s : St) : Prop where
  uniq : ∀ p d e, (p, d) ∈ t → (p, e) ∈ t → d = e
  held : ∀ h p d, Held s h p d → (p, d) ∈ t ∧ (∀ e, (p, e) ∉ s.deleted) ∧ p ∉ k
  one : ∀ h g p d e, Held s h p d → Held s g p e → h = g
  del : ∀ p d, (p, d) ∈ s.deleted → (p, d) ∈ t ∧ p ∉ k
  once : s.deleted.Nodup
  leak : k.Nodup
  known : ∀ p ∈ k, ∃ d, (p, d) ∈ t
  all : ∀ p d, (p, d) ∈ t → (∃ h, Held s h p d) ∨ (p, d) ∈ s.deleted ∨ p ∈ k

/-- Objects are exchanged or renamed, none is lost. -/
theorem Inv.perm {t k s s'} (w : Inv t k s) (hd : s'.deleted = s.deleted) (f : Nat → Nat) (h1 : ∀ h p d, Held s' h p d → Held s (f h) p d) (hf : ∀ h g p d e, Held s' h p d → Held s' g p e → f h = f g → h = g)
    (h2 : ∀ h p d, Held s h p d → ∃ g, Held s' g p d) : Inv t k s' where
  uniq := w.uniq
  held h p d hh := by rw [hd]; exact w.held _ p d (h1 h p d hh)
  one h g p d e ha hb := hf h g p d e ha hb (w.one _ _ p d e (h1 _ _ _ ha) (h1 _ _ _ hb))
  del := by rw [hd]; exact w.del
  once := by rw [hd]; exact w.once
  leak := w.leak
  known := w.known
  all p d hp := by
    rw [hd]
    rcases w.all p d hp with ⟨h, hh⟩ | h
    · exact .inl (h2 h p d hh)
    · exact .inr h

/-- An object without a pointer is changed to another one without, or is none. -/
theorem Inv.idle {t k s s'} (w : Inv t k s) (hd : s'.deleted = s.deleted) (h : ∀ g p d, Held s' g p d ↔ Held s g p d) : Inv t k s' :=
  w.perm hd id (fun g p d => (h g p d).mp) (fun _ _ _ _ _ _ _ e => e) (fun g p d hh => ⟨g, (h g p d).mpr hh⟩)

/-- An object's pointer is deleted. -/
theorem Inv.drop {t k s s'} (w : Inv t k s) {h p d : Nat} (hh : Held s h p d) (hd : s'.deleted = (p, d) :: s.deleted) (ho : ∀ g q e, Held s' g q e ↔ g ≠ h ∧ Held s g q e) : Inv t k s' := by
  obtain ⟨h1, h2, h3⟩ := w.held h p d hh
  constructor
  · exact w.uniq
  · intro g q e hg
    obtain ⟨hne, hg⟩ := (ho g q e).mp hg
    obtain ⟨i1, i2, i3⟩ := w.held g q e hg
    refine ⟨i1, fun e' hm => ?_, i3⟩
    rw [hd] at hm
    rcases List.mem_cons.mp hm with e1 | e1
    · cases e1; exact hne (w.one g h p e d hg hh)
    · exact i2 e' e1
  · intro a b q e e' ha hb
    exact w.one a b q e e' ((ho _ _ _).mp ha).2 ((ho _ _ _).mp hb).2
  · intro q e hm
    rw [hd] at hm
    rcases List.mem_cons.mp hm with e1 | e1
    · cases e1; exact ⟨h1, h3⟩
    · exact w.del q e e1
  · rw [hd]; exact List.nodup_cons.mpr ⟨h2 d, w.once⟩
  · exact w.leak
  · exact w.known
  · intro q e hq
    rw [hd]
    rcases w.all q e hq with ⟨g, hg⟩ | hg | hg
    · by_cases c : g = h
      · subst c
        have := hh.symm.trans hg
        simp only [Option.some.injEq, Prod.mk.injEq] at this
        rw [this.1, this.2]; exact .inr (.inl (by simp))
      · exact .inl ⟨g, (ho g q e).mpr ⟨c, hg⟩⟩
    · exact .inr (.inl (List.mem_cons_of_mem _ hg))
    · exact .inr (.inr hg)

theorem Inv.reset {t k s} (w : Inv t k s) (h : Nat) : Inv t k (s.reset h) := by
  unfold St.reset
  split
  · next p d e => exact w.drop (show Held s h p d from e) rfl (fun g q e' => by simp only [Held, upd_apply]; grind)
  · exact w

theorem reset_empty (s : St) (h : Nat) : ∀ p d, ¬ Held (s.reset h) h p d := by
  intro p d hh
  unfold St.reset at hh
  split at hh
  · simp [Held] at hh
  · next hn => exact hn p d hh

theorem inv {t k s} (r : Run t k s) : Inv t k s := by
  induction r with
  | init => constructor <;> simp [St.init, Held]
  | @make t k s h p d r hn hp w =>
    have hk : p ∉ k := fun hm => by obtain ⟨e, he⟩ := w.known p hm; exact hp e he
    have hdel : ∀ e, (p, e) ∉ s.deleted := fun e hm => hp e (w.del p e hm).1
    have ho : ∀ g q e, Held (s.make h p d) g q e ↔ (g = h ∧ q = p ∧ e = d) ∨ (g ≠ h ∧ Held s g q e) := by
      intro g q e; simp only [Held, St.make, upd_apply]; grind
    constructor
    · intro q a b ha hb
      have := w.uniq q a b
      grind
    · intro g q e hg
      rcases (ho g q e).mp hg with ⟨rfl, rfl, rfl⟩ | ⟨_, hg⟩
      · exact ⟨by simp, hdel, hk⟩
      · obtain ⟨i1, i2, i3⟩ := w.held g q e hg
        exact ⟨List.mem_cons_of_mem _ i1, i2, i3⟩
    · intro a b q e e' ha hb
      replace ha := (ho _ _ _).mp ha
      replace hb := (ho _ _ _).mp hb
      rcases ha with ⟨rfl, rfl, rfl⟩ | ⟨_, ha⟩
      · rcases hb with ⟨rfl, _, _⟩ | ⟨_, hb⟩
        · rfl
        · exact absurd (w.held _ _ _ hb).1 (hp _)
      · rcases hb with ⟨_, e1, _⟩ | ⟨_, hb⟩
        · subst e1; exact absurd (w.held _ _ _ ha).1 (hp _)
        · exact w.one a b q e e' ha hb
    · intro q e hm
      exact ⟨List.mem_cons_of_mem _ (w.del q e hm).1, (w.del q e hm).2⟩
    · exact w.once
    · exact w.leak
    · intro q hq; obtain ⟨e, he⟩ := w.known q hq; exact ⟨e, List.mem_cons_of_mem _ he⟩
    · intro q e hq
      rcases List.mem_cons.mp hq with e1 | e1
      · cases e1; exact .inl ⟨h, (ho _ _ _).mpr (.inl ⟨rfl, rfl, rfl⟩)⟩
      · rcases w.all q e e1 with ⟨g, hg⟩ | hg
        · refine .inl ⟨g, (ho _ _ _).mpr (.inr ⟨fun c => ?_, hg⟩)⟩
          subst c; rw [Held, hn] at hg; cases hg
        · exact .inr hg
  | @null t k s h r hn w => exact w.idle rfl (fun g q e => by simp only [Held, St.null, upd_apply]; grind)
  | @moveNew t k s h g r hn hg w =>
    unfold St.moveNew
    split
    · next o d e =>
      have hne : h ≠ g := fun c => by rw [c, e] at hn; cases hn
      refine w.perm rfl (fun a => if a = h then g else a) ?_ ?_ ?_
      · intro a q e'; simp only [Held, upd_apply]; grind
      · intro a b q x y; simp only [Held, upd_apply]; grind
      · intro a q e' ha
        refine ⟨if a = g then h else a, ?_⟩
        simp only [Held, upd_apply] at ha ⊢
        grind
    · exact w
  | @assign t k s h g r hh hg w =>
    by_cases c : g = h
    · subst c
      simp only [St.assign, ne_eq, not_true, if_false]
      exact w.idle rfl (fun a q e => by simp only [Held, upd_apply]; grind)
    · have w' := w.reset h
      simp only [St.assign, ne_eq, c, not_false_eq_true, if_true]
      refine w'.perm rfl (fun a => if a = h then g else if a = g then h else a) ?_ ?_ ?_
      · intro a q e'; simp only [Held, upd_apply]; grind
      · intro a b q x y _ _; grind
      · intro a q e' ha
        refine ⟨if a = g then h else if a = h then g else a, ?_⟩
        simp only [Held, upd_apply] at ha ⊢
        grind
  | @reset t k s h r hh w => exact w.reset h
  | @destroy t k s h r hh w =>
    unfold St.destroy
    split
    · next p d e => exact w.drop (show Held s h p d from e) rfl (fun g q e' => by simp only [Held, upd_apply]; grind)
    · next hn => exact w.idle rfl (fun g q e => by have := hn q e; simp only [Held, upd_apply]; grind)
  | @leak t k s h r hh w =>
    unfold St.leak
    split
    · next o d e =>
      cases o with
      | none => exact w.idle rfl (fun g q e => by simp only [Held, upd_apply]; grind)
      | some p =>
        have hp : Held s h p d := e
        obtain ⟨h1, h2, h3⟩ := w.held h p d hp
        have ho : ∀ g q e, Held { s with obj := upd s.obj h (some (none, d)) } g q e ↔ g ≠ h ∧ Held s g q e := fun g q e' => by simp only [Held, upd_apply]; grind
        constructor
        · exact w.uniq
        · intro g q x hg
          replace hg := (ho g q x).mp hg
          obtain ⟨hne, hg⟩ := hg
          obtain ⟨i1, i2, i3⟩ := w.held g q x hg
          refine ⟨i1, i2, fun hm => ?_⟩
          rcases List.mem_cons.mp hm with e1 | e1
          · subst e1; exact hne (w.one g h q x d hg hp)
          · exact i3 e1
        · intro a b q e e' ha hb
          exact w.one a b q e e' ((ho _ _ _).mp ha).2 ((ho _ _ _).mp hb).2
        · intro q x hm
          refine ⟨(w.del q x hm).1, fun hk => ?_⟩
          rcases List.mem_cons.mp hk with e1 | e1
          · subst e1; exact h2 x hm
          · exact (w.del q x hm).2 e1
        · exact w.once
        · exact List.nodup_cons.mpr ⟨h3, w.leak⟩
        · intro q hq
          rcases List.mem_cons.mp hq with e1 | e1
          · subst e1; exact ⟨d, h1⟩
          · exact w.known q e1
        · intro q e hq
          rcases w.all q e hq with ⟨g, hg⟩ | hg | hg
          · by_cases c : g = h
            · subst c
              have := hp.symm.trans hg
              simp only [Option.some.injEq, Prod.mk.injEq] at this
              rw [← this.1]; exact .inr (.inr (by simp))
            · exact .inl ⟨g, (ho g q e).mpr ⟨c, hg⟩⟩
          · exact .inr (.inl hg)
          · exact .inr (.inr (List.mem_cons_of_mem _ hg))
    · exact w

/-- **C167.** Each pointer is deleted at most once, with its own deleter, and never if it was leaked; nothing else is deleted, and what an object holds is not deleted. -/
theorem C167_deleted {t k s} (r : Run t k s) : s.deleted.Nodup ∧ (s.deleted.map (·.1)).Nodup ∧ (∀ p d, (p, d) ∈ s.deleted → (p, d) ∈ t ∧ p ∉ k) ∧ ∀ h p d, s.obj h = some (some p, d) → (p, d) ∈ t ∧ p ∉ s.deleted.map (·.1) ∧ p ∉ k := by
  have w := inv r
  refine ⟨w.once, ?_, w.del, fun h p d hh => ?_⟩
  · refine List.pairwise_map.mpr (w.once.imp_of_mem ?_)
    rintro ⟨a, b⟩ ⟨c, d⟩ ha hc hne e
    simp only at e
    subst e
    exact hne (by rw [w.uniq a b d (w.del a b ha).1 (w.del a d hc).1])
  · obtain ⟨h1, h2, h3⟩ := w.held h p d hh
    refine ⟨h1, fun hm => ?_, h3⟩
    obtain ⟨⟨a, b⟩, hm', rfl⟩ := List.mem_map.mp hm
    exact h2 b hm'

/-- **C167.** No two objects hold the same pointer. -/
theorem C167_one {t k s} (r : Run t k s) {h g p d e : Nat} (h1 : s.obj h = some (some p, d)) (h2 : s.obj g = some (some p, e)) : h = g := (inv r).one h g p d e h1 h2

/-- **C167.** When all objects are destroyed, each pointer was deleted or leaked. -/
theorem C167_none_lost {t k s} (r : Run t k s) (hn : ∀ h, s.obj h = none) : ∀ p d, (p, d) ∈ t → (p, d) ∈ s.deleted ∨ p ∈ k := by
  intro p d hp
  rcases (inv r).all p d hp with ⟨h, hh⟩ | h
  · rw [Held, hn h] at hh; cases hh
  · exact h

/-- **C167.** Moving to another object moves the pointer and its deleter and leaves the first one empty; assignment of an object to itself changes nothing; the deleter can still be read after `Leak`. -/
theorem C167_move {s : St} {h g : Nat} {o : Option Nat} {d : Nat} (hg : s.obj g = some (o, d)) :
    (h ≠ g → (s.moveNew h g).obj h = some (o, d) ∧ (s.moveNew h g).obj g = some (none, d)) ∧
    (h ≠ g → s.obj h ≠ none → (s.assign h g).obj h = some (o, d) ∧ ∃ e, (s.assign h g).obj g = some (none, e)) ∧ (s.assign g g).obj = s.obj ∧ (s.assign g g).deleted = s.deleted ∧
    (s.leak g).1 = o ∧ (s.leak g).2.deleter g = some d := by
  refine ⟨fun hne => ?_, fun hne hn => ?_, ?_, ?_, ?_, ?_⟩
  · simp only [St.moveNew, hg, upd_apply]; simp [hne]
  · have h1 : (s.reset h).obj g = some (o, d) := by
      unfold St.reset; split
      · simp only [upd_ne _ _ (Ne.symm hne)]; exact hg
      · exact hg
    have h2 : ∃ e, (s.reset h).obj h = some (none, e) := by
      have := reset_empty s h
      cases hx : (s.reset h).obj h with
      | none =>
        exfalso
        unfold St.reset at hx
        split at hx
        · simp at hx
        · exact hn hx
      | some x =>
        obtain ⟨o', e⟩ := x
        cases o' with
        | none => exact ⟨e, rfl⟩
        | some p => exact absurd hx (this p e)
    simp only [St.assign, ne_eq, Ne.symm hne, not_false_eq_true, if_true, upd_apply, hne, if_false, h1]
    exact ⟨trivial, h2⟩
  · simp only [St.assign, ne_eq, not_true, if_false]
    funext a; simp only [upd_apply]; grind
  · simp [St.assign]
  · simp [St.leak, hg]
  · simp [St.leak, hg, St.deleter]

/-- Two objects; the second is assigned to the first and both are destroyed. -/
example : ∃ s, Run [(11, 2), (10, 1)] [] s ∧ (∀ h, s.obj h = none) ∧ s.deleted = [(11, 2), (10, 1)] := by
  have r1 := Run.make 0 10 1 Run.init rfl (by simp)
  have r2 := Run.make 1 11 2 r1 rfl (by simp)
  have r3 := Run.assign 0 1 r2 (by decide) (by decide)
  have r4 := Run.destroy 0 r3 (by decide)
  have r5 := Run.destroy 1 r4 (by decide)
  refine ⟨_, r5, fun h => ?_, rfl⟩
  match h with
  | 0 => rfl
  | 1 => rfl
  | n + 2 => simp [St.destroy, St.assign, St.make, St.reset, St.init, upd_apply]

end Verif.Container.Erased
