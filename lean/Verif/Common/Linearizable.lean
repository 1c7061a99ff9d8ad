import Verif.Common.Upd
/-!
# Linearizability (specification shared by the concurrent containers)

A concurrent object is described by a step relation that sometimes shows a call or a return.  Its visible
history is linearizable for a sequential specification if one can insert into it, between the call and the
return of every completed operation, one point at which the operation takes effect, such that the effects in
the order of these points form a run of the sequential specification with the results that were returned.
-/

namespace Verif.Lin

/-- Visible events: thread `t` calls `op`; thread `t` returns `r`. -/
inductive Vis (Op Res : Type)
  | call (t : Nat) (op : Op)
  | ret (t : Nat) (r : Res)
deriving DecidableEq

/-- Visible events, plus the moment at which `t`'s operation takes effect. -/
inductive Ext (Op Res : Type)
  | call (t : Nat) (op : Op)
  | eff (t : Nat) (op : Op) (r : Res)
  | ret (t : Nat) (r : Res)

/-- What is visible of an extended event. -/
def Ext.vis {Op Res : Type} : Ext Op Res → Option (Vis Op Res)
  | .call t op => some (.call t op)
  | .eff .. => none
  | .ret t r => some (.ret t r)

/-- Progress of one thread's current operation. -/
inductive Phase (Op Res : Type)
  | idle
  | called (op : Op)
  | effected (r : Res)

/-- Sequential specification: `spec a op r a'` — in state `a`, `op` may return `r` and lead to `a'`. -/
abbrev Spec (Op Res Abs : Type) := Abs → Op → Res → Abs → Prop

/-- State of the specification together with the phases of all threads. -/
structure State (Op Res Abs : Type) where
  abs : Abs
  phase : Nat → Phase Op Res

/-- Extended histories allowed by the specification: every operation is called, takes effect as the
specification allows and returns the result of that effect, in this order. -/
inductive Run {Op Res Abs : Type} (spec : Spec Op Res Abs) :
    State Op Res Abs → List (Ext Op Res) → State Op Res Abs → Prop
  | nil (s) : Run spec s [] s
  | call {s l s'} (t op) (h : s.phase t = .idle) (r : Run spec ⟨s.abs, upd s.phase t (.called op)⟩ l s') :
      Run spec s (.call t op :: l) s'
  | eff {s l s'} (t op res a') (h : s.phase t = .called op) (hs : spec s.abs op res a')
      (r : Run spec ⟨a', upd s.phase t (.effected res)⟩ l s') : Run spec s (.eff t op res :: l) s'
  | ret {s l s'} (t res) (h : s.phase t = .effected res) (r : Run spec ⟨s.abs, upd s.phase t .idle⟩ l s') :
      Run spec s (.ret t res :: l) s'

/-- The history `h` is linearizable for `spec` from abstract state `a`. -/
def Linearizable {Op Res Abs : Type} (spec : Spec Op Res Abs) (a : Abs) (h : List (Vis Op Res)) : Prop :=
  ∃ ext s, Run spec ⟨a, fun _ => .idle⟩ ext s ∧ ext.filterMap Ext.vis = h

/-- Executions of a step relation, with their visible histories. -/
inductive Exec {Conf Op Res : Type} (step : Conf → Option (Vis Op Res) → Conf → Prop) (init : Conf) :
    List (Vis Op Res) → Conf → Prop
  | start : Exec step init [] init
  | step {h c e c'} : Exec step init h c → step c e c' → Exec step init (h ++ e.toList) c'

/-! ## Proof by simulation -/

theorem Run.append {Op Res Abs : Type} {spec : Spec Op Res Abs} {s s' s'' : State Op Res Abs}
    {l m : List (Ext Op Res)} (h1 : Run spec s l s') (h2 : Run spec s' m s'') : Run spec s (l ++ m) s'' := by
  induction h1 with
  | nil => exact h2
  | call t op h _ ih => exact .call t op h (ih h2)
  | eff t op res a' h hs _ ih => exact .eff t op res a' h hs (ih h2)
  | ret t res h _ ih => exact .ret t res h (ih h2)

/-- `Sim spec s e s'`: the specification can do something visible as `e`. -/
def Sim {Op Res Abs : Type} (spec : Spec Op Res Abs) (s : State Op Res Abs) (e : Option (Vis Op Res))
    (s' : State Op Res Abs) : Prop := ∃ ext, Run spec s ext s' ∧ ext.filterMap Ext.vis = e.toList

theorem Sim.tau {Op Res Abs : Type} {spec : Spec Op Res Abs} (s : State Op Res Abs) : Sim spec s none s :=
  ⟨[], .nil s, rfl⟩

theorem Sim.call {Op Res Abs : Type} {spec : Spec Op Res Abs} {s : State Op Res Abs} {t : Nat} {op : Op}
    (h : s.phase t = .idle) : Sim spec s (some (.call t op)) ⟨s.abs, upd s.phase t (.called op)⟩ :=
  ⟨[.call t op], .call t op h (.nil _), rfl⟩

theorem Sim.ret {Op Res Abs : Type} {spec : Spec Op Res Abs} {s : State Op Res Abs} {t : Nat} {r : Res}
    (h : s.phase t = .effected r) : Sim spec s (some (.ret t r)) ⟨s.abs, upd s.phase t .idle⟩ :=
  ⟨[.ret t r], .ret t r h (.nil _), rfl⟩

theorem Sim.eff {Op Res Abs : Type} {spec : Spec Op Res Abs} {s : State Op Res Abs} {t : Nat} {op : Op} {r : Res}
    {a' : Abs} (h : s.phase t = .called op) (hs : spec s.abs op r a') :
    Sim spec s none ⟨a', upd s.phase t (.effected r)⟩ :=
  ⟨[.eff t op r], .eff t op r a' h hs (.nil _), rfl⟩

/-- Forward simulation: if a relation between configurations and specification states is preserved by all steps,
all histories are linearizable. -/
theorem linearizable_of_sim {Conf Op Res Abs : Type} {step : Conf → Option (Vis Op Res) → Conf → Prop}
    {init : Conf} {spec : Spec Op Res Abs} {a : Abs} (R : Conf → State Op Res Abs → Prop)
    (h0 : R init ⟨a, fun _ => .idle⟩)
    (hs : ∀ c s e c', R c s → step c e c' → ∃ s', Sim spec s e s' ∧ R c' s')
    {h : List (Vis Op Res)} {c : Conf} (he : Exec step init h c) :
    Linearizable spec a h ∧ ∃ s, R c s := by
  have : ∃ ext s, Run spec ⟨a, fun _ => .idle⟩ ext s ∧ ext.filterMap Ext.vis = h ∧ R c s := by
    induction he with
    | start => exact ⟨[], _, .nil _, rfl, h0⟩
    | step _ hst ih =>
      obtain ⟨ext, s, h1, h2, h3⟩ := ih
      obtain ⟨s', ⟨ext', g1, g2⟩, g3⟩ := hs _ _ _ _ h3 hst
      exact ⟨ext ++ ext', s', h1.append g1, by rw [List.filterMap_append, h2, g2], g3⟩
  obtain ⟨ext, s, h1, h2, h3⟩ := this
  exact ⟨⟨ext, s, h1, h2⟩, s, h3⟩

end Verif.Lin
