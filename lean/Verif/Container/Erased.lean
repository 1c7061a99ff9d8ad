import Verif.Common.Upd

/-!
# Type-erased owning pointers

/repo/trpc/util/erased_ptr.h

* Objects of class `ErasedPtr` are numbers with their `ptr_` (nothing is null) and `deleter_` (a number), or nothing if there is no such object. Calls of deleters are recorded.
* Programs construct, move, reset, leak and destroy them in any order (`Run`). A pointer is given to one constructor only, as for `std::unique_ptr`.
-/

namespace Verif.Container.Erased

structure St where
  obj : Nat → Option (Option Nat × Nat)
  /-- calls of deleters: argument and deleter -/
  deleted : List (Nat × Nat)

def St.init : St := ⟨fun _ => none, []⟩

/-- Constructors that take ownership (:29-32) -/
def St.make (s : St) (h p d : Nat) : St := { s with obj := upd s.obj h (some (some p, d)) }

/-- :25-26; 0 is the null deleter -/
def St.null (s : St) (h : Nat) : St := { s with obj := upd s.obj h (some (none, 0)) }

/-- `Reset` (:72-77) -/
def St.reset (s : St) (h : Nat) : St :=
  match s.obj h with
  | some (some p, d) => ⟨upd s.obj h (some (none, d)), (p, d) :: s.deleted⟩
  | _ => s

/-- Move constructor (:35) -/
def St.moveNew (s : St) (h g : Nat) : St :=
  match s.obj g with
  | some (o, d) => { s with obj := upd (upd s.obj h (some (o, d))) g (some (none, d)) }
  | none => s

/-- Move assignment (:37-44) -/
def St.assign (s : St) (h g : Nat) : St :=
  let s := if g ≠ h then s.reset h else s
  { s with obj := upd (upd s.obj h (s.obj g)) g (s.obj h) }

/-- Destructor (:51-55) -/
def St.destroy (s : St) (h : Nat) : St :=
  match s.obj h with
  | some (some p, d) => ⟨upd s.obj h none, (p, d) :: s.deleted⟩
  | _ => { s with obj := upd s.obj h none }

/-- `Leak` (:80) -/
def St.leak (s : St) (h : Nat) : Option Nat × St :=
  match s.obj h with
  | some (o, d) => (o, { s with obj := upd s.obj h (some (none, d)) })
  | none => (none, s)

/-- `GetDeleter` (:83) -/
def St.deleter (s : St) (h : Nat) : Option Nat := (s.obj h).map (·.2)

/-- Programs: what was given to constructors (pointer and deleter), what was leaked, and the state -/
inductive Run : List (Nat × Nat) → List Nat → St → Prop
  | init : Run [] [] St.init
  | make {t k s} (h p d) : Run t k s → s.obj h = none → (∀ e, (p, e) ∉ t) → Run ((p, d) :: t) k (s.make h p d)
  | null {t k s} (h) : Run t k s → s.obj h = none → Run t k (s.null h)
  | moveNew {t k s} (h g) : Run t k s → s.obj h = none → s.obj g ≠ none → Run t k (s.moveNew h g)
  | assign {t k s} (h g) : Run t k s → s.obj h ≠ none → s.obj g ≠ none → Run t k (s.assign h g)
  | reset {t k s} (h) : Run t k s → s.obj h ≠ none → Run t k (s.reset h)
  | destroy {t k s} (h) : Run t k s → s.obj h ≠ none → Run t k (s.destroy h)
  | leak {t k s} (h) : Run t k s → s.obj h ≠ none → Run t ((s.leak h).1.toList ++ k) (s.leak h).2

end Verif.Container.Erased
