import Verif.Future.CoreModel
/-!
# `DoUntil`, `DoWhile`, `DoFor`, `DoForEach` (`trpc/future/future_utility.h`)

The loops call a user function again and again, each time after the future it returned is resolved.  The results of these
futures are the input of the model.  A future may be resolved when it is returned and the executor may run callbacks at once;
then the rest of the loop runs inside the call of `Then` (`sync`), and the stack grows.

Not modelled: ownership of the state of the loop (`std::unique_ptr`), the futures themselves (C44), user functions that throw,
`Stop` and `Func` that are references.
-/

namespace Verif.Future.Loop

open Core (Res)

inductive Ev (A E : Type)
  /-- The user function is called. -/
  | call (a : A)
  /-- The future it returned is resolved, `none`: without an exception. -/
  | resolved (e : Option E)
  /-- The future returned by the loop is resolved. -/
  | finish (e : Option E)
deriving DecidableEq, Repr

/-- A loop: the state shared by `stop` and `func`. -/
structure Code (S A : Type) where
  stop : S → Bool × S
  /-- The argument for the user function. -/
  func : S → A × S

/-- Where a loop is. -/
inductive Phase
  | waiting
  | finished
deriving DecidableEq, Repr

structure St (S : Type) where
  user : S
  phase : Phase
  /-- Nested calls of `DoUntilState::Run`. -/
  depth : Nat
  /-- The deepest nesting so far. -/
  deepest : Nat
deriving DecidableEq, Repr

variable {S A E : Type}

/-- `DoUntilState::Run`, :103-117, and :185-187: `stop`, then `func` or the end. -/
def go (c : Code S A) (u : S) (depth deepest : Nat) : St S × List (Ev A E) :=
  match c.stop u with
  | (true, u') => (⟨u', .finished, depth, max deepest depth⟩, [.finish none])
  | (false, u') =>
    let (a, u'') := c.func u'
    (⟨u'', .waiting, depth, max deepest depth⟩, [.call a])

/-- `DoUntil(stop, func)`, :184-194. -/
def start (c : Code S A) (u : S) : St S × List (Ev A E) := go c u 1 0

/-- The result of the current future; `sync`: during the call of `Then`.  The callback, :108-114. -/
structure Result (E : Type) where
  exc : Option E
  sync : Bool

def step (c : Code S A) (s : St S) (r : Result E) : St S × List (Ev A E) :=
  match s.phase, r.exc with
  | .finished, _ => (s, [])
  | .waiting, some e => ({ s with phase := .finished }, [.resolved (some e), .finish (some e)])
  | .waiting, none =>
    let p := go c s.user (if r.sync then s.depth + 1 else 1) s.deepest
    (p.1, .resolved none :: p.2)

def run (c : Code S A) : St S → List (Ev A E) → List (Result E) → St S × List (Ev A E)
  | s, tr, [] => (s, tr)
  | s, tr, r :: rs => run c (step c s r).1 (tr ++ (step c s r).2) rs

def exec (c : Code S A) (u : S) (rs : List (Result E)) : St S × List (Ev A E) := run c (start (E := E) c u).1 (start c u).2 rs

/-- `size_t` values. -/
def u64 (n : Nat) : Nat := n % 2 ^ 64

/-- `size_t` subtraction. -/
def sub64 (a b : Nat) : Nat := u64 (a + (2 ^ 64 - b))

/-- `DoFor(n, func)` with an index, :267-270.  The state is `*state`. -/
def doFor (n : Nat) : Code Nat Nat := ⟨fun k => (k == 0, k), fun k => (sub64 n k, sub64 k 1)⟩

/-- `DoFor(n, func)` without, :271-274: `n-- == 0`. -/
def doTimes : Code Nat Unit := ⟨fun k => (k == 0, sub64 k 1), fun k => ((), k)⟩

/-- `DoForEach(begin, end, func)` with the value, :238-241.  The state is the rest of the range; `func` on an empty range
does not happen (`none`). -/
def forEach (T : Type) : Code (List T) (Option T) := ⟨fun l => (l.isEmpty, l), fun l => (l.head?, l.tail)⟩

/-- `DoForEach(begin, end, func)` without, :243-249: `begin++ == end`. -/
def forEachTimes (T : Type) : Code (List T) Unit := ⟨fun l => (l.isEmpty, l.tail), fun l => ((), l)⟩

/-- `DoWhile(cond, func)`, :218-220. -/
def doWhile (cond : S → Bool × S) (func : S → S) : Code S Unit :=
  ⟨fun u => let p := cond u; (!p.1, p.2), fun u => ((), func u)⟩

end Verif.Future.Loop
