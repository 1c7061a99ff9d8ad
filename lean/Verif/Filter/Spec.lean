/-!
# What filters may expect (docs/en/filter.md, lines 104-118)

A filter names the points at which it wants to be called. Points come in pairs: an even number, the pre point, and the
number after it, the post point. The documentation promises

* that the pre points of global filters run in the configured order, followed by those of the service;
* that post points run in the reverse order;
* that a filter that fails at its pre point ends the chain, and that afterwards exactly the filters before it have
  their post points run.

This file says so about the course of one call. It does not mention how the framework does it.
-/

namespace Verif.Filter

/-- A filter: what `Name()` and `GetFilterPoint()` return (filter/filter_base.h). Points are numbered 0 to 9; the bit that
tells server points from client points (filter/filter_point.h:19) is left out, a chain is for one side. -/
structure Filter where
  name : String
  points : List Nat
  deriving DecidableEq, Repr

/-- What can be observed of one call. -/
inductive Ev where
  /-- The filter was called at the pre point of pair `k`; `rej`: it answered `REJECT`. -/
  | pre (f : Filter) (k : Nat) (rej : Bool)
  /-- The filter was called at the post point of pair `k`. -/
  | post (f : Filter) (k : Nat)
  /-- Server: the function the user registered is called. Client: the request is handed to the transport. -/
  | work
  /-- A response is handed to the connection. -/
  | reply
  /-- The framework gives up a response: it cannot be encoded, cannot be queued, is refused by a filter of the sending
  side, or the request was refused without an answer. -/
  | lost
  deriving DecidableEq, Repr

/-- The events at the two points of pair `k`. -/
def Ev.at (k : Nat) : Ev → Bool
  | .pre _ j _ => j == k
  | .post _ j => j == k
  | _ => false

def proj (k : Nat) (tr : List Ev) : List Ev := tr.filter (Ev.at k)

/-- All filters of `fs` are called at the pre point, and none rejects. -/
def pres (k : Nat) (fs : List Filter) : List Ev := fs.map fun f => .pre f k false

/-- All filters of `fs` are called at the post point, the last one first. -/
def posts (k : Nat) (fs : List Filter) : List Ev := (fs.map fun f => .post f k).reverse

/-- The pair `k` is treated as promised, `order` being the configured order: nobody is called; or all are called, and
called again in the reverse order; or some filter rejects, and exactly those before it are called again. -/
def Paired (order : List Filter) (k : Nat) (tr : List Ev) : Prop :=
  proj k tr = [] ∨ proj k tr = pres k order ++ posts k order ∨
    ∃ a f b, order = a ++ f :: b ∧ proj k tr = pres k a ++ [.pre f k true] ++ posts k a

/-- After a filter has rejected, the work is not done. -/
def Stops (tr : List Ev) : Prop := ∀ a f k b, tr = a ++ .pre f k true :: b → Ev.work ∉ b

/-- A filter as the framework requires it: no point twice, points in range, points in pairs
(`CheckMatchPoints`, filter/server_filter_manager.cc:23-35). -/
def Filter.Ok (f : Filter) : Prop :=
  f.points.Nodup ∧ (∀ p ∈ f.points, p < 10) ∧ ∀ k, 2 * k ∈ f.points ↔ 2 * k + 1 ∈ f.points

/-- The filters of a configured list that count: the first of each name, and none that is known already. -/
def firsts : List String → List Filter → List Filter
  | _, [] => []
  | known, f :: fs => if f.name ∈ known then firsts known fs else f :: firsts (f.name :: known) fs

/-- Those that want to be called at the points of pair `k`. -/
def wanting (k : Nat) (fs : List Filter) : List Filter := fs.filter fun f => decide (2 * k ∈ f.points)

end Verif.Filter
