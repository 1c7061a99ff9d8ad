import Verif.LB.Model
/-!
# Specification for C18, C29, C35, C36 (hash load balancing)
-/

namespace Verif.LB.Hash

/-- Successive lists given to `Update`, starting without a record. -/
inductive History (H : List Char → UInt64) (nodes : Nat) : List (List Endpoint) → Infos → Prop
  | start : History H nodes [] ⟨[], []⟩
  | update {ls s new s'} : History H nodes ls s → Update H nodes s new s' → History H nodes (ls ++ [new]) s'

/-- Clockwise distance on the ring of 64-bit values. -/
def cw (x p : UInt64) : UInt64 := p - x

/-- `n` owns the request hash `x` among `names`: one of its virtual nodes is clockwise nearest. -/
def Owner (H : List Char → UInt64) (nodes : Nat) (names : List (List Char)) (x : UInt64) (n : List Char) : Prop :=
  n ∈ names ∧ ∃ i, i < nodes ∧ ∀ m ∈ names, ∀ j, j < nodes → cw x (point H n i) ≤ cw x (point H m j)

/-- Virtual nodes of different names never coincide. -/
def Separate (H : List Char → UInt64) (nodes : Nat) (names : List (List Char)) : Prop :=
  ∀ n ∈ names, ∀ m ∈ names, n ≠ m → ∀ i j, i < nodes → j < nodes → point H n i ≠ point H m j

/-- The name of an endpoint determines its address. -/
def Faithful (eps : List Endpoint) : Prop :=
  ∀ e ∈ eps, ∀ f ∈ eps, Endpoint.name e = Endpoint.name f → e.host = f.host ∧ e.port = f.port

end Verif.LB.Hash
