import Verif.Redis.Reader
/-!
# Equality of values, to evaluate the examples
-/

namespace Verif.Redis

mutual
def Val.beq : Val → Val → Bool
  | .status a, .status b => a == b
  | .error a, .error b => a == b
  | .str a, .str b => a == b
  | .int a, .int b => a == b
  | .nil, .nil => true
  | .array a, .array b => allBeq a b
  | .numbered n a, .numbered m b => n == m && a.beq b
  | _, _ => false

def allBeq : List Val → List Val → Bool
  | [], [] => true
  | a :: as, b :: bs => a.beq b && allBeq as bs
  | _, _ => false
end

mutual
theorem Val.beq_iff : ∀ a b : Val, a.beq b = true ↔ a = b
  | .status a, b => by cases b <;> simp [Val.beq]
  | .error a, b => by cases b <;> simp [Val.beq]
  | .str a, b => by cases b <;> simp [Val.beq]
  | .int a, b => by cases b <;> simp [Val.beq]
  | .nil, b => by cases b <;> simp [Val.beq]
  | .array a, b => by
    cases b with
    | array b => simp [Val.beq, allBeq_iff a b]
    | _ => simp [Val.beq]
  | .numbered n a, b => by
    cases b with
    | numbered m b => simp [Val.beq, Val.beq_iff a b]
    | _ => simp [Val.beq]

theorem allBeq_iff : ∀ as bs : List Val, allBeq as bs = true ↔ as = bs
  | [], bs => by cases bs <;> simp [allBeq]
  | a :: as, bs => by
    cases bs with
    | nil => simp [allBeq]
    | cons b bs => simp [allBeq, Val.beq_iff a b, allBeq_iff as bs]
end

instance : DecidableEq Val := fun a b => decidable_of_iff _ (Val.beq_iff a b)

deriving instance DecidableEq for R

end Verif.Redis
