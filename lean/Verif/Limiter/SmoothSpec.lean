/-!
# What a sliding window limiter should do

Time is divided into frames.  The history lists, newest frame first, how many requests were admitted in
each frame.  The window is the newest `n` frames.
-/

namespace Verif.Limiter.Smooth.Spec

/-- Number admitted per frame, newest first, after observing one more result: `none` is the start of a
new frame, `some b` a request that was admitted or not. -/
def observe (h : List Nat) : Option Bool → List Nat
  | none => 0 :: h
  | some false => h
  | some true => match h with
    | [] => [1]
    | x :: xs => (x + 1) :: xs

/-- Admitted requests in the newest `n` frames. -/
def window (n : Nat) (h : List Nat) : Nat := (h.take n).sum

end Verif.Limiter.Smooth.Spec
