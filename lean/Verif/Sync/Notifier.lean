import Verif.Common.Upd

/-!
# The notifier of schedulers

/repo/trpc/util/thread/predicate_notifier.h (used by the work-stealing schedulers and by MQThreadPool)

`n` waiters, one for each thread that waits; any number of threads that notify. Interleavings of single accesses; the fences make them sequentially consistent. `state_` is a number below 2^64; masks and shifts are written as quotients and remainders.

What is only there to say what should hold (no step depends on it):
* `E`: how often the modification counter was increased; `tk`: the ticket of a waiter, the value of `E` at which it is its turn; `P`: the waiters that have prepared, in the order of their tickets, and whose turn is to come; `L`: the stack of waiters;
  `U j`: the waiters that notifier `j` has taken off the stack and has still to wake.
* `V`: how often the predicate was changed; `saw`: the changes that a waiter knew when it tested it between `PrepareWait` and `CommitWait` or `CancelWait`; `ver`: the changes before a call of `Notify`; `fl`: of those `Notify(true)` that took effect.

`bad`: an assertion fails (:113, :142).
`Lag`: while a thread is in one of the functions, or between `PrepareWait` and the other one, the counter does not increase by 2^31 or more. It has 32 bits, and differences of it are compared.
Left out: `w->state = kNotSignaled` (:98) is together with the load that follows it; nobody else has the waiter then. `NotifyN`, which only calls `Notify`. `compare_exchange_weak` may fail for no reason.
-/

namespace Verif.Sync.Notifier

/-- `state & kStackMask`, `(state & kWaiterMask) >> kWaiterShift`, and the bits above. -/
def stk (x : Nat) : Nat := x % 2 ^ 16
def wts (x : Nat) : Nat := x / 2 ^ 16 % 2 ^ 16
def epo (x : Nat) : Nat := x / 2 ^ 32

/-- The index of a waiter, or `kStackMask` for none. -/
def dec (i : Nat) : Option Nat := if i = 65535 then none else some i

def enc : Option Nat → Nat
  | none => 65535
  | some i => i

/-- `kNotSignaled`, `kWaiting`, `kSignaled` -/
inductive Sg where
  | no
  | waiting
  | yes
deriving DecidableEq, Repr

/-- A waiter: has prepared; has tested (`c`: will commit, else cancel); has loaded `state_`, when the counter was `e`; will compare and exchange; in `Park`, before it has the lock; sleeps. -/
inductive W where
  | idle
  | pre
  | chk (c : Bool)
  | sn (c : Bool) (x e : Nat)
  | cs (c : Bool) (x e : Nat)
  | park
  | sleep
deriving DecidableEq, Repr

/-- Between `PrepareWait` and the end of its fate. -/
def W.early : W → Bool
  | .pre => true
  | .chk _ => true
  | .sn _ _ _ => true
  | .cs _ _ _ => true
  | _ => false

def W.late : W → Bool
  | .park => true
  | .sleep => true
  | _ => false

/-- A notifier: will load; has loaded `x` when the counter was `e` and the stack was `l`; will exchange it for `y`; will set `next` of a waiter; in `Unpark`, before the load of `next`, before the lock, and before `notify_one`. -/
inductive N where
  | idle
  | start (all : Bool)
  | ns (all : Bool) (x e : Nat) (l : List Nat)
  | nc (all : Bool) (x e : Nat) (l : List Nat) (y : Nat)
  | cut (w : Nat)
  | up (w : Option Nat)
  | sg (w : Nat) (next : Option Nat)
  | nf (w : Nat) (b : Bool) (next : Option Nat)
deriving DecidableEq, Repr

structure S where
  word : Nat
  nx : Nat → Option Nat
  ep : Nat → Nat
  st : Nat → Sg
  wk : Nat → W
  nt : Nat → N
  bad : Bool
  E : Nat
  tk : Nat → Nat
  P : List Nat
  L : List Nat
  U : Nat → List Nat
  V : Nat
  saw : Nat → Nat
  ver : Nat → Nat
  fl : Nat

/-- `kEpochMask - kEpochInc * waiters_.size() * 2` (:78) -/
def S.init (n : Nat) : S :=
  ⟨(2 ^ 32 - 1 - 2 * n) * 2 ^ 32 + 65535, fun _ => none, fun _ => 0, fun _ => .no, fun _ => .idle, fun _ => .idle, false, 2 ^ 32 - 1 - 2 * n, fun _ => 0, [], [], fun _ => [], 0, fun _ => 0, fun _ => 0, 0⟩

def S.w (s : S) (i : Nat) (x : W) : S := { s with wk := upd s.wk i x }

def S.t (s : S) (j : Nat) (x : N) : S := { s with nt := upd s.nt j x }

/-- `(state & kEpochMask) - epoch` (:100, :103, :111) in units of `kEpochInc` -/
def diff (x ep : Nat) : Nat := (epo x + 2 ^ 32 - (epo ep + wts ep) % 2 ^ 32) % 2 ^ 32

/-- `state - kWaiterInc + kEpochInc` (:114, :143, :163) -/
def pass (x : Nat) : Nat := (x + 2 ^ 32 - 2 ^ 16) % 2 ^ 64

/-- `(newstate & ~kStackMask) | i` (:116) -/
def withTop (x i : Nat) : Nat := x / 2 ^ 16 * 2 ^ 16 + i

/-- No waiters (:155) -/
def easy (x : Nat) : Bool := stk x == 65535 && wts x == 0

/-- `newstate` (:158-176) -/
def target (s : S) (all : Bool) (x : Nat) : Nat :=
  if all then (epo x * 2 ^ 32 + 2 ^ 32 * wts x + 65535) % 2 ^ 64
  else if wts x ≠ 0 then pass x
  else epo x * 2 ^ 32 + enc (s.nx (stk x))

/-- All waiters are gone. -/
def S.flush (s : S) (j : Nat) (all : Bool) : S := if all then { s with fl := max s.fl (s.ver j) } else s

/-- A load of `state_` in `Notify`. -/
def S.look (s : S) (j : Nat) (all : Bool) : S := if easy s.word then (s.flush j all).t j .idle else s.t j (.ns all s.word s.E s.L)

/-- After the exchange (:177-184). -/
def S.swap (s : S) (j : Nat) (all : Bool) (x y : Nat) : S :=
  if all then { (s.flush j all).t j (if stk x = 65535 then .idle else .up (some (stk x))) with word := y, E := s.E + s.P.length, P := [], U := upd s.U j s.L, L := [] }
  else if wts x ≠ 0 then { s.t j .idle with word := y, E := s.E + 1, P := s.P.tail }
  else { s.t j (if stk x = 65535 then .idle else .cut (stk x)) with word := y, U := upd s.U j [stk x], L := s.L.erase (stk x) }

inductive Step (n : Nat) : S → S → Prop
  /-- The user: the predicate changes; is tested again. -/
  | change {s : S} : Step n s { s with V := s.V + 1 }
  | test {s : S} (i : Nat) (c : Bool) (h : s.wk i = .pre) : Step n s { s.w i (.chk c) with saw := upd s.saw i s.V }
  /-- `PrepareWait` (:90-93) -/
  | prepare {s : S} (i : Nat) (hi : i < n) (h : s.wk i = .idle) :
      Step n s { s.w i .pre with ep := upd s.ep i s.word, word := (s.word + 2 ^ 16) % 2 ^ 64, tk := upd s.tk i (s.E + s.P.length), P := s.P ++ [i] }
  /-- `CommitWait` (:97-124), `CancelWait` (:128-145) -/
  | load {s : S} (i : Nat) (c : Bool) (h : s.wk i = .chk c) : Step n s { s.w i (.sn c s.word s.E) with st := if c then upd s.st i .no else s.st }
  | yield {s : S} (i : Nat) (c : Bool) (x e : Nat) (h : s.wk i = .sn c x e) (hd : 2 ^ 31 ≤ diff x (s.ep i)) : Step n s (s.w i (.sn c s.word s.E))
  | notified {s : S} (i : Nat) (c : Bool) (x e : Nat) (h : s.wk i = .sn c x e) (hd : 0 < diff x (s.ep i)) (hd' : diff x (s.ep i) < 2 ^ 31) : Step n s (s.w i .idle)
  | turn {s : S} (i : Nat) (c : Bool) (x e : Nat) (h : s.wk i = .sn c x e) (hd : diff x (s.ep i) = 0) :
      Step n s { s.w i (.cs c x e) with nx := if c then upd s.nx i (dec (stk x)) else s.nx, bad := s.bad || wts x == 0 }
  | commit {s : S} (i x e : Nat) (h : s.wk i = .cs true x e) (hx : s.word = x) : Step n s { s.w i .park with word := withTop (pass x) i, E := s.E + 1, P := s.P.erase i, L := i :: s.L }
  | cancel {s : S} (i x e : Nat) (h : s.wk i = .cs false x e) (hx : s.word = x) : Step n s { s.w i .idle with word := pass x, E := s.E + 1, P := s.P.erase i }
  | failed {s : S} (i : Nat) (c : Bool) (x e : Nat) (h : s.wk i = .cs c x e) : Step n s (s.w i (.sn c s.word s.E))
  /-- `Park` (:226-232) -/
  | leave {s : S} (i : Nat) (h : s.wk i = .park) (hs : s.st i = .yes) : Step n s (s.w i .idle)
  | rest {s : S} (i : Nat) (h : s.wk i = .park) (hs : s.st i ≠ .yes) : Step n s { s.w i .sleep with st := upd s.st i .waiting }
  | wake {s : S} (i : Nat) (h : s.wk i = .sleep) : Step n s (s.w i .park)
  /-- `Notify` (:150-186) -/
  | notify {s : S} (j : Nat) (all : Bool) (h : s.nt j = .idle) : Step n s { s.t j (.start all) with ver := upd s.ver j s.V }
  | look {s : S} (j : Nat) (all : Bool) (h : s.nt j = .start all) : Step n s (s.look j all)
  | plan {s : S} (j : Nat) (all : Bool) (x e : Nat) (l : List Nat) (h : s.nt j = .ns all x e l) : Step n s (s.t j (.nc all x e l (target s all x)))
  | swap {s : S} (j : Nat) (all : Bool) (x e y : Nat) (l : List Nat) (h : s.nt j = .nc all x e l y) (hx : s.word = x) : Step n s (s.swap j all x y)
  | retry {s : S} (j : Nat) (all : Bool) (x e y : Nat) (l : List Nat) (h : s.nt j = .nc all x e l y) : Step n s (s.look j all)
  | cut {s : S} (j w : Nat) (h : s.nt j = .cut w) : Step n s { s.t j (.up (some w)) with nx := upd s.nx w none }
  /-- `Unpark` (:234-247) -/
  | end_ {s : S} (j : Nat) (h : s.nt j = .up none) : Step n s (s.t j .idle)
  | next {s : S} (j w : Nat) (h : s.nt j = .up (some w)) : Step n s (s.t j (.sg w (s.nx w)))
  | signal {s : S} (j w : Nat) (o : Option Nat) (h : s.nt j = .sg w o) : Step n s { s.t j (.nf w (decide (s.st w = .waiting)) o) with st := upd s.st w .yes, U := upd s.U j ((s.U j).erase w) }
  | quiet {s : S} (j w : Nat) (o : Option Nat) (h : s.nt j = .nf w false o) : Step n s (s.t j (.up o))
  | ring {s : S} (j w : Nat) (o : Option Nat) (h : s.nt j = .nf w true o) : Step n s ((if s.wk w = .sleep then s.w w .park else s).t j (.up o))

/-- Nobody is far behind. -/
structure Lag (s : S) : Prop where
  wait : ∀ i, (s.wk i).early = true → s.E - s.tk i < 2 ^ 31
  snap : ∀ i c x e, s.wk i = .sn c x e ∨ s.wk i = .cs c x e → s.E - e < 2 ^ 31
  note : ∀ j a x e l y, s.nt j = .ns a x e l ∨ s.nt j = .nc a x e l y → s.E - e < 2 ^ 31

inductive Reach (n : Nat) : S → Prop
  | init : Reach n (.init n)
  | step {s s' : S} (h : Reach n s) (hs : Step n s s') (hl : Lag s') : Reach n s'

end Verif.Sync.Notifier
