import Verif.Common.Linearizable
/-!
# `BoundedSPMCQueue` with its real arithmetic (`trpc/util/queue/bounded_spmc_queue.h`), and C21's refutations

Same steps as `DequeModel.lean`, but `top_` and `bottom_` are 64-bit unsigned and wrap, and items are nullable
pointers (`none` is `nullptr`, the initial contents of every slot).
-/

namespace Verif.Queue.BoundedSpmc

open Verif.Lin

inductive Op (V : Type)
  | enqueue (v : V)
  | dequeue
  | steal
deriving DecidableEq

/-- `bool` of `Enqueue`, pointer of `Dequeue`/`Steal`. -/
inductive Res (V : Type)
  | bool (b : Bool)
  | ptr (p : Option V)
deriving DecidableEq

inductive PC (V : Type)
  | idle
  | eTop (v : V)
  | eWrite (v : V) (b : UInt64)
  | ePub (b : UInt64)
  | dSet
  | dTop (b : UInt64)
  | dRead (b t : UInt64)
  | dCas (b : UInt64) (p : Option V)
  | dRestore (b : UInt64) (p : Option V)
  | sTop
  | sBot (t : UInt64)
  | sRead (t : UInt64)
  | sCas (t : UInt64) (p : Option V)
  | done (r : Res V)

structure Conf (V : Type) where
  top : UInt64
  bot : UInt64
  slot : Nat → Option V
  pc : Nat → PC V

/-- Constructor, :36-43. -/
def init {V : Type} : Conf V := ⟨0, 0, fun _ => none, fun _ => .idle⟩

/-- Index of position `i` for `capacity_ = cap`. -/
def ix (cap i : UInt64) : Nat := (i &&& (cap - 1)).toNat

def entry {V : Type} : Op V → PC V
  | .enqueue v => .eTop v
  | .dequeue => .dSet
  | .steal => .sTop

/-- One atomic step: `Enqueue` :48-63, `Dequeue` :67-90, `Steal` :94-110. -/
def tstep {V : Type} (cap : UInt64) (c : Conf V) (th : Nat) : Option (Conf V) :=
  match c.pc th with
  | .idle => none
  | .eTop v => some { c with pc := upd c.pc th (if cap - 1 < c.bot - c.top then .done (.bool false) else .eWrite v c.bot) }
  | .eWrite v b => some { c with slot := upd c.slot (ix cap b) (some v), pc := upd c.pc th (.ePub b) }
  | .ePub b => some { c with bot := b + 1, pc := upd c.pc th (.done (.bool true)) }
  | .dSet => some { c with bot := c.bot - 1, pc := upd c.pc th (.dTop (c.bot - 1)) }
  | .dTop b => some { c with pc := upd c.pc th (if c.top ≤ b then .dRead b c.top else .dRestore b none) }
  | .dRead b t =>
    some { c with pc := upd c.pc th (if t = b then .dCas b (c.slot (ix cap b)) else .done (.ptr (c.slot (ix cap b)))) }
  | .dCas b p =>
    if c.top = b then some { c with top := b + 1, pc := upd c.pc th (.dRestore b p) }
    else some { c with pc := upd c.pc th (.done (.ptr none)) }
  | .dRestore b p => some { c with bot := b + 1, pc := upd c.pc th (.done (.ptr p)) }
  | .sTop => some { c with pc := upd c.pc th (.sBot c.top) }
  | .sBot t => some { c with pc := upd c.pc th (if t < c.bot then .sRead t else .done (.ptr none)) }
  | .sRead t => some { c with pc := upd c.pc th (.sCas t (c.slot (ix cap t))) }
  | .sCas t p =>
    if c.top = t then some { c with top := t + 1, pc := upd c.pc th (.done (.ptr p)) }
    else some { c with pc := upd c.pc th (.done (.ptr none)) }
  | .done _ => none

/-- `Enqueue` and `Dequeue` are for the owner (thread 0). -/
def allowed {V : Type} (th : Nat) : Op V → Bool
  | .steal => true
  | _ => th == 0

inductive Step {V : Type} (cap : UInt64) : Conf V → Option (Vis (Op V) (Res V)) → Conf V → Prop
  | call (c th op) : c.pc th = .idle → allowed th op = true →
      Step cap c (some (.call th op)) { c with pc := upd c.pc th (entry op) }
  | tau (c th c') : tstep cap c th = some c' → Step cap c none c'
  | ret (c th r) : c.pc th = .done r → Step cap c (some (.ret th r)) { c with pc := upd c.pc th .idle }

/-! ## Schedules -/

inductive Act (V : Type)
  | call (th : Nat) (op : Op V)
  /-- `n` steps of thread `th` -/
  | run (th n : Nat)
  | ret (th : Nat)

def steps {V : Type} (cap : UInt64) (th : Nat) : Nat → Conf V → Option (Conf V)
  | 0, c => some c
  | n + 1, c => (tstep cap c th).bind (steps cap th n)

def play {V : Type} (cap : UInt64) : List (Act V) → Conf V → Option (List (Vis (Op V) (Res V)) × Conf V)
  | [], c => some ([], c)
  | .call th op :: l, c =>
    match c.pc th with
    | .idle => if allowed th op then
        (play cap l { c with pc := upd c.pc th (entry op) }).map (fun x => (.call th op :: x.1, x.2)) else none
    | _ => none
  | .run th n :: l, c => (steps cap th n c).bind (play cap l)
  | .ret th :: l, c =>
    match c.pc th with
    | .done r => (play cap l { c with pc := upd c.pc th .idle }).map (fun x => (.ret th r :: x.1, x.2))
    | _ => none

variable {V : Type}

theorem Exec.tau {cap : UInt64} {i c c' : Conf V} {h} (th : Nat) (he : Exec (Step cap) i h c)
    (hs : tstep cap c th = some c') : Exec (Step cap) i h c' := by
  have := Exec.step he (.tau c th c' hs)
  simpa using this

theorem steps_sound {cap : UInt64} {ini : Conf V} {th : Nat} (n : Nat) : ∀ {c c' : Conf V} {h},
    Exec (Step cap) ini h c → steps cap th n c = some c' → Exec (Step cap) ini h c' := by
  induction n with
  | zero => intro c c' h he hs; simp only [steps, Option.some.injEq] at hs; subst hs; exact he
  | succ n ih =>
    intro c c' h he hs
    simp only [steps, Option.bind_eq_some_iff] at hs
    obtain ⟨c1, h1, h2⟩ := hs
    exact ih (Exec.tau th he h1) h2

theorem play_sound {cap : UInt64} {ini : Conf V} (l : List (Act V)) :
    ∀ {c : Conf V} {h h'} {c'}, Exec (Step cap) ini h c → play cap l c = some (h', c') →
      Exec (Step cap) ini (h ++ h') c' := by
  induction l with
  | nil =>
    intro c h h' c' he hp
    simp only [play, Option.some.injEq, Prod.mk.injEq] at hp
    obtain ⟨rfl, rfl⟩ := hp
    simpa using he
  | cons a l ih =>
    intro c h h' c' he hp
    cases a with
    | call th op =>
      simp only [play] at hp
      split at hp
      · next hid =>
        split at hp
        · next hal =>
          simp only [Option.map_eq_some_iff, Prod.exists, Prod.mk.injEq] at hp
          obtain ⟨h1, c1, hp, rfl, rfl⟩ := hp
          have := ih (Exec.step he (.call c th op hid hal)) hp
          simpa using this
        · cases hp
      · cases hp
    | run th n =>
      simp only [play, Option.bind_eq_some_iff] at hp
      obtain ⟨c1, h1, hp⟩ := hp
      exact ih (steps_sound n he h1) hp
    | ret th =>
      simp only [play] at hp
      split at hp
      · next r hr =>
        simp only [Option.map_eq_some_iff, Prod.exists, Prod.mk.injEq] at hp
        obtain ⟨h1, c1, hp, rfl, rfl⟩ := hp
        have := ih (Exec.step he (.ret c th r hr)) hp
        simpa using this
      · cases hp

/-- Values of the shared variables at the end of a schedule, and its history. -/
def outcome (cap : UInt64) (l : List (Act Nat)) : Option (List (Vis (Op Nat) (Res Nat)) × UInt64 × UInt64) :=
  (play cap l init).map (fun x => (x.1, x.2.top, x.2.bot))

theorem outcome_exec {cap : UInt64} {l : List (Act Nat)} {h top bot} (hp : outcome cap l = some (h, top, bot)) :
    ∃ c, Exec (Step cap) init h c ∧ c.top = top ∧ c.bot = bot := by
  simp only [outcome, Option.map_eq_some_iff, Prod.exists, Prod.mk.injEq] at hp
  obtain ⟨h1, c1, hp, rfl, rfl, rfl⟩ := hp
  exact ⟨c1, by simpa using play_sound l Exec.start hp, rfl, rfl⟩

/-! ## Refutations -/

/-- In a state in which `bottom_ - top_` (unsigned) is not below the capacity, `Enqueue` fails whatever it is given,
and leaves the shared variables as they were. -/
theorem enqueue_refused (cap : UInt64) (c : Conf V) (h : cap - 1 < c.bot - c.top) (th : Nat) (v : V)
    (hp : c.pc th = .eTop v) :
    ∃ c', tstep cap c th = some c' ∧ c'.pc th = .done (.bool false) ∧ c'.top = c.top ∧ c'.bot = c.bot ∧ c'.slot = c.slot := by
  refine ⟨{ c with pc := upd c.pc th (.done (.bool false)) }, ?_, upd_same .., rfl, rfl, rfl⟩
  simp only [tstep, hp, if_pos h]

/-- **C21, refutation 1.**  A `Dequeue` on a new queue returns null, as it should, and leaves `bottom_` at 2⁶⁴-1: from
then on `Enqueue` is refused although the queue is empty (and again and again, by `enqueue_refused`). -/
theorem C21_dequeue_on_new_queue_kills_it :
    ∃ c, Exec (Step 1024) (init (V := Nat)) [.call 0 .dequeue, .ret 0 (.ptr none), .call 0 (.enqueue 7), .ret 0 (.bool false)] c ∧
      c.top = 0 ∧ c.bot = 18446744073709551615 ∧ (1024 : UInt64) - 1 < c.bot - c.top := by
  obtain ⟨c, h1, h2, h3⟩ := outcome_exec (cap := 1024)
    (l := [.call 0 .dequeue, .run 0 3, .ret 0, .call 0 (.enqueue 7), .run 0 1, .ret 0])
    (h := [.call 0 .dequeue, .ret 0 (.ptr none), .call 0 (.enqueue 7), .ret 0 (.bool false)])
    (top := 0) (bot := 18446744073709551615) (by decide +kernel)
  exact ⟨c, h1, h2, h3, by rw [h2, h3]; decide⟩

/-- **C21, refutation 2.**  The owner loses the race for the last item to a thief: `bottom_` stays one below `top_`, and
`Enqueue` is refused for ever although the queue is empty. -/
theorem C21_lost_race_kills_it :
    ∃ c, Exec (Step 1024) (init (V := Nat))
      [.call 0 (.enqueue 7), .ret 0 (.bool true), .call 1 .steal, .call 0 .dequeue, .ret 1 (.ptr (some 7)),
       .ret 0 (.ptr none), .call 0 (.enqueue 8), .ret 0 (.bool false)] c ∧
      c.top = 1 ∧ c.bot = 0 ∧ (1024 : UInt64) - 1 < c.bot - c.top := by
  obtain ⟨c, h1, h2, h3⟩ := outcome_exec (cap := 1024)
    (l := [.call 0 (.enqueue 7), .run 0 3, .ret 0, .call 1 .steal, .run 1 3, .call 0 .dequeue, .run 0 3,
           .run 1 1, .ret 1, .run 0 1, .ret 0, .call 0 (.enqueue 8), .run 0 1, .ret 0])
    (h := [.call 0 (.enqueue 7), .ret 0 (.bool true), .call 1 .steal, .call 0 .dequeue, .ret 1 (.ptr (some 7)),
       .ret 0 (.ptr none), .call 0 (.enqueue 8), .ret 0 (.bool false)])
    (top := 1) (bot := 0) (by decide +kernel)
  exact ⟨c, h1, h2, h3, by rw [h2, h3]; decide⟩

/-- **C21, refutation 3.**  An item is handed out twice: after the lost race of refutation 2 for the first item, a
`Dequeue` on the empty queue moves `bottom_` to 2⁶⁴-1, and a thief then takes the item 8, which the owner already has. -/
theorem C21_item_handed_out_twice :
    ∃ c, Exec (Step 1024) (init (V := Nat))
      [.call 0 (.enqueue 7), .ret 0 (.bool true), .call 0 (.enqueue 8), .ret 0 (.bool true),
       .call 0 .dequeue, .ret 0 (.ptr (some 8)),
       .call 1 .steal, .call 0 .dequeue, .ret 1 (.ptr (some 7)), .ret 0 (.ptr none),
       .call 0 .dequeue, .ret 0 (.ptr none),
       .call 1 .steal, .ret 1 (.ptr (some 8))] c := by
  obtain ⟨c, h1, -⟩ := outcome_exec (cap := 1024)
    (l := [.call 0 (.enqueue 7), .run 0 3, .ret 0, .call 0 (.enqueue 8), .run 0 3, .ret 0,
           .call 0 .dequeue, .run 0 3, .ret 0,
           .call 1 .steal, .run 1 3, .call 0 .dequeue, .run 0 3, .run 1 1, .ret 1, .run 0 1, .ret 0,
           .call 0 .dequeue, .run 0 3, .ret 0,
           .call 1 .steal, .run 1 4, .ret 1])
    (h := [.call 0 (.enqueue 7), .ret 0 (.bool true), .call 0 (.enqueue 8), .ret 0 (.bool true),
       .call 0 .dequeue, .ret 0 (.ptr (some 8)),
       .call 1 .steal, .call 0 .dequeue, .ret 1 (.ptr (some 7)), .ret 0 (.ptr none),
       .call 0 .dequeue, .ret 0 (.ptr none),
       .call 1 .steal, .ret 1 (.ptr (some 8))])
    (top := 2) (bot := 18446744073709551615) (by decide +kernel)
  exact ⟨c, h1⟩

end Verif.Queue.BoundedSpmc
