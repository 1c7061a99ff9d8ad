import Verif.Filter.Spec
/-!
# Filter chains (filter/server_filter_controller.cc, filter/client_filter_controller.cc, filter/server_filter_manager.cc)

The code for servers and that for clients are the same up to the bit that marks server points.
-/

namespace Verif.Filter

/-- `std::deque<...> filters_[kFilterTypeNum]`: the filters to call at each point, in the order of the calls. -/
abbrev Chains := Nat → List Filter

def upd {α : Type} (f : Nat → α) (i : Nat) (x : α) : Nat → α := fun j => if j = i then x else f j

/-- The loop at the end of the functions that add a filter (filter/server_filter_controller.cc:46-53,
filter/server_filter_manager.cc:74-81): `PostOrder` is `index & 0x1`. -/
def enlist (c : Chains) (f : Filter) : Chains :=
  f.points.foldl (fun c p => upd c p (if p % 2 = 1 then f :: c p else c p ++ [f])) c

def named (n : String) (fs : List Filter) : Bool := fs.any fun f => f.name == n

/-- `ServerFilterManager::AddMessageServerGlobalFilter` (filter/server_filter_manager.cc:60-84); the second component is
the value returned. -/
def addGlobal (g : Chains) (f : Filter) : Chains × Bool :=
  match f.points with
  | [] => (enlist g f, true)
  | p :: _ => if named f.name (g p) then (g, false) else (enlist g f, true)

/-- `ServerFilterController::AddMessageServerFilter` (filter/server_filter_controller.cc:22-56), `g` being the global
filters. -/
def addService (g s : Chains) (f : Filter) : Chains × Bool :=
  match f.points with
  | [] => (enlist s f, true)
  | p :: _ => if named f.name (g p) then (s, false) else if named f.name (s p) then (s, false) else (enlist s f, true)

/-- All global filters of a configuration, in order. -/
def globals (fs : List Filter) : Chains := fs.foldl (fun g f => (addGlobal g f).1) fun _ => []

/-- All filters of a service, in order. -/
def services (g : Chains) (fs : List Filter) : Chains := fs.foldl (fun s f => (addService g s f).1) fun _ => []

/-- What calls are made with: the global filters, the filters of the service, and the answers of the filters: `v n` is
the value of `status == REJECT` after the filter call that is the event number `n`. -/
structure Env where
  g : Chains
  s : Chains
  v : Nat → Bool

/-- The context of a call, as far as filters are concerned: `filter_exec_index` (server/server_context.h:735), whether
an assertion has failed, what has happened, and how many decisions have been taken so far (Flow.lean). -/
structure Ctx where
  idx : Nat → Int := fun _ => -1
  dead : Bool := false
  tr : List Ev := []
  n : Nat := 0

/-- One `operator()`; nothing happens after an assertion has failed. -/
def Ctx.emit (c : Ctx) (e : Ev) : Ctx := if c.dead then c else { c with tr := c.tr ++ [e] }

/-- `SetFilterExecIndex` (server/server_context.h:182-186). -/
def Ctx.setIdx (c : Ctx) (k i : Nat) : Ctx := if i ≤ 127 then { c with idx := upd c.idx k i } else { c with dead := true }

/-- The loops over the filters of a pre point (filter/server_filter_controller.cc:65-73 and 77-85); `i` is the value
that `SetFilterExecIndex` would get. The second component: a filter rejected, the function has returned. -/
def preLoop (e : Env) (k : Nat) : List Filter → Nat → Ctx → Ctx × Bool
  | [], _, c => (c, false)
  | f :: fs, i, c =>
    let rej := e.v c.tr.length
    let c := c.emit (.pre f k rej)
    if rej then (c.setIdx k i, true) else preLoop e k fs (i + 1) c

/-- The loops over the filters of a post point (lines 102-104 and 110-112). The second component is `status`. -/
def postLoop (e : Env) (k : Nat) : List Filter → Bool → Ctx → Ctx × Bool
  | [], st, c => (c, st)
  | f :: fs, _, c => postLoop e k fs (e.v c.tr.length) (c.emit (.post f k))

/-- `uint32_t i = size - count` with `size_t` operands (lines 101-102, 109-110). -/
def start (size count : Nat) : Nat := (size + (2 ^ 64 - count % 2 ^ 64)) % 2 ^ 64 % 2 ^ 32

/-- `RunMessageServerFilters` (filter/server_filter_controller.cc:58-116) and `RunMessageClientFilters`
(filter/client_filter_controller.cc:57-114). The second component: the result is `REJECT`. `exec_index` is only ever −1 or
an index, so its conversions to unsigned types change nothing; sizes are taken to be below 2³¹. -/
def runFilters (e : Env) (p : Nat) (c : Ctx) : Ctx × Bool :=
  if c.dead then (c, false)
  else if p % 2 = 0 then
    match preLoop e (p / 2) (e.g p) 0 c with
    | (c, true) => (c, true)
    | (c, false) => preLoop e (p / 2) (e.s p) (e.g p).length c
  else
    let x := if c.idx (p / 2) = -1 then (e.g p).length + (e.s p).length else (c.idx (p / 2)).toNat
    let r := if (e.g p).length < x then
        (postLoop e (p / 2) ((e.s p).drop (start (e.s p).length (x - (e.g p).length))) false c, (e.g p).length)
      else ((c, false), x)
    postLoop e (p / 2) ((e.g p).drop (start (e.g p).length r.2)) r.1.2 r.1.1

end Verif.Filter
