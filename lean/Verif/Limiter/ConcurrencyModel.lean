/-!
# Concurrency limiter
(`trpc/overload_control/concurrency_limiter/concurrency_limiter_server_filter.cc`, the in-flight counter
of `trpc/runtime/common/stats/server_stats.h:95-101` and its users in `trpc/server/server_context.cc:30-41`)

Each action below is one atomic access to the counter, so any interleaving of any number of threads is a
list of actions.
-/

namespace Verif.Limiter.Concurrency

/-- What the limiter did with a request. -/
inductive Verdict
  | pending    -- the filter has not run yet
  | admitted
  | rejected
  | skipped    -- the request already carried an error, the filter left it alone
deriving Repr, DecidableEq

/-- A server context that exists (constructed, not destroyed). -/
structure Ctx where
  id : Nat
  verdict : Verdict
deriving Repr, DecidableEq

/-- The counter `req_concurrency_` and (ghost) the existing contexts. -/
structure Conf where
  counter : UInt32
  live : List Ctx

def init : Conf := { counter := 0, live := [] }

inductive Act
  | create (id : Nat)                -- ServerContext::ServerContext, server_context.cc:30
  | filter (id : Nat) (ok : Bool)    -- OnRequest; `ok`: the status of the context is OK
  | destroy (id : Nat)               -- ServerContext::~ServerContext, server_context.cc:39-41
deriving Repr, DecidableEq

/-- `OnRequest`, concurrency_limiter_server_filter.cc:59-76: the verdict for the counter value read. -/
def verdict (maxConcurrency counter : UInt32) (ok : Bool) : Verdict :=
  if !ok then .skipped
  else if counter ≤ maxConcurrency then .admitted
  else .rejected

/-- One atomic action.  `none`: impossible (identifiers are used once, a context is filtered once, by a
live context). -/
def step (maxConcurrency : UInt32) (c : Conf) : Act → Option Conf
  | .create id =>
    if c.live.any (·.id == id) then none
    else some { counter := c.counter + 1, live := ⟨id, .pending⟩ :: c.live }
  | .filter id ok =>
    if c.live.any (fun x => x.id == id && x.verdict == .pending) then
      some { c with live := c.live.map (fun x =>
        if x.id == id then ⟨id, verdict maxConcurrency c.counter ok⟩ else x) }
    else none
  | .destroy id =>
    if c.live.any (·.id == id) then
      some { counter := c.counter - 1, live := c.live.filter (fun x => !(x.id == id)) }
    else none

end Verif.Limiter.Concurrency
