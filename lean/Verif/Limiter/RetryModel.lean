/-!
# Retry limiter (`trpc/filter/retry/retry_limit_client_filter.cc`)

The filter's only shared state is one atomic integer.  A call's update consists of one or two atomic
accesses; the calls between the two are anonymous, so only their number matters.  `int` overflow is not
modelled (`max_tokens < INT32_MAX`; overflow would need 2³¹ simultaneous calls).
-/

namespace Verif.Limiter.Retry

/-- `RetryHedgingLimitConfig` (common/config/retry_conf.h:25-33). -/
structure Config where
  maxTokens : Int
  ratio : Int
deriving Repr, DecidableEq

/-- The assertions of the constructor, retry_limit_client_filter.cc:24-25. -/
def Config.valid (c : Config) : Bool := 0 < c.maxTokens && c.maxTokens < 2147483647 && 0 < c.ratio && c.ratio ≤ c.maxTokens

/-- Token count, number of calls that found the bucket full and have not yet taken their token back
(between lines 55 and 56), number of calls that found it negative and have not yet set it to zero (between
lines 59 and 60). -/
structure Conf where
  tokens : Int
  over : Nat
  under : Nat
deriving Repr, DecidableEq

/-- Constructor, :22-32. -/
def init (cfg : Config) : Conf := { tokens := cfg.maxTokens, over := 0, under := 0 }

inductive Act
  | success    -- POST point, status OK: the fetch_add
  | takeBack   -- the following fetch_sub
  | failure    -- POST point, status not OK: the fetch_sub
  | zero       -- the following store
deriving Repr, DecidableEq

/-- One atomic access, :52-62. -/
def step (cfg : Config) (c : Conf) : Act → Option Conf
  | .success => some { c with tokens := c.tokens + 1, over := if c.tokens ≥ cfg.maxTokens then c.over + 1 else c.over }
  | .takeBack => if c.over = 0 then none else some { c with tokens := c.tokens - 1, over := c.over - 1 }
  | .failure => some { c with tokens := c.tokens - cfg.ratio, under := if c.tokens < 0 then c.under + 1 else c.under }
  | .zero => if c.under = 0 then none else some { c with tokens := 0, under := c.under - 1 }

def run (cfg : Config) (c : Conf) : List Act → Option Conf
  | [] => some c
  | a :: as => (step cfg c a).bind (fun c' => run cfg c' as)

/-- PRE point, :41-50: is a backup request cancelled?  (`>> 1` of a positive number.) -/
def cancels (cfg : Config) (tokens : Int) (isBackup : Bool) : Bool := decide (tokens ≤ cfg.maxTokens / 2) && isBackup

/-- The update of one call whose accesses are not interrupted: success, :52-56. -/
def onSuccess (cfg : Config) (tokens : Int) : Int := if tokens ≥ cfg.maxTokens then tokens + 1 - 1 else tokens + 1

/-- The update of one call whose accesses are not interrupted: failure, :58-61. -/
def onFailure (cfg : Config) (tokens : Int) : Int := if tokens < 0 then 0 else tokens - cfg.ratio

/-- Calls one after the other (`true`: success). -/
def runSeq (cfg : Config) (tokens : Int) : List Bool → Int
  | [] => tokens
  | o :: os => runSeq cfg (if o then onSuccess cfg tokens else onFailure cfg tokens) os

end Verif.Limiter.Retry
