import Verif.Common.Upd
/-!
# Load balancers (`trpc/naming/common/util/loadbalance`)

A `LoadBalance` keeps one record per callee name (`callee_router_infos_`), modelled as a function from
names to optional records.  Null arguments (the `nullptr` tests at the head of every function) are not
modelled.  The shared mutex makes `Update` atomic with respect to `Next`.
-/

namespace Verif.LB

/-- `TrpcEndpointInfo`, naming/common/common_defs.h:98-114.  `other` stands for the remaining fields
(is_ipv6, id, meta). -/
structure Endpoint where
  host : List Char
  port : Int
  status : Int
  weight : Nat
  other : Nat
deriving Repr, DecidableEq

/-- Result of `Next`: an endpoint, an error (-1), or undefined behaviour (index out of range). -/
inductive Sel
  | ok (e : Endpoint)
  | err
  | ub
deriving Repr, DecidableEq

/-- `endpoints[index]` on a vector. -/
def at' (l : List Endpoint) (i : Nat) : Sel :=
  match l[i]? with
  | some e => .ok e
  | none => .ub

/-- `CheckLoadbalanceInfoDiff`, hash/common.cc:88-109, and the identical loop of
polling_load_balance.cc:41-59: does the new list differ in length, host, port or status? -/
def infoDiff (old new : List Endpoint) : Bool :=
  if old.length ≠ new.length then true
  else (old.zip new).any (fun p => p.1.host != p.2.host || p.1.port != p.2.port || p.1.status != p.2.status)

/-! ## Polling -/

namespace Polling

/-- `InnerEndpointInfos` of the polling balancer. -/
structure Infos where
  index : UInt32
  endpoints : List Endpoint

abbrev Table := List Char → Option Infos

def set (t : Table) (name : List Char) (v : Infos) : Table := fun s => if s = name then some v else t s

/-- `Update`, polling_load_balance.cc:64-82. -/
def update (t : Table) (name : List Char) (new : List Endpoint) : Table :=
  match t name with
  | none => set t name ⟨0, new⟩
  | some r => if infoDiff r.endpoints new then set t name ⟨0, new⟩ else t

/-- `Next`, polling_load_balance.cc:85-110.  The counter is fetched and incremented atomically (line 105),
so a list of calls in the order of these increments covers concurrent callers. -/
def next (t : Table) (name : List Char) : Table × Sel :=
  match t name with
  | none => (t, .err)
  | some r =>
    if r.endpoints.length < 1 then (t, .err)
    else (set t name { r with index := r.index + 1 }, at' r.endpoints (r.index.toNat % r.endpoints.length))

/-- `k` selections for one name. -/
def nexts (t : Table) (name : List Char) : Nat → Table × List Sel
  | 0 => (t, [])
  | k + 1 => let r := next t name; let rest := nexts r.1 name k; (rest.1, r.2 :: rest.2)

end Polling

/-! ## Smooth weighted round robin -/

namespace WRR

/-- `InnerEndpointInfos` (weighted_round_robin_load_balancer.h:39-45) of one name.  `int`s are modelled as
`Int`; `C17_no_overflow` gives the range that makes this exact. -/
structure Infos where
  weights : List Nat
  current : List Int
  endpoints : List Endpoint
deriving Repr, DecidableEq

/-- `total_weight`. -/
def Infos.total (s : Infos) : Nat := s.weights.sum

/-- `Update` on a name, :31-41. -/
def Infos.fresh (endpoints : List Endpoint) : Infos :=
  { weights := endpoints.map (·.weight), current := endpoints.map (fun _ => 0), endpoints }

/-- The loop :68-74: `i`, `mx`, `sel` are the loop variable, `max_current_weight` and `selected_index`.
Returns the updated current weights and the final `mx`, `sel`. -/
def scan : List Nat → List Int → Nat → Int → Option Nat → List Int × Int × Option Nat
  | w :: ws, c :: cs, i, mx, sel =>
    let c' := c + w
    let r := if c' > mx then scan ws cs (i + 1) c' (some i) else scan ws cs (i + 1) mx sel
    (c' :: r.1, r.2)
  | _, cs, _, mx, sel => (cs, mx, sel)

/-- `Next`, :46-85, on the record of one name. -/
def Infos.next (s : Infos) : Infos × Sel × Option Nat :=
  if s.endpoints.length < 1 then (s, .err, none)
  else
    let r := scan s.weights s.current 0 (-1) none
    match r.2.2 with
    | none => ({ s with current := r.1 }, .err, none)
    | some j => ({ s with current := r.1.set j (r.1.getD j 0 - s.total) }, at' s.endpoints j, some j)

/-- `k` selections: final record and the selected indices. -/
def Infos.nexts (s : Infos) : Nat → Infos × List (Option Nat)
  | 0 => (s, [])
  | k + 1 => let r := s.next; let rest := r.1.nexts k; (rest.1, r.2.2 :: rest.2)

/-- `IsLoadBalanceInfoDiff`, :87-112. -/
def infoDiff (old new : List Endpoint) : Bool :=
  if old.length ≠ new.length then true
  else (old.zip new).any (fun p => p.1.weight != p.2.weight || p.1.host != p.2.host || p.1.port != p.2.port)

/-- `Update`, :19-44, on the record of one name. -/
def Infos.update (s : Infos) (new : List Endpoint) : Infos := if infoDiff s.endpoints new then .fresh new else s

end WRR

/-! ## Hash balancers -/

namespace Hash

/-- Value of the leading decimal digits. -/
def digits (acc : Nat) : List Char → Nat
  | [] => acc
  | c :: cs => if '0' ≤ c ∧ c ≤ '9' then digits (acc * 10 + (c.toNat - '0'.toNat)) cs else acc

/-- Does it begin with a decimal digit? -/
def startsWithDigit : List Char → Bool
  | [] => false
  | c :: _ => decide ('0' ≤ c) && decide (c ≤ '9')

/-- White space in the "C" locale. -/
def isSpace (c : Char) : Bool := c == ' ' || c == '\t' || c == '\n' || c == '\x0b' || c == '\x0c' || c == '\r'

/-- The unsigned part of `std::stoull`: digits, out of range is an exception (`none`). -/
def unsignedPart (s : List Char) : Option UInt64 :=
  if startsWithDigit s then
    if digits 0 s < 2 ^ 64 then some (UInt64.ofNat (digits 0 s)) else none
  else none

/-- `std::stoull` (base 10): `none` is an exception (which no caller catches). -/
def stoull (s : List Char) : Option UInt64 :=
  match s.dropWhile isSpace with
  | '-' :: r => (unsignedPart r).map (fun x => 0 - x)
  | '+' :: r => unsignedPart r
  | r => unsignedPart r

/-- The hash value used by both hash balancers for a request: the user's hash key if not empty, else the
hash of the configured arguments (modulohash_load_balance.cc:97-103, consistenthash_load_balance.cc:139-144).
`h` stands for `Hash(GenerateKeysAsString(...))`. -/
def requestHash (hashKey : List Char) (h : UInt64) : Option UInt64 :=
  if hashKey ≠ [] then stoull hashKey else some h

/-- `ModuloHashLoadBalance::Next` on the record of one name, modulohash_load_balance.cc:90-106; `none` is an
uncaught exception. -/
def moduloNext (endpoints : List Endpoint) (hashKey : List Char) (h : UInt64) : Option Sel :=
  if endpoints.length < 1 then some .err
  else (requestHash hashKey h).map (fun x => at' endpoints (x.toNat % endpoints.length))

/-! ### Consistent hashing -/

/-- The string form of an endpoint used as its identity: `host + std::to_string(port)`
(consistenthash_load_balance.cc:86,90). -/
def _root_.Verif.LB.Endpoint.name (e : Endpoint) : List Char := e.host ++ (toString e.port).toList

/-- `std::map<uint64_t, TrpcEndpointInfo>`: association list with distinct keys. -/
abbrev Ring := List (UInt64 × Endpoint)

/-- `hashring.erase(key)`. -/
def erase (r : Ring) (k : UInt64) : Ring := r.filter (fun p => p.1 != k)

/-- `hashring[key] = e`. -/
def insert (r : Ring) (k : UInt64) (e : Endpoint) : Ring := (k, e) :: erase r k

/-- Ring key number `i` of a name, :96,:105; `H` is the configured hash function. -/
def point (H : List Char → UInt64) (name : List Char) (i : Nat) : UInt64 := H (name ++ (toString i).toList)

/-- The record of one name. -/
structure Infos where
  ring : Ring
  endpoints : List Endpoint

/-- `info->endpoints->at(new_set[name])`. -/
def lastWith (l : List Endpoint) (n : List Char) : Option Endpoint := l.reverse.find? (fun e => Endpoint.name e == n)

/-- :94-99 -/
def removeName (H : List Char → UInt64) (nodes : Nat) (r : Ring) (n : List Char) : Ring :=
  (List.range nodes).foldl (fun r i => erase r (point H n i)) r

/-- :103-107 -/
def addName (H : List Char → UInt64) (nodes : Nat) (r : Ring) (n : List Char) (e : Endpoint) : Ring :=
  (List.range nodes).foldl (fun r i => insert r (point H n i) e) r

/-- The ring computed by `Update` for given iteration orders `rem`, `add` of the names to remove and to add. -/
def updateRing (H : List Char → UInt64) (nodes : Nat) (r : Ring) (new : List Endpoint) (rem add : List (List Char)) :
    Ring :=
  add.foldl (fun r n => match lastWith new n with | some e => addName H nodes r n e | none => r)
    (rem.foldl (removeName H nodes) r)

/-- `Update` on the record of one name (a missing record is the empty one), :63-118, as a relation: the
iteration order of the unordered containers `old_set`, `new_set` is unspecified, so every order is allowed. -/
def Update (H : List Char → UInt64) (nodes : Nat) (s : Infos) (new : List Endpoint) (s' : Infos) : Prop :=
  if infoDiff s.endpoints new then
    ∃ rem add : List (List Char),
      (∀ n, n ∈ rem ↔ n ∈ s.endpoints.map Endpoint.name ∧ n ∉ new.map Endpoint.name) ∧
      (∀ n, n ∈ add ↔ n ∈ new.map Endpoint.name ∧ n ∉ s.endpoints.map Endpoint.name) ∧
      s' = ⟨updateRing H nodes s.ring new rem add, new⟩
  else s' = s

/-- The entry with the smallest key. -/
def minEntry : Ring → Option (UInt64 × Endpoint)
  | [] => none
  | p :: r => match minEntry r with
    | none => some p
    | some q => if q.1 < p.1 then some q else some p

/-- `lower_bound(hash)`, wrapping to `begin()`, :145-151. -/
def lookup (r : Ring) (h : UInt64) : Option Endpoint :=
  match minEntry (r.filter (fun p => decide (h ≤ p.1))) with
  | some p => some p.2
  | none => (minEntry r).map (·.2)

/-- `Next`, :120-153; `none`: an uncaught exception. -/
def Infos.next (s : Infos) (hashKey : List Char) (h : UInt64) : Option Sel :=
  if s.ring.length < 1 then some .err
  else (requestHash hashKey h).map (fun x =>
    match lookup s.ring x with
    | some e => .ok e
    | none => .ub)

end Hash

end Verif.LB
