import Verif.Http.Percent

/-!
# URLs

/repo/trpc/util/http/url.cc, url.h

* A `string_view` is its bytes `s` and the bytes `r` that follow it in memory; reading behind those is a crash. For a view of a `std::string` or a literal, `r` begins with NUL.
* A pointer `p` is what is in memory from there on, with `end - p` (0 if `p` is not before `end`).
* `FastCheck` (:64-144) continues on all bytes but `:`, `@` and the blank, which are looked at, and NUL, `/`, `?` and `#`, where it stops. `CheckValidChar` (:31-39) accepts all bytes that are looked at.
-/

namespace Verif.Http.Url

structure Url where
  scheme : Bytes := []
  userinfo : Bytes := []
  host : Bytes := []
  port : Bytes := []
  path : Bytes := []
  query : Bytes := []
  fragment : Bytes := []
deriving DecidableEq, Repr

inductive Res (α : Type) where
  | crash
  | invalid
  | ok (a : α)
deriving DecidableEq, Repr

def Res.bind {α β : Type} (x : Res α) (f : α → Res β) : Res β := match x with
  | .crash => .crash
  | .invalid => .invalid
  | .ok a => f a

/-- `CheckAllSpaces(p + 1, end)` (:40-44), `m` and `k` those of `p + 1`; if `p` is not before `end` it is false. -/
def spaces (m : Bytes) : Nat → Bool
  | 0 => false
  | k + 1 => (m.take k).all (· == 32)

/-- The loop of `SplitHostAndPort` (:46-60), from the end. -/
def split : Bytes → Bytes → Option (Bytes × Bytes)
  | [], _ => none
  | [_], _ => none
  | c :: b :: l, ds =>
    if 48 ≤ c ∧ c ≤ 57 then split (b :: l) (c :: ds)
    else if c = 58 then some ((b :: l).reverse, ds)
    else none

def hostPort (a : Bytes) : Bytes × Bytes := (split a.reverse []).getD (a, [])

/-- What the loop of `ParseSchemeAndAuthority` has found; `acc`: from `start` to `p`. -/
structure Auth where
  acc : Bytes := []
  scheme : Option Bytes := none
  userinfo : Option Bytes := none
deriving DecidableEq, Repr

/-- `p[1] == '/' && p[2] == '/'` (:161) -/
def slashes : Bytes → Res Bool
  | [] => .crash
  | c :: m => if c = 47 then match m with
      | [] => .crash
      | d :: _ => .ok (decide (d = 47))
    else .ok false

/-- The loop of `ParseSchemeAndAuthority` (:147-187) -/
def auth : Bytes → Nat → Auth → Res (Auth × Bytes × Nat)
  | m, 0, a => .ok (a, m, 0)
  | [], _ + 1, _ => .crash
  | c :: m, k + 1, a =>
    if c = 0 ∨ c = 35 ∨ c = 47 ∨ c = 63 then .ok (a, c :: m, k + 1)
    else if c = 58 then
      match slashes m with
      | .ok true => if a.scheme = none then auth (m.drop 2) (k - 2) { a with acc := [], scheme := some a.acc } else auth m k { a with acc := a.acc ++ [c] }
      | .ok false => auth m k { a with acc := a.acc ++ [c] }
      | _ => .crash
    else if c = 64 then
      if a.userinfo = none then auth m k { a with acc := [], userinfo := some a.acc } else auth m k { a with acc := a.acc ++ [c] }
    else if c = 32 then if spaces m (k + 1) then .ok (a, c :: m, k + 1) else .invalid
    else auth m k { a with acc := a.acc ++ [c] }
  termination_by m => m.length
  decreasing_by all_goals (simp only [List.length_drop, List.length_cons]; omega)

/-- The loop of `ParsePath` (:194-203) -/
def pathLoop : Bytes → Nat → Bytes → Res (Bytes × Bytes × Nat)
  | m, 0, acc => .ok (acc, m, 0)
  | [], _ + 1, _ => .crash
  | c :: m, k + 1, acc =>
    if c = 63 ∨ c = 35 then .ok (acc, c :: m, k + 1)
    else if c = 32 then if spaces m (k + 1) then .ok (acc, c :: m, k + 1) else .invalid
    else pathLoop m k (acc ++ [c])

/-- `ParsePath` (:189-208) -/
def path (m : Bytes) (k : Nat) : Res (Bytes × Bytes × Nat) := match m with
  | [] => .crash
  | c :: m => if c = 47 then pathLoop m (k - 1) [47] else .ok ([], c :: m, k)

/-- The loop of `ParseQuery` (:214-222): it does not look at `end`. -/
def queryLoop : Bytes → Nat → Bytes → Res (Bytes × Bytes × Nat)
  | [], _, _ => .crash
  | c :: m, k, acc =>
    if c = 0 ∨ c = 35 then .ok (acc, c :: m, k)
    else if c = 32 then if spaces m k then .ok (acc, c :: m, k) else .invalid
    else queryLoop m (k - 1) (acc ++ [c])

/-- `ParseQuery` (:210-227) -/
def query (m : Bytes) (k : Nat) : Res (Bytes × Bytes × Nat) := match m with
  | [] => .crash
  | c :: m => if c = 63 then queryLoop m (k - 1) [] else .ok ([], c :: m, k)

/-- The loop of `ParseFragment` (:233-241) -/
def fragLoop : Bytes → Nat → Bytes → Res Bytes
  | _, 0, acc => .ok acc
  | [], _ + 1, _ => .crash
  | c :: m, k + 1, acc =>
    if c = 32 then if spaces m (k + 1) then .ok acc else .invalid
    else fragLoop m k (acc ++ [c])

/-- `ParseFragment` (:229-244) -/
def frag (m : Bytes) (k : Nat) : Res Bytes := match m with
  | [] => .crash
  | c :: m => if c = 35 then fragLoop m (k - 1) [] else .ok []

/-- Leading blanks (:250) -/
def skip : Bytes → Nat → Res (Bytes × Nat)
  | [], _ => .crash
  | c :: m, 0 => .ok (c :: m, 0)
  | c :: m, k + 1 => if c = 32 then skip m k else .ok (c :: m, k + 1)

/-- `ParsePath`, `ParseQuery` and `ParseFragment` -/
def tail (u : Url) (m : Bytes) (k : Nat) : Res Url :=
  (path m k).bind fun x => (query x.2.1 x.2.2).bind fun y => (frag y.2.1 y.2.2).bind fun z => .ok { u with path := x.1, query := y.1, fragment := z }

def Auth.url (a : Auth) : Url := { scheme := a.scheme.getD [], userinfo := a.userinfo.getD [], host := (hostPort a.acc).1, port := (hostPort a.acc).2 }

/-- `ParseUrl` (:246-280) -/
def parse (s r : Bytes) : Res Url :=
  (skip (s ++ r) s.length).bind fun x => (auth x.1 x.2 {}).bind fun y => tail y.1.url y.2.1 y.2.2

/-- `RequestUri` (:307-322) -/
def Url.requestUri (u : Url) : Bytes := u.path ++ (if u.query = [] then [] else 63 :: u.query) ++ (if u.fragment = [] then [] else 35 :: u.fragment)

/-- The number that decimal digits stand for. -/
def num (l : Bytes) : Nat := l.foldl (fun n c => n * 10 + (c.toNat - 48)) 0

/-- `Url::IntegerPort` (:298-305): `std::stoi` of digits throws if the number is too big for an `int`. -/
def Url.integerPort (u : Url) : Int := if u.port = [] then -1 else if num u.port < 2 ^ 31 then num u.port else -1

/-- `UrlParser::IntegerPort` (url.h:121): 16 bits of it. -/
def Url.port16 (u : Url) : Int := u.integerPort % 65536

/-! ## Specification -/

/-- The URL with these components. -/
def render (u : Url) : Bytes :=
  (if u.scheme = [] then [] else u.scheme ++ [58, 47, 47]) ++ (if u.userinfo = [] then [] else u.userinfo ++ [64]) ++ u.host ++
    (if u.port = [] then [] else 58 :: u.port) ++ u.path ++ (if u.query = [] then [] else 63 :: u.query) ++ (if u.fragment = [] then [] else 35 :: u.fragment)

def blanks (n : Nat) : Bytes := List.replicate n 32

/-- bytes that end an authority -/
def stop (c : UInt8) : Prop := c = 0 ∨ c = 35 ∨ c = 47 ∨ c = 63

instance (c : UInt8) : Decidable (stop c) := inferInstanceAs (Decidable (_ ∨ _))

/-- Components as they are in RFC 3986 (no blanks; `/`, `?`, `#`, `@` only where they do not end a component), with more bytes allowed. -/
structure Good (u : Url) : Prop where
  scheme : ∀ c ∈ u.scheme, ¬ stop c ∧ c ≠ 32 ∧ c ≠ 64 ∧ c ≠ 58
  userinfo : ∀ c ∈ u.userinfo, ¬ stop c ∧ c ≠ 32 ∧ c ≠ 64
  host : ∀ c ∈ u.host, ¬ stop c ∧ c ≠ 32 ∧ c ≠ 64
  /-- a name, or an address in brackets -/
  colon : 58 ∉ u.host ∨ u.host.getLast? = some 93
  port : ∀ c ∈ u.port, 48 ≤ c ∧ c ≤ 57
  named : u.port ≠ [] → u.host ≠ []
  path : u.path = [] ∨ ∃ p, u.path = 47 :: p ∧ ∀ c ∈ p, c ≠ 63 ∧ c ≠ 35 ∧ c ≠ 32
  query : ∀ c ∈ u.query, c ≠ 0 ∧ c ≠ 35 ∧ c ≠ 32
  fragment : ∀ c ∈ u.fragment, c ≠ 32

end Verif.Http.Url
