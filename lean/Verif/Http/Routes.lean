import Verif.Http.Query
/-!
# Routes

/repo/trpc/util/http/routes.{h,cc}, match_rule.h, matcher.cc. `std::regex` is not modelled: a matcher that uses one has a function of the URL in its place
(which is why a path such as `<regex…>` or `<ph(…)>` is not a plain one). Handlers are numbers; a null handler is `none`.
-/

namespace Verif.Http

/-- `PathParameters` (parameter.h:50-125): an unordered map. -/
abbrev Params := List (Bytes × Bytes)

/-- `Set` (parameter.h:70-73). -/
def Params.put (ps : Params) (k v : Bytes) : Params := (k, v) :: ps.filter (fun p => p.1 != k)

/-- `Get`, `At`. -/
def Params.look (ps : Params) (k : Bytes) : Option Bytes := (ps.find? (fun p => p.1 == k)).map (·.2)

inductive Matcher where
  /-- `StringMatcher` of a plain string. -/
  | str (cmp : Bytes)
  /-- `StringMatcher` of `<regex…>`; `f`: `std::regex_search`. -/
  | regex (cmp : Bytes) (f : Bytes → Bool)
  /-- `PlaceholderMatcher`; `f`: what `std::regex_match` finds for the names. -/
  | holder (f : Bytes → Option (List (Bytes × Bytes)))
  /-- `ParamMatcher`. -/
  | param (name : Bytes) (entire : Bool)

/-- `FindEndParam` (matcher.cc:36-39). -/
def findEndParam (url : Bytes) (start : Nat) (entire : Bool) : Nat :=
  match (if entire then some url.length else findFrom 47 url (start + 1)) with
  | none => url.length
  | some pos => pos

/-- The first condition of `StringMatcher::Match` (lines 68-71): `find` returns the first place, so it is `start_pos` exactly if the string is there. -/
def hereIs (cmp url : Bytes) (start : Nat) : Bool :=
  cmp.length + start ≤ url.length && cmp.isPrefixOf (url.drop start) &&
    (url.length = cmp.length + start || url[cmp.length + start]? = some 47)

/-- `Match` of the matchers (matcher.cc:42-124): where it ends, `none` for `npos`. -/
def Matcher.match : Matcher → Bytes → Nat → Params → Option Nat × Params
  | .str cmp, url, start, ps => if hereIs cmp url start then (some (cmp.length + start), ps) else (none, ps)
  | .regex cmp f, url, start, ps =>
    if hereIs cmp url start then (some (cmp.length + start), ps) else if f url then (some url.length, ps) else (none, ps)
  | .holder f, url, _, ps => match f url with
    | none => (none, ps)
    | some l => (some url.length, l.foldl (fun ps p => ps.put p.1 p.2) ps)
  | .param name entire, url, start, ps =>
    let last := findEndParam url start entire
    if last = start then
      if entire then (some start, ps.put name []) else (none, ps)
    else (some last, ps.put name (substr url start (last - start)))

structure Rule where
  handler : Option Nat
  matchers : List Matcher

/-- The loop of `MatchRule::Get` (match_rule.h:50-55). -/
def matchAll : List Matcher → Bytes → Nat → Params → Option Nat × Params
  | [], _, i, ps => (some i, ps)
  | m :: ms, url, i, ps =>
    match m.match url i ps with
    | (none, ps) => (none, ps)
    | (some i, ps) => matchAll ms url i ps

/-- `MatchRule::Get` (lines 48-57). -/
def Rule.get (r : Rule) (url : Bytes) (ps : Params) : Option Nat × Params :=
  match matchAll r.matchers url 0 ps with
  | (none, ps) => (none, ps)
  | (some i, ps) => if i + 1 ≥ url.length then (r.handler, ps) else (none, ps)

structure Routes where
  exact : Nat → List (Bytes × Option Nat)
  rules : Nat → List Rule

/-- `Put` (routes.h:78-81). -/
def Routes.put (t : Routes) (type : Nat) (path : Bytes) (h : Option Nat) : Routes :=
  { t with exact := fun x => if x = type then (path, h) :: (t.exact x).filter (fun p => p.1 != path) else t.exact x }

/-- `Add` of a rule (routes.cc:29-32). -/
def Routes.add (t : Routes) (r : Rule) (type : Nat) : Routes :=
  { t with rules := fun x => if x = type then t.rules x ++ [r] else t.rules x }

/-- `Add` of a plain path (lines 34-41); `param`: that of `Remainder`. -/
def Routes.addPath (t : Routes) (type : Nat) (path param : Bytes) (h : Option Nat) : Routes :=
  t.add ⟨h, if param = [] then [.str path] else [.str path, .param param true]⟩ type

/-- `GetExactMatch` (routes.h:94-97). -/
def Routes.getExactMatch (t : Routes) (type : Nat) (path : Bytes) : Option Nat :=
  match (t.exact type).find? (fun p => p.1 == path) with
  | none => none
  | some p => p.2

/-- The loop of `GetHandler` (routes.cc:49-55). -/
def tryRules : List Rule → Bytes → Params → Option Nat × Params
  | [], _, ps => (none, ps)
  | r :: rs, path, ps =>
    match r.get path ps with
    | (some h, ps) => (some h, ps)
    | (none, _) => tryRules rs path []

/-- `GetHandler` (lines 44-57). -/
def Routes.getHandler (t : Routes) (type : Nat) (path : Bytes) (ps : Params) : Option Nat × Params :=
  match t.getExactMatch type path with
  | some h => (some h, ps)
  | none => tryRules (t.rules type) path ps

/-- `NormalizeUrl` (util.cc:72-77). -/
def normalizeUrl (url : Bytes) : Bytes :=
  if url.length < 2 ∨ url.getLast? ≠ some 47 then url else url.take (url.length - 1)

end Verif.Http
