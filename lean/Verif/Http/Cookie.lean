/-!
# Cookies

/repo/trpc/util/http/http_cookie.{h,cc}

* Strings are lists of characters. `std::to_string`, `std::stoi`, the conversions of dates and the two clocks are parameters (`Env`); `stoi` without a result throws. Numbers are not bounded.
* The map given to the constructor is a list in the order of its iteration, which may be any.
* `Escape` and `Unescape` are those of `Http/Percent`.
-/

namespace Verif.Http.Cookie

abbrev Str := List Char

structure Env where
  /-- seconds since the epoch, `GetNowAsTimeT` -/
  now : Int
  /-- `GetSteadyMilliSeconds() / 1000` -/
  steady : Int
  /-- `ConvertEpochToHttpDate` -/
  date : Int → Str
  /-- `ConvertHttpDateToEpoch`; nothing for -1 -/
  epoch : Str → Option Int
  dec : Int → Str
  stoi : Str → Option Int

/-- http_cookie.h:117-126, with the values of the constructor (.cc:22-23) -/
structure Cookie where
  version : Int := 0
  name : Str := []
  value : Str := []
  comment : Str := []
  domain : Str := []
  path : Str := []
  secure : Bool := false
  maxAge : Int := -1
  httpOnly : Bool := false
  sameSite : Int := 0
deriving DecidableEq, Repr

/-- `AppendSameSite` (.cc:53-68): there is no `break` after `Lax`. -/
def sameSite (s : Int) : Str :=
  if s = 1 then "; SameSite=None".toList
  else if s = 2 then "; SameSite=Lax".toList ++ "; SameSite=Strict".toList
  else if s = 3 then "; SameSite=Strict".toList
  else []

/-- `ToStringVersionZero` (.cc:71-107) -/
def zero (e : Env) (c : Cookie) : Str :=
  if c.name = [] ∨ c.value = [] then []
  else c.name ++ "=".toList ++ c.value
    ++ (if c.domain = [] then [] else "; domain=".toList ++ c.domain)
    ++ (if c.path = [] then [] else "; path=".toList ++ c.path)
    ++ (if c.maxAge = -1 then [] else "; expires=".toList ++ e.date (e.now + c.maxAge))
    ++ sameSite c.sameSite
    ++ (if c.secure then "; secure".toList else [])
    ++ (if c.httpOnly then "; HttpOnly".toList else [])

/-- `ToStringVersionOne` (.cc:109-156) -/
def one (e : Env) (c : Cookie) : Str :=
  if c.name = [] ∨ c.value = [] then []
  else c.name ++ "=\"".toList ++ c.value ++ "\"".toList
    ++ (if c.comment = [] then [] else "; Comment=\"".toList ++ c.comment ++ "\"".toList)
    ++ (if c.domain = [] then [] else "; Domain=\"".toList ++ c.domain ++ "\"".toList)
    ++ (if c.path = [] then [] else "; Path=\"".toList ++ c.path ++ "\"".toList)
    ++ (if c.maxAge = -1 then [] else "; Max-Age=\"".toList ++ e.dec c.maxAge ++ "\"".toList)
    ++ sameSite c.sameSite
    ++ (if c.secure then "; Secure".toList else [])
    ++ (if c.httpOnly then "; HttpOnly".toList else [])
    ++ "; Version=\"1\"".toList

/-- `ToString` (.cc:41-50) -/
def toString (e : Env) (c : Cookie) : Str := if c.version = 0 then zero e c else one e c

/-- `StringEqualsLiteralsIgnoreCase` -/
def ieq (a : String) (b : Str) : Bool := a.toList.map Char.toLower == b.map Char.toLower

/-- `ParseSameSiteString` (.cc:159-169) -/
def parseSame (v : Str) : Int := if ieq "None" v then 1 else if ieq "Lax" v then 2 else if ieq "Strict" v then 3 else 0

/-- `SetCookieFieldNameValue` (.cc:171-200); nothing if `stoi` throws -/
def set (e : Env) (c : Cookie) (f : Str × Str) : Option Cookie :=
  if ieq "comment" f.1 then some { c with comment := f.2 }
  else if ieq "domain" f.1 then some { c with domain := f.2 }
  else if ieq "path" f.1 then some { c with path := f.2 }
  else if ieq "max-age" f.1 then (e.stoi f.2).map fun n => { c with maxAge := n }
  else if ieq "secure" f.1 then some { c with secure := true }
  else if ieq "expires" f.1 then match e.epoch f.2 with
    | none => some c
    | some t => some { c with maxAge := t - e.steady }
  else if ieq "SameSite" f.1 then some { c with sameSite := parseSame f.2 }
  else if ieq "Version" f.1 then (e.stoi f.2).map fun n => { c with version := n }
  else if ieq "HttpOnly" f.1 then some { c with httpOnly := true }
  else some { c with name := f.1, value := f.2 }

/-- The constructor from a map (.cc:34-39) -/
def make (e : Env) (l : List (Str × Str)) : Option Cookie := l.foldlM (set e) {}

end Verif.Http.Cookie
