/-!
# The tree of exposed variables

/repo/trpc/tvar/common/tvar_group.{h,cc}; /repo/trpc/admin/stats_handler.cc (`NormalizePath`, `VarHandler::Handle`)

The tree is a set of paths of groups and a map of leaves; a path is the list of the names from the root. Calls are atomic (each group has a lock; a leaf is looked up and a group created under the lock of the parent).
An escaped slash in a name is stored as a zero byte. `refused` is `nullopt` or a failed assertion, as configured (`AbortOnSamePath`). The function of a leaf is a number.
Left out: the way into the JSON value of a leaf, `Dump` (only which group is dumped), history values.
-/

namespace Verif.Tvar.Group

abbrev Bytes := List UInt8

def slash : UInt8 := 47

/-- `SubstituteEscapedSlashForZero` (tvar_group.cc:67-70) -/
def esc : Bytes → Bytes
  | [] => []
  | [c] => [c]
  | a :: b :: t => if a = 92 ∧ b = slash then 0 :: esc t else a :: esc (b :: t)

/-- there is `//` -/
def dbl : Bytes → Bool
  | a :: b :: t => (a == slash && b == slash) || dbl (b :: t)
  | _ => false

/-- `CHECK_PATH` (tvar_group.cc:33-35) -/
def checkPath (p : Bytes) : Bool := (p.length ≤ 1 || p.getLast? != some slash) && !dbl p

/-- `CHECK_RELATIVE_PATH` (tvar_group.cc:38-40) -/
def checkRel (p : Bytes) : Bool := checkPath p && p.head? != some slash

/-- `CHECK_ABSOLUTE_PATH` (tvar_group.cc:43-45) -/
def checkAbs (p : Bytes) : Bool := checkPath p && (p.isEmpty || p.head? == some slash)

/-- `SplitFirstPart` (tvar_group.cc:57-64) -/
def splitFirst (p : Bytes) : Bytes × Bytes := (p.takeWhile (· != slash), (p.dropWhile (· != slash)).drop 1)

/-- `SplitLastPart` (tvar_group.cc:48-54) -/
def splitLast (p : Bytes) : Bytes × Bytes :=
  if slash ∈ p then (((p.reverse.dropWhile (· != slash)).drop 1).reverse, (p.reverse.takeWhile (· != slash)).reverse) else ([], p)

theorem splitFirst_lt {p : Bytes} (h : p ≠ []) : (splitFirst p).2.length < p.length := by
  have h1 : (p.dropWhile (· != slash)).length ≤ p.length := (List.dropWhile_sublist _).length_le
  have h2 := List.length_pos_iff.mpr h
  simp only [splitFirst, List.length_drop]
  omega

/-- `Split` at slashes without empty parts -/
def pieces (p : Bytes) : List Bytes :=
  if h : p = [] then []
  else (if (splitFirst p).1 = [] then [] else [(splitFirst p).1]) ++ pieces (splitFirst p).2
termination_by p.length
decreasing_by exact splitFirst_lt h

/-- `JoinPath` (tvar_group.cc:83-94) -/
def joinPath (a b : Bytes) : Bytes :=
  let b := if b.getLast? = some slash then b.dropLast else b
  let a := if a.getLast? = some slash then a.dropLast else a
  if b = [] then a else a ++ slash :: b

abbrev Path := List Bytes

structure S where
  /-- groups, without the root -/
  node : Path → Bool
  leaf : Path → Bytes → Option Nat

def init : S := ⟨fun _ => false, fun _ _ => none⟩

/-- `AbsolutePath`: made when the group is created (tvar_group.cc:244-245) -/
def absPath (p : Path) : Bytes := p.foldl joinPath [slash]

/-- `FindLowest` (tvar_group.cc:215-233) without the check -/
def findLowest (s : S) (cur : Path) (rel : Bytes) : Path × Bytes :=
  if h : rel = [] then (cur, [])
  else if s.node (cur ++ [(splitFirst rel).1]) then findLowest s (cur ++ [(splitFirst rel).1]) (splitFirst rel).2
  else (cur, rel)
termination_by rel.length
decreasing_by exact splitFirst_lt h

inductive R (α : Type)
  | ok (a : α)
  /-- the name is taken -/
  | refused
  /-- an assertion on the form of a path fails, or an exception -/
  | bad

def addNode (s : S) (p : Path) : S := { s with node := fun q => q == p || s.node q }

/-- the loop of `CreateUpto` (tvar_group.cc:242-256) -/
def createLoop (s : S) (cur : Path) : List Bytes → S × R Path
  | [] => (s, .ok cur)
  | e :: es => if (s.leaf cur e).isSome then (s, .refused) else createLoop (addNode s (cur ++ [e])) (cur ++ [e]) es

/-- `CreateUpto` (tvar_group.cc:235-259) -/
def createUpto (s : S) (cur : Path) (rel : Bytes) : S × R Path :=
  if !checkRel rel then (s, .bad)
  else
    let f := findLowest s cur rel
    match createLoop s f.1 (pieces f.2) with
    | (s', .ok p) => if rel.isSuffixOf (absPath p) then (s', .ok p) else (s', .bad)
    | r => r

/-- `AddDirect` (tvar_group.cc:261-279) -/
def addDirect (s : S) (p : Path) (name : Bytes) (v : Nat) : S × R (Path × Bytes) :=
  if (s.leaf p name).isSome || s.node (p ++ [name]) then (s, .refused)
  else ({ s with leaf := fun q m => if q = p ∧ m = name then some v else s.leaf q m }, .ok (p, name))

/-- `Add` (tvar_group.cc:111-123) to the group `cur` -/
def add (s : S) (cur : Path) (rel : Bytes) (v : Nat) : S × R (Path × Bytes) :=
  if 0 ∈ rel then (s, .bad)
  else if !checkRel (esc rel) then (s, .bad)
  else
    match createUpto s cur (splitLast (esc rel)).1 with
    | (s', .ok p) => addDirect s' p (splitLast (esc rel)).2 v
    | (s', .refused) => (s', .refused)
    | (s', .bad) => (s', .bad)

/-- the handle is destroyed (tvar_group.cc:273-276). The second: the assertion holds. -/
def remove (s : S) (h : Path × Bytes) : S × Bool :=
  ({ s with leaf := fun q m => if q = h.1 ∧ m = h.2 then none else s.leaf q m }, (s.leaf h.1 h.2).isSome)

/-- `FindOrCreate` (tvar_group.cc:165-170); `substr(1)` of an empty string throws -/
def findOrCreate (s : S) (abs : Bytes) : S × R Path :=
  if 0 ∈ abs then (s, .bad)
  else if !checkAbs (esc abs) then (s, .bad)
  else if esc abs = [] then (s, .bad)
  else createUpto s [] ((esc abs).drop 1)

/-- What `TryGet` returns. -/
inductive Got
  | dump (p : Path)
  /-- the function of the leaf, and the rest of the path that it gets -/
  | leaf (v : Nat) (rest : Bytes)
  | nothing
  | bad
deriving DecidableEq

/-- `TryGet` (tvar_group.cc:172-199) -/
def tryGet (s : S) (abs : Bytes) : Got :=
  if 0 ∈ abs then .bad
  else if esc abs = [] then .bad
  else if !checkAbs (esc abs) then .bad
  else if esc abs = [slash] then .dump []
  else if !checkRel ((esc abs).drop 1) then .bad
  else
    let f := findLowest s [] ((esc abs).drop 1)
    if (splitFirst f.2).1 = [] then .dump f.1
    else
      match s.leaf f.1 (splitFirst f.2).1 with
      | some v => .leaf v (splitFirst f.2).2
      | none => .nothing

/-- What the handler does with the part of the URL after the prefix. -/
inductive Norm
  | illegal
  /-- `back()` of an empty string -/
  | undef
  | path (p : Bytes)
deriving DecidableEq

/-- `NormalizePath` and the check for `//` (stats_handler.cc:158-165, 183-197) -/
def normalize (u : Bytes) : Norm :=
  if dbl u then .illegal
  else
    match u.getLast? with
    | none => .undef
    | some c =>
      let p := if c = slash then u.dropLast else u
      .path (if p = [] then [slash] else p)

/-- Calls of users. Handles are used once. -/
inductive Step : S → List (Path × Bytes) → S → List (Path × Bytes) → Prop
  | create {s hs} (abs) : Step s hs (findOrCreate s abs).1 hs
  /-- `Add` to a group that exists, or to the root -/
  | added {s hs s' h} (cur rel v) (hc : cur = [] ∨ s.node cur = true) (he : add s cur rel v = (s', .ok h)) : Step s hs s' (h :: hs)
  | failed {s hs} (cur rel v) (hc : cur = [] ∨ s.node cur = true) (he : ∀ h, (add s cur rel v).2 ≠ .ok h) : Step s hs (add s cur rel v).1 hs
  | removed {s hs h} (hm : h ∈ hs) : Step s hs (remove s h).1 (hs.erase h)

inductive Reach : S → List (Path × Bytes) → Prop
  | init : Reach init []
  | step {s hs s' hs'} : Reach s hs → Step s hs s' hs' → Reach s' hs'

end Verif.Tvar.Group
