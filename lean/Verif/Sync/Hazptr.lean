import Verif.Common.Upd

/-!
# Hazard pointers

/repo/trpc/util/hazptr/entry.h, entry_cache.{h,cc}, hazptr.h, hazptr_domain.{h,cc}, hazptr_object.{h,cc}

Any number of `Hazptr`s (`hz`), of threads in functions of `HazptrDomain` (`wk`; the timer of a domain is one of them), of domains, objects and atomic pointers to objects, with interleavings of single accesses to memory that others may
access. Domain 0 is the default one. The two halves of the asymmetric barrier are the reason why the order of accesses is that of the program; here it is, everywhere.

* Objects are addresses; after `DestroySelf` an address may be used again. `Entry`s are numbered, they are never freed (hazptr_domain.h:75). Linked lists are lists: `next` of an entry, and `next_` of a retired object, are written before the entry or
  object is in the list and not changed while it is there.
* `sd` is the domain in which the objects of a source are retired, `dom` that of an object. What programs must do (hazptr_domain.h:37-39, hazptr_object.h:68-71) are the guards of `store`, `retire` and `keep`: an object is retired once, after no
  source has it, and is not put into a source again; and one domain is used for it.
* `strict`: `Hazptr`s are assigned only from ones of the same domain.
* `bad`: an object was used or destroyed after it was destroyed.
* Left out: `TRPC_CHECK`s, the deleters.
-/

namespace Verif.Sync.Hazptr

inductive Obj where
  | free
  | live
  | retired
deriving DecidableEq, Repr

/-- A `Hazptr`: does not exist (or was moved from); in its constructor, at an entry of the list (`GetEntry`, hazptr_domain.cc:35-45), before the second half of `TryAcquire` (entry.h:34-36), or before it puts a new entry into the list
(`GetEntrySlow`, hazptr_domain.cc:68-77); has an entry and keeps an object or nothing; in `Keep` and `TryKeep` (hazptr.h:68-89); in `reset` (hazptr.h:96-103). -/
inductive H where
  | off
  | walk (d : Nat) (l : List Nat)
  | xchg (d e : Nat) (l : List Nat)
  | slow (d e : Nat) (h : Option Nat)
  | has (d e : Nat) (p : Option Nat)
  | keep0 (d e s : Nat)
  | keep1 (d e s : Nat) (p : Option Nat)
  | keep2 (d e s : Nat) (p : Option Nat)
  | keep3 (d e s : Nat) (q : Option Nat)
  | fin (d e : Nat)
deriving DecidableEq, Repr

/-- Where `PushRetired` returns to. -/
inductive K where
  | retire
  | reclaim
  | sweep (kept cur : List Nat)
deriving DecidableEq, Repr

/-- A thread: elsewhere; in `PushRetired` (hazptr_domain.cc:79-84) with the head that it saw; about to count (`:55`); in `ReclaimBestEffort` (`:86-102`), about to take the list; in `GetKeptPointers` (`:104-126`), about to read the list of the
entries, `active` of the next one, `ptr` of one; in the loop over the objects. -/
inductive W where
  | idle
  | push (d p : Nat) (h : Option Nat) (k : K)
  | count (d : Nat)
  | take (d : Nat)
  | scan (d : Nat) (cur : List Nat)
  | scanA (d : Nat) (cur l kept : List Nat)
  | scanP (d : Nat) (cur : List Nat) (e : Nat) (l kept : List Nat)
  | sweep (d : Nat) (cur kept : List Nat)
deriving DecidableEq, Repr

structure S where
  obj : Nat → Obj
  dom : Nat → Nat
  src : Nat → Option Nat
  /-- entries: how many there are, `active`, `ptr` -/
  ne : Nat
  act : Nat → Bool
  ptr : Nat → Option Nat
  /-- domains: `hazptrs_`, `retired_`, `retire_call_count_` -/
  lst : Nat → List Nat
  ret : Nat → List Nat
  cnt : Nat → Nat
  /-- `EntryCache` of a thread -/
  cache : Nat → List Nat
  hz : Nat → H
  wk : Nat → W
  bad : Bool

def S.init : S := ⟨fun _ => .free, fun _ => 0, fun _ => none, 0, fun _ => false, fun _ => none, fun _ => [], fun _ => [], fun _ => 0, fun _ => [], fun _ => .off, fun _ => .idle, false⟩

/-- The `Hazptr` is now there. -/
def S.h (s : S) (i : Nat) (x : H) : S := { s with hz := upd s.hz i x }

/-- The thread is now there. -/
def S.w (s : S) (i : Nat) (x : W) : S := { s with wk := upd s.wk i x }

/-- `ExposePtr` (entry.h:47). -/
def S.expose (s : S) (e : Nat) (p : Option Nat) : S := { s with ptr := upd s.ptr e p }

def S.setAct (s : S) (e : Nat) (b : Bool) : S := { s with act := upd s.act e b }

def S.setObj (s : S) (p : Nat) (o : Obj) : S := { s with obj := upd s.obj p o }

def S.setCache (s : S) (t : Nat) (l : List Nat) : S := { s with cache := upd s.cache t l }

/-- `std::make_unique<Entry>()` and `TryAcquire` (hazptr_domain.cc:69, 71) -/
def S.fresh (s : S) : S := { s with ne := s.ne + 1, act := upd s.act s.ne true, ptr := upd s.ptr s.ne none }

def S.pushEntry (s : S) (d e : Nat) : S := { s with lst := upd s.lst d (e :: s.lst d) }

def S.setRet (s : S) (d : Nat) (l : List Nat) : S := { s with ret := upd s.ret d l }

def S.bump (s : S) (d : Nat) : S := { s with cnt := upd s.cnt d ((s.cnt d + 1) % 2 ^ 32) }

def S.mark (s : S) (b : Bool) : S := { s with bad := s.bad || b }

def S.setSrc (s : S) (c : Nat) (v : Option Nat) : S := { s with src := upd s.src c v }

def S.setDom (s : S) (p d : Nat) : S := { s with dom := upd s.dom p d }

/-- After `PushRetired`: `Retire` counts, `Reclaim` reclaims (hazptr_domain.cc:52-66), and the loop goes on (`:91-101`). -/
def K.next (d : Nat) : K → W
  | .retire => .count d
  | .reclaim => .take d
  | .sweep kept cur => .sweep d cur kept

inductive Step (sd : Nat → Nat) (strict : Bool) : S → S → Prop
  /-- The constructor of `Hazptr` (hazptr.h:41-45, entry_cache.h:47-52, 83-88): an entry of the cache of thread `t`, or the list. -/
  | cached {s : S} (i t e : Nat) (l : List Nat) (h : s.hz i = .off) (hc : s.cache t = e :: l) : Step sd strict s ((s.setCache t l).h i (.has 0 e none))
  | new {s : S} (i d : Nat) (h : s.hz i = .off) : Step sd strict s (s.h i (.walk d (s.lst d)))
  | busy {s : S} (i d e : Nat) (l : List Nat) (h : s.hz i = .walk d (e :: l)) (ha : s.act e = true) : Step sd strict s (s.h i (.walk d l))
  | idle {s : S} (i d e : Nat) (l : List Nat) (h : s.hz i = .walk d (e :: l)) (ha : s.act e = false) : Step sd strict s (s.h i (.xchg d e l))
  | lost {s : S} (i d e : Nat) (l : List Nat) (h : s.hz i = .xchg d e l) (ha : s.act e = true) : Step sd strict s (s.h i (.walk d l))
  | won {s : S} (i d e : Nat) (l : List Nat) (h : s.hz i = .xchg d e l) (ha : s.act e = false) : Step sd strict s ((s.setAct e true).h i (.has d e none))
  | make {s : S} (i d : Nat) (h : s.hz i = .walk d []) : Step sd strict s (s.fresh.h i (.slow d s.ne (s.lst d).head?))
  | link {s : S} (i d e : Nat) (h : s.hz i = .slow d e (s.lst d).head?) : Step sd strict s ((s.pushEntry d e).h i (.has d e none))
  | relink {s : S} (i d e : Nat) (o : Option Nat) (h : s.hz i = .slow d e o) : Step sd strict s (s.h i (.slow d e (s.lst d).head?))
  /-- `Keep`, `TryKeep` (hazptr.h:68-89): `try` is `TryKeep`, with any pointer. -/
  | keep {s : S} (i d e src : Nat) (p : Option Nat) (h : s.hz i = .has d e p) (hd : sd src = d) : Step sd strict s (s.h i (.keep0 d e src))
  | try {s : S} (i d e src : Nat) (p q : Option Nat) (h : s.hz i = .has d e p) (hd : sd src = d) : Step sd strict s (s.h i (.keep1 d e src q))
  | load {s : S} (i d e src : Nat) (h : s.hz i = .keep0 d e src) : Step sd strict s (s.h i (.keep1 d e src (s.src src)))
  | expose {s : S} (i d e src : Nat) (p : Option Nat) (h : s.hz i = .keep1 d e src p) : Step sd strict s ((s.expose e p).h i (.keep2 d e src p))
  | kept {s : S} (i d e src : Nat) (p : Option Nat) (h : s.hz i = .keep2 d e src p) (hp : s.src src = p) : Step sd strict s (s.h i (.has d e p))
  | differs {s : S} (i d e src : Nat) (p : Option Nat) (h : s.hz i = .keep2 d e src p) (hp : s.src src ≠ p) : Step sd strict s (s.h i (.keep3 d e src (s.src src)))
  | again {s : S} (i d e src : Nat) (q : Option Nat) (h : s.hz i = .keep3 d e src q) : Step sd strict s ((s.expose e none).h i (.keep1 d e src q))
  | failed {s : S} (i d e src : Nat) (q : Option Nat) (h : s.hz i = .keep3 d e src q) : Step sd strict s ((s.expose e none).h i (.has d e none))
  /-- The program uses what it keeps. -/
  | use {s : S} (i d e p : Nat) (h : s.hz i = .has d e (some p)) : Step sd strict s (s.mark (decide (s.obj p = .free)))
  /-- `clear` (hazptr.h:93), `reset` (hazptr.h:96-103): the entry goes into the cache of thread `t`, if there is room and it is the default domain, or back (entry_cache.h:56-62, 93-99; hazptr_domain.cc:47-50). -/
  | clear {s : S} (i d e : Nat) (p : Option Nat) (h : s.hz i = .has d e p) : Step sd strict s ((s.expose e none).h i (.has d e none))
  | reset {s : S} (i d e : Nat) (p : Option Nat) (h : s.hz i = .has d e p) : Step sd strict s ((s.expose e none).h i (.fin d e))
  | store {s : S} (i t e : Nat) (h : s.hz i = .fin 0 e) (hr : (s.cache t).length < 8) : Step sd strict s ((s.setCache t (e :: s.cache t)).h i .off)
  | release {s : S} (i d e : Nat) (h : s.hz i = .fin d e) : Step sd strict s ((s.setAct e false).h i .off)
  /-- The constructor that moves (hazptr.h:47-50), and `operator=` (hazptr.h:52-59), which does not copy `from_`, after the `reset` in it. -/
  | move {s : S} (i j d e : Nat) (p : Option Nat) (h : s.hz i = .has d e p) (hj : s.hz j = .off) : Step sd strict s ((s.h i .off).h j (.has d e p))
  | assign {s : S} (i j d d' e : Nat) (p : Option Nat) (h : s.hz i = .has d e p) (hj : s.hz j = .off) (hs : strict = true → d' = d) : Step sd strict s ((s.h i .off).h j (.has d' e p))
  /-- A thread ends. `~EntryCacheSlow` (entry_cache.cc:26-30) looks at a `current` of its own, which nothing has changed since the cache was empty. -/
  | exit {s : S} (t : Nat) : Step sd strict s (s.setCache t [])
  /-- The program makes an object, and stores it or nothing in a source. -/
  | alloc {s : S} (p d : Nat) (h : s.obj p = .free) : Step sd strict s ((s.setObj p .live).setDom p d)
  | set {s : S} (src p : Nat) (h : s.obj p = .live) (hd : s.dom p = sd src) : Step sd strict s (s.setSrc src (some p))
  | unset {s : S} (src : Nat) : Step sd strict s (s.setSrc src none)
  /-- `HazptrObject::Retire`, `Reclaim` (hazptr_object.h:72-83), to where `PushRetired` has read the head. -/
  | retire {s : S} (i p : Nat) (h : s.wk i = .idle) (hp : s.obj p = .live) (hs : ∀ src, s.src src ≠ some p) : Step sd strict s ((s.setObj p .retired).w i (.push (s.dom p) p (s.ret (s.dom p)).head? .retire))
  | reclaim {s : S} (i p : Nat) (h : s.wk i = .idle) (hp : s.obj p = .live) (hs : ∀ src, s.src src ≠ some p) : Step sd strict s ((s.setObj p .retired).w i (.push (s.dom p) p (s.ret (s.dom p)).head? .reclaim))
  | pushed {s : S} (i d p : Nat) (k : K) (h : s.wk i = .push d p (s.ret d).head? k) : Step sd strict s ((s.setRet d (p :: s.ret d)).w i (k.next d))
  | repush {s : S} (i d p : Nat) (o : Option Nat) (k : K) (h : s.wk i = .push d p o k) : Step sd strict s (s.w i (.push d p (s.ret d).head? k))
  | count {s : S} (i d : Nat) (h : s.wk i = .count d) : Step sd strict s ((s.bump d).w i (if s.cnt d &&& 127 = 0 then .take d else .idle))
  /-- The timer (hazptr_domain.cc:28-31). -/
  | timer {s : S} (i d : Nat) (h : s.wk i = .idle) : Step sd strict s (s.w i (.take d))
  | take {s : S} (i d : Nat) (h : s.wk i = .take d) : Step sd strict s ((s.setRet d []).w i (if s.ret d = [] then .idle else .scan d (s.ret d)))
  | scan {s : S} (i d : Nat) (cur : List Nat) (h : s.wk i = .scan d cur) : Step sd strict s (s.w i (.scanA d cur (s.lst d) []))
  | scanned {s : S} (i d : Nat) (cur kept : List Nat) (h : s.wk i = .scanA d cur [] kept) : Step sd strict s (s.w i (.sweep d cur kept))
  | skip {s : S} (i d e : Nat) (cur l kept : List Nat) (h : s.wk i = .scanA d cur (e :: l) kept) (ha : s.act e = false) : Step sd strict s (s.w i (.scanA d cur l kept))
  | look {s : S} (i d e : Nat) (cur l kept : List Nat) (h : s.wk i = .scanA d cur (e :: l) kept) (ha : s.act e = true) : Step sd strict s (s.w i (.scanP d cur e l kept))
  | seen {s : S} (i d e : Nat) (cur l kept : List Nat) (h : s.wk i = .scanP d cur e l kept) : Step sd strict s (s.w i (.scanA d cur l ((s.ptr e).toList ++ kept)))
  | spare {s : S} (i d p : Nat) (cur kept : List Nat) (h : s.wk i = .sweep d (p :: cur) kept) (hk : p ∈ kept) : Step sd strict s (s.w i (.push d p (s.ret d).head? (.sweep kept cur)))
  | destroy {s : S} (i d p : Nat) (cur kept : List Nat) (h : s.wk i = .sweep d (p :: cur) kept) (hk : p ∉ kept) :
      Step sd strict s ((S.mark (s.setObj p .free) (decide (s.obj p = .free))).w i (.sweep d cur kept))
  | done {s : S} (i d : Nat) (kept : List Nat) (h : s.wk i = .sweep d [] kept) : Step sd strict s (s.w i .idle)

/-- What can happen from the beginning. -/
inductive Reach (sd : Nat → Nat) (strict : Bool) : S → Prop
  | init : Reach sd strict S.init
  | step {s s' : S} (h : Reach sd strict s) (hs : Step sd strict s s') : Reach sd strict s'

end Verif.Sync.Hazptr
