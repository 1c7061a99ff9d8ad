import Verif.Common.Sum

/-!
# The TCP connection pool of the fiber transport

/repo/trpc/transport/client/fiber/conn_pool/fiber_tcp_conn_pool_connector_group.cc and fiber_tcp_conn_pool_connector.cc, connections that are kept (not the type for short connections, which uses each once)

* A connection and a call are their numbers. The stack of a shard is a list of connections, the last one of the list first here.
* Every critical section (`shard.lock`, `mutex_` of a connector) is one step.
* The server answers each request that expects an answer at most once, in order, and no others, unless `echo`: then it also answers one-way requests (as Redis does). `CallContext::lock` and timers: a context that is saved can time out, at any time.
* A call whose result is there before it has sent does not send any more.
* `SendRecv`, `AsyncSendRecv` and `SendRecvForBackupRequest` do the same steps: get a connection, save the context, send, and when the result is there, give the connection back (`Reclaim`). Streams (`CreateStream`) keep a connection as a call does and are left out.
* `long_conn_num_` has 32 bits: it wraps.
-/

namespace Verif.Transport.FiberPool

inductive Res where
  /-- the answer to the request of this call -/
  | ok (j : Nat)
  | timeout
  /-- "connector destroy", "network error." -/
  | net
  /-- a one-way call: no answer is expected -/
  | none
deriving DecidableEq, Repr

/-- `ret == 0` -/
def Res.good : Res → Bool
  | .ok _ => true
  | .none => true
  | _ => false

/-- Where a connection is: in the stack of its shard; with a call; closed, or about to be. -/
inductive Place where
  | pool
  | used (i : Nat)
  | gone
deriving DecidableEq, Repr

structure Conn where
  shard : Nat
  healthy : Bool
  /-- `cleanup_` -/
  cleanup : Bool
  ctx : Option Nat
  /-- requests that the server will answer, answers on their way -/
  srv : List Nat
  rsp : List Nat
  place : Place
deriving DecidableEq, Repr

/-- A call: looking for a connection (with as many tries left); has one; has saved its context; has sent; has given it back. -/
inductive Pc where
  | get (shard k : Nat)
  | have_ (c : Nat)
  | saved (c : Nat)
  | sent (c : Nat)
  | back
deriving DecidableEq, Repr

def Pc.conn : Pc → Option Nat
  | .have_ c => some c
  | .saved c => some c
  | .sent c => some c
  | _ => none

structure S where
  max : Nat
  per : Nat
  shards : List (List Nat)
  num : Nat
  conns : List Conn
  pcs : List Pc
  results : List (Nat × Res)
  /-- connections taken out of the pool because they could not be used (not in the code) -/
  stale : Nat
deriving Repr

/-- The constructor (:26-30): `ceil` of a quotient of integers. -/
def S.init (max shards : Nat) : S := ⟨max, max / shards, List.replicate shards [], 0, [], [], [], 0⟩

def S.pc (s : S) (i : Nat) (p : Pc) : S := { s with pcs := s.pcs.set i p }
def S.conn (s : S) (c : Nat) (k : Conn) : S := { s with conns := s.conns.set c k }
def S.stack (s : S) (n : Nat) (l : List Nat) : S := { s with shards := s.shards.set n l }
def S.res (s : S) (i : Nat) (r : Res) : S := { s with results := (i, r) :: s.results }
/-- a new connection -/
def S.add (s : S) (n i : Nat) : S := { s with conns := s.conns ++ [⟨n, true, false, none, [], [], .used i⟩] }
def S.out (s : S) : S := { s with stale := s.stale + 1 }
def wrap (n : Nat) : Nat := n % 2 ^ 32
/-- one less -/
def less (n : Nat) : Nat := if n = 0 then 2 ^ 32 - 1 else n - 1
def S.count (s : S) (n : Nat) : S := { s with num := wrap n }

/-- `CloseConnection` -/
def Conn.close (k : Conn) : Conn := { k with healthy := false, cleanup := true }
def Conn.go (k : Conn) (p : Place) : Conn := { k with place := p }
def Conn.setCtx (k : Conn) (x : Option Nat) : Conn := { k with ctx := x }
def Conn.net (k : Conn) (srv rsp : List Nat) : Conn := { k with srv := srv, rsp := rsp }

inductive Step (echo : Bool) : S → S → Prop
  /-- `GetOrCreate` (:191-249), `shard_id_gen_` -/
  | start {s : S} (n : Nat) (h : n < s.shards.length) : Step echo s { s with pcs := s.pcs ++ [.get n 3] }
  | take {s : S} (i n k c : Nat) (l : List Nat) (q : Conn) (hp : s.pcs[i]? = some (.get n (k + 1))) (hl : s.shards[n]? = some (c :: l)) (hc : s.conns[c]? = some q) (hh : q.healthy = true) :
      Step echo s (((s.stack n l).conn c (q.go (.used i))).pc i (.have_ c))
  /-- it is not healthy, or idle for too long: it is closed -/
  | stale {s : S} (i n k c : Nat) (l : List Nat) (q : Conn) (hp : s.pcs[i]? = some (.get n (k + 1))) (hl : s.shards[n]? = some (c :: l)) (hc : s.conns[c]? = some q) :
      Step echo s (((s.stack n l).conn c (q.close.go .gone)).pc i (.get n k)).out
  | create {s : S} (i n k : Nat) (hp : s.pcs[i]? = some (.get n k)) (hl : k = 0 ∨ s.shards[n]? = some []) :
      Step echo s (((s.add n i).pc i (.have_ s.conns.length)).count (s.num + 1))
  | fail {s : S} (i n k : Nat) (hp : s.pcs[i]? = some (.get n k)) (hl : k = 0 ∨ s.shards[n]? = some []) : Step echo s ((s.pc i .back).res i .net)
  /-- `SaveCallContext` (.cc:276-301): the test is made at some time before -/
  | save {s : S} (i c : Nat) (q : Conn) (hp : s.pcs[i]? = some (.have_ c)) (hc : s.conns[c]? = some q) : Step echo s ((s.conn c (q.setCtx (some i))).pc i (.saved c))
  | refuse {s : S} (i c : Nat) (q : Conn) (hp : s.pcs[i]? = some (.have_ c)) (hc : s.conns[c]? = some q) (hh : q.healthy = false) : Step echo s ((s.pc i (.sent c)).res i .net)
  /-- `Send` (.cc:197-222): the connection takes it, or does not -/
  | send {s : S} (i c : Nat) (q : Conn) (b : Bool) (hp : s.pcs[i]? = some (.saved c)) (hc : s.conns[c]? = some q) : Step echo s ((s.conn c (q.net (if b then q.srv ++ [i] else q.srv) q.rsp)).pc i (.sent c))
  /-- `SendOnly` (:124-137): the connection goes back at once, see `back` -/
  | oneway {s : S} (i c : Nat) (q : Conn) (b : Bool) (hp : s.pcs[i]? = some (.have_ c)) (hc : s.conns[c]? = some q) : Step echo s (((s.conn c (q.net (if b && echo then q.srv ++ [i] else q.srv) q.rsp)).pc i (.sent c)).res i .none)
  | answer {s : S} (c j : Nat) (r : List Nat) (q : Conn) (hc : s.conns[c]? = some q) (h : q.srv = j :: r) : Step echo s (s.conn c (q.net r (q.rsp ++ [j])))
  /-- `MessageHandleFunction` (.cc:224-274) -/
  | receive {s : S} (c j i : Nat) (r : List Nat) (q : Conn) (hc : s.conns[c]? = some q) (h : q.rsp = j :: r) (hx : q.ctx = some i) : Step echo s ((s.conn c ((q.net q.srv r).setCtx none)).res i (.ok j))
  /-- no context, or an answer that is no message: the connection is closed -/
  | drop {s : S} (c j : Nat) (r : List Nat) (q : Conn) (hc : s.conns[c]? = some q) (h : q.rsp = j :: r) : Step echo s (s.conn c (q.net q.srv r).close)
  /-- `OnTimeout` (.cc:308-312) -/
  | timeout {s : S} (c i : Nat) (q : Conn) (hc : s.conns[c]? = some q) (hx : q.ctx = some i) : Step echo s ((s.conn c (q.setCtx none)).res i .timeout)
  /-- the peer closes it, or it asked to be closed after an answer: `ConnectionCleanFunction` (.cc:126-138) -/
  | ended {s : S} (c : Nat) (q : Conn) (hc : s.conns[c]? = some q) : Step echo s (s.conn c q.close)
  /-- `ClearReqMsg` (.cc:167-172) -/
  | clear {s : S} (c i : Nat) (q : Conn) (hc : s.conns[c]? = some q) (hu : q.cleanup = true) (hx : q.ctx = some i) : Step echo s ((s.conn c (q.setCtx none)).res i .net)
  /-- `Reclaim` (:251-271) -/
  | back {s : S} (i c : Nat) (q : Conn) (r : Res) (hp : s.pcs[i]? = some (.sent c) ∨ s.pcs[i]? = some (.saved c)) (hc : s.conns[c]? = some q) (hr : (i, r) ∈ s.results) (l : List Nat) (hl : s.shards[q.shard]? = some l) :
      Step echo s (if r.good = true ∧ l.length ≤ s.per ∧ s.num ≤ s.max then ((s.stack q.shard (c :: l)).conn c (q.go .pool)).pc i .back
        else ((s.conn c (q.close.go .gone)).pc i .back).count (less s.num))

inductive Reach (echo : Bool) (max shards : Nat) : S → Prop
  | init : Reach echo max shards (.init max shards)
  | step {s s' : S} (h : Reach echo max shards s) (hs : Step echo s s') : Reach echo max shards s'

/-! ## Invariant -/

/-- A connection that call `i` has. -/
def Mine (pcs : List Pc) (results : List (Nat × Res)) (c : Nat) (q : Conn) (i : Nat) : Prop :=
  (pcs[i]? = some (.have_ c) ∧ q.ctx = none ∧ q.srv ++ q.rsp = [] ∧ i ∉ results.map Prod.fst) ∨
  (pcs[i]? = some (.saved c) ∧ q.srv ++ q.rsp = [] ∧ ((q.ctx = some i ∧ i ∉ results.map Prod.fst) ∨ (q.ctx = none ∧ ∃ r, (i, r) ∈ results ∧ r.good = false))) ∨
  (pcs[i]? = some (.sent c) ∧ (q.srv ++ q.rsp = [] ∨ q.srv ++ q.rsp = [i]) ∧
    ((q.ctx = some i ∧ i ∉ results.map Prod.fst) ∨ (q.ctx = none ∧ ∃ r, (i, r) ∈ results ∧ (r.good = true → q.srv ++ q.rsp = []))))

def CI (shards : List (List Nat)) (pcs : List Pc) (results : List (Nat × Res)) (c : Nat) (q : Conn) : Prop :=
  match q.place with
  | .pool => q.ctx = none ∧ q.srv ++ q.rsp = [] ∧ ∃ l, shards[q.shard]? = some l ∧ c ∈ l
  | .used i => Mine pcs results c q i
  | .gone => q.ctx = none

structure Inv (s : S) : Prop where
  conn : ∀ c q, s.conns[c]? = some q → CI s.shards s.pcs s.results c q
  pcs : ∀ (i : Nat) p c, s.pcs[i]? = some p → p.conn = some c → ∃ q, s.conns[c]? = some q ∧ q.place = .used i
  new : ∀ i, i ∈ s.results.map Prod.fst → ∃ p, s.pcs[i]? = some p ∧ ∀ n k, p ≠ .get n k
  nd : (s.results.map Prod.fst).Nodup
  ok : ∀ i j, (i, Res.ok j) ∈ s.results → i = j
  stk : ∀ (n : Nat) l, s.shards[n]? = some l → l.Nodup ∧ l.length ≤ s.per + 1 ∧ ∀ c ∈ l, ∃ q, s.conns[c]? = some q ∧ q.place = .pool ∧ q.shard = n

theorem Mine.pc {pcs : List Pc} {results : List (Nat × Res)} {c : Nat} {q : Conn} {i : Nat} (h : Mine pcs results c q i) : ∃ p, pcs[i]? = some p ∧ p.conn = some c := by
  rcases h with ⟨h, _⟩ | ⟨h, _⟩ | ⟨h, _⟩ <;> exact ⟨_, h, rfl⟩

theorem Mine.congr {pcs pcs' : List Pc} {results results' : List (Nat × Res)} {c : Nat} {q : Conn} {i : Nat} (h : Mine pcs results c q i) (hp : pcs'[i]? = pcs[i]?) (hr : ∀ r, (i, r) ∈ results' ↔ (i, r) ∈ results) : Mine pcs' results' c q i := by
  have e : i ∈ results'.map Prod.fst ↔ i ∈ results.map Prod.fst := by simp [hr]
  simp only [Mine, hp, e, hr] at h ⊢
  exact h

/-- One call and one connection change. -/
structure Frame (s s' : S) (i c : Nat) : Prop where
  per : s'.per = s.per
  pcs : ∀ k, k ≠ i → s'.pcs[k]? = s.pcs[k]?
  res : ∀ k r, k ≠ i → ((k, r) ∈ s'.results ↔ (k, r) ∈ s.results)
  conns : ∀ d, d ≠ c → s'.conns[d]? = s.conns[d]?
  shards : ∀ (d n : Nat) (l : List Nat), d ≠ c → s.shards[n]? = some l → d ∈ l → ∃ l', s'.shards[n]? = some l' ∧ d ∈ l'
  free : ∀ p d, s.pcs[i]? = some p → p.conn = some d → d = c

theorem Inv.act {s s' : S} {i c : Nat} (v : Inv s) (f : Frame s s' i c) {q' : Conn} (hq : s'.conns[c]? = some q')
    (hci : CI s'.shards s'.pcs s'.results c q') (hother : ∀ j, j ≠ i → q'.place ≠ .used j → ∀ p, s.pcs[j]? = some p → p.conn ≠ some c)
    (hp : ∀ p d, s'.pcs[i]? = some p → p.conn = some d → d = c ∧ q'.place = .used i)
    (hnew : i ∈ s'.results.map Prod.fst → ∃ p, s'.pcs[i]? = some p ∧ ∀ n k, p ≠ .get n k)
    (hnd : (s'.results.map Prod.fst).Nodup)
    (hok : ∀ j, (i, Res.ok j) ∈ s'.results → i = j)
    (hstk : ∀ (n : Nat) l, s'.shards[n]? = some l → l.Nodup ∧ l.length ≤ s.per + 1 ∧ ∀ d ∈ l, ∃ q, s'.conns[d]? = some q ∧ q.place = .pool ∧ q.shard = n) : Inv s' := by
  refine ⟨?_, ?_, ?_, hnd, ?_, by rw [f.per]; exact hstk⟩
  · intro d q hd
    by_cases e : d = c
    · subst e; rw [hq] at hd; cases hd; exact hci
    · rw [f.conns d e] at hd
      have := v.conn d q hd
      unfold CI at this ⊢
      cases hpl : q.place with
      | pool =>
        simp only [hpl] at this ⊢
        obtain ⟨h1, h2, l, h3, h4⟩ := this
        obtain ⟨l', h5, h6⟩ := f.shards d _ l e h3 h4
        exact ⟨h1, h2, l', h5, h6⟩
      | used j =>
        simp only [hpl] at this ⊢
        have hne : j ≠ i := by
          intro hj
          subst hj
          obtain ⟨p, h1, h2⟩ := this.pc
          exact e (f.free p d h1 h2)
        exact this.congr (f.pcs j hne) (fun r => f.res j r hne)
      | gone => simpa only [hpl] using this
  · intro j p d hj hd
    by_cases e : j = i
    · subst e
      obtain ⟨rfl, h⟩ := hp p d hj hd
      exact ⟨q', hq, h⟩
    · rw [f.pcs j e] at hj
      obtain ⟨q, h1, h2⟩ := v.pcs j p d hj hd
      by_cases e' : d = c
      · subst e'
        refine ⟨q', hq, ?_⟩
        by_cases e2 : q'.place = .used j
        · exact e2
        · exact absurd hd (hother j e e2 p hj)
      · exact ⟨q, by rw [f.conns d e']; exact h1, h2⟩
  · intro j hj
    by_cases e : j = i
    · subst e; exact hnew hj
    · rw [f.pcs j e]
      refine v.new j ?_
      obtain ⟨⟨k, r⟩, h1, h2⟩ := List.mem_map.1 hj
      simp only at h2
      subst h2
      exact List.mem_map.2 ⟨(k, r), (f.res k r e).1 h1, rfl⟩
  · intro j k hj
    by_cases e : j = i
    · subst e; exact hok k hj
    · exact v.ok j k ((f.res j _ e).1 hj)

/-- Only the connection changes, and stays where it is. -/
theorem Inv.still {s : S} {c : Nat} {q q' : Conn} (v : Inv s) (hc : s.conns[c]? = some q) (h1 : q'.place = q.place) (h2 : q'.shard = q.shard) (hci : CI s.shards s.pcs s.results c q') : Inv (s.conn c q') := by
  have hlt : c < s.conns.length := (List.getElem?_eq_some_iff.1 hc).1
  have hget : ∀ (d : Nat) k, s.conns[d]? = some k → ∃ k', (s.conns.set c q')[d]? = some k' ∧ k'.place = k.place ∧ k'.shard = k.shard := by
    intro d k hk
    rw [List.getElem?_set]
    by_cases e : c = d
    · subst e
      rw [hc] at hk; cases hk
      exact ⟨q', by simp [hlt], h1, h2⟩
    · exact ⟨k, by rw [if_neg e]; exact hk, rfl, rfl⟩
  refine ⟨?_, ?_, v.new, v.nd, v.ok, ?_⟩
  · intro d k hk
    simp only [S.conn] at hk ⊢
    rw [List.getElem?_set] at hk
    by_cases e : c = d
    · subst e; simp [hlt] at hk; subst hk; exact hci
    · rw [if_neg e] at hk; exact v.conn d k hk
  · intro i p d hp hd
    obtain ⟨k, h3, h4⟩ := v.pcs i p d hp hd
    obtain ⟨k', h5, h6, _⟩ := hget d k h3
    exact ⟨k', h5, h6.trans h4⟩
  · intro n l hl
    obtain ⟨h3, h4, h5⟩ := v.stk n l hl
    refine ⟨h3, h4, fun d hd => ?_⟩
    obtain ⟨k, h6, h7, h8⟩ := h5 d hd
    obtain ⟨k', h9, h10, h11⟩ := hget d k h6
    exact ⟨k', h9, h10.trans h7, h11.trans h8⟩

/-- A call does something with its connection. -/
theorem Inv.mine {s s' : S} {i c : Nat} {q q' : Conn} {p p' : Pc} (v : Inv s) (hp : s.pcs[i]? = some p) (hpc : p.conn = some c) (hc : s.conns[c]? = some q)
    (e1 : s'.per = s.per) (e2 : s'.shards = s.shards) (e3 : s'.conns = s.conns.set c q') (hpl : q'.place = .used i)
    (e4 : s'.pcs = s.pcs.set i p') (hpc' : p'.conn = some c)
    (e5 : s'.results = s.results ∨ (i ∉ s.results.map Prod.fst ∧ ∃ r, s'.results = (i, r) :: s.results ∧ ∀ j, r = .ok j → i = j))
    (hm : Mine s'.pcs s'.results c q' i) : Inv s' := by
  have hlt : c < s.conns.length := (List.getElem?_eq_some_iff.1 hc).1
  have hli : i < s.pcs.length := (List.getElem?_eq_some_iff.1 hp).1
  obtain ⟨q0, hq0, hq1⟩ := v.pcs i p c hp hpc
  rw [hc] at hq0
  cases hq0
  refine v.act (i := i) (c := c) (q' := q') ?_ (by rw [e3]; simp [hlt]) (by unfold CI; simp only [hpl]; exact hm) ?_ ?_ ?_ ?_ ?_ ?_
  · refine ⟨e1, ?_, ?_, ?_, ?_, ?_⟩
    · intro k hk; rw [e4, List.getElem?_set_ne (Ne.symm hk)]
    · intro k r hk
      rcases e5 with e5 | ⟨_, r', e5, _⟩ <;> rw [e5]
      simp [hk]
    · intro d hd; rw [e3, List.getElem?_set_ne (Ne.symm hd)]
    · intro d n l _ h1 h2; exact ⟨l, by rw [e2]; exact h1, h2⟩
    · intro p2 d h1 h2; rw [hp] at h1; cases h1; rw [hpc] at h2; cases h2; rfl
  · intro j hj hne p2 h1 h2
    obtain ⟨q2, h3, h4⟩ := v.pcs j p2 c h1 h2
    rw [hc] at h3
    cases h3
    rw [hq1] at h4
    cases h4
    exact hj rfl
  · intro p2 d h1 h2
    rw [e4] at h1
    simp [hli] at h1
    subst h1
    rw [hpc'] at h2
    cases h2
    exact ⟨rfl, hpl⟩
  · intro _
    refine ⟨p', by rw [e4]; simp [hli], ?_⟩
    intro n k e
    rw [e] at hpc'
    cases hpc'
  · rcases e5 with e5 | ⟨h1, r', e5, _⟩ <;> rw [e5]
    · exact v.nd
    · exact List.nodup_cons.2 ⟨h1, v.nd⟩
  · intro j hj
    rcases e5 with e5 | ⟨h1, r', e5, h2⟩ <;> rw [e5] at hj
    · exact v.ok i j hj
    · simp only [List.mem_cons, Prod.mk.injEq, true_and] at hj
      rcases hj with h | h
      · exact h2 j h.symm
      · exact v.ok i j h
  · intro n l hl
    rw [e2] at hl
    obtain ⟨h3, h4, h5⟩ := v.stk n l hl
    refine ⟨h3, h4, fun d hd => ?_⟩
    obtain ⟨k, h6, h7, h8⟩ := h5 d hd
    refine ⟨k, ?_, h7, h8⟩
    rw [e3, List.getElem?_set_ne]
    · exact h6
    · intro e
      subst e
      rw [hc] at h6
      cases h6
      rw [hq1] at h7
      cases h7

/-- Whose context it is. -/
theorem Inv.ctx {s : S} {c i : Nat} {q : Conn} (v : Inv s) (hc : s.conns[c]? = some q) (hx : q.ctx = some i) : q.place = .used i ∧ Mine s.pcs s.results c q i ∧ i ∉ s.results.map Prod.fst := by
  have := v.conn c q hc
  unfold CI at this
  cases hpl : q.place with
  | pool => simp only [hpl] at this; rw [hx] at this; cases this.1
  | gone => simp only [hpl] at this; rw [hx] at this; cases this
  | used j =>
    simp only [hpl] at this
    have h := this
    rcases this with ⟨_, h1, _⟩ | ⟨_, _, ⟨h1, h2⟩ | ⟨h1, _⟩⟩ | ⟨_, _, ⟨h1, h2⟩ | ⟨h1, _⟩⟩ <;> rw [hx] at h1 <;> cases h1
    · exact ⟨rfl, h, h2⟩
    · exact ⟨rfl, h, h2⟩

theorem set_same {α : Type} {l : List α} {i : Nat} {x : α} (h : l[i]? = some x) : l.set i x = l := by
  apply List.ext_getElem?
  intro j
  rw [List.getElem?_set]
  split
  · rename_i e; subst e; rw [h]; simp [(List.getElem?_eq_some_iff.1 h).1]
  · rfl

/-- The result of a call that waits. -/
theorem Inv.result {s s' : S} {c i : Nat} {q q' : Conn} {r : Res} (v : Inv s) (hc : s.conns[c]? = some q) (hx : q.ctx = some i)
    (e1 : s'.per = s.per) (e2 : s'.shards = s.shards) (e3 : s'.conns = s.conns.set c q') (e4 : s'.pcs = s.pcs) (e5 : s'.results = (i, r) :: s.results)
    (h1 : q'.place = q.place) (h2 : q'.ctx = none) (h3 : ∀ j, r = .ok j → i = j) (h4 : q'.srv ++ q'.rsp = [] ∨ (q'.srv ++ q'.rsp = q.srv ++ q.rsp ∧ r.good = false)) (h5 : ∀ p, s.pcs[i]? = some p → r.good = true → ∃ c, p = .sent c) : Inv s' := by
  obtain ⟨hp1, hp2, hp3⟩ := v.ctx hc hx
  obtain ⟨p, hp, hpc⟩ := hp2.pc
  refine v.mine hp hpc hc e1 e2 e3 (h1.trans hp1) (p' := p) (by rw [e4, set_same hp]) hpc (.inr ⟨hp3, r, e5, h3⟩) ?_
  rw [e4, e5]
  rcases hp2 with ⟨_, h, _⟩ | ⟨a, b, _⟩ | ⟨a, b, _⟩
  · rw [hx] at h; cases h
  · have hb : r.good = false := by
      cases hg : r.good
      · rfl
      · obtain ⟨c', h⟩ := h5 _ a hg; cases h
    refine .inr (.inl ⟨a, ?_, .inr ⟨h2, r, List.mem_cons_self, hb⟩⟩)
    rcases h4 with h | ⟨h, _⟩
    · exact h
    · rw [h]; exact b
  · refine .inr (.inr ⟨a, ?_, .inr ⟨h2, r, List.mem_cons_self, ?_⟩⟩)
    · rcases h4 with h | ⟨h, _⟩
      · exact .inl h
      · rw [h]; exact b
    · intro hg
      rcases h4 with h | ⟨_, h⟩
      · exact h
      · rw [h] at hg; cases hg

theorem result_fun {l : List (Nat × Res)} (h : (l.map Prod.fst).Nodup) {i : Nat} {r r' : Res} (h1 : (i, r) ∈ l) (h2 : (i, r') ∈ l) : r = r' := by
  induction l with
  | nil => cases h1
  | cons x l ih =>
    simp only [List.map_cons, List.nodup_cons] at h
    simp only [List.mem_cons] at h1 h2
    rcases h1 with rfl | h1 <;> rcases h2 with h2 | h2
    · simpa using h2.symm
    · exact absurd (List.mem_map.2 ⟨_, h2, rfl⟩) h.1
    · subst h2; exact absurd (List.mem_map.2 ⟨_, h1, rfl⟩) h.1
    · exact ih h.2 h1 h2

theorem set_stack {ss : List (List Nat)} {n m : Nat} {l l' : List Nat} (h : (ss.set n l)[m]? = some l') : (m = n ∧ l' = l) ∨ (m ≠ n ∧ ss[m]? = some l') := by
  rw [List.getElem?_set] at h
  split at h
  · rename_i e
    split at h
    · exact .inl ⟨e.symm, by simpa using h.symm⟩
    · cases h
  · rename_i e; exact .inr ⟨fun e' => e e'.symm, h⟩

/-- A connection is taken from the stack of a shard. -/
theorem Inv.pop {s s' : S} {i n k c : Nat} {l : List Nat} {q q' : Conn} {p' : Pc} (v : Inv s) (hp : s.pcs[i]? = some (.get n k)) (hl : s.shards[n]? = some (c :: l)) (hc : s.conns[c]? = some q)
    (e1 : s'.per = s.per) (e2 : s'.shards = s.shards.set n l) (e3 : s'.conns = s.conns.set c q') (e4 : s'.pcs = s.pcs.set i p') (e5 : s'.results = s.results)
    (hx : q'.ctx = q.ctx ∧ q'.srv = q.srv ∧ q'.rsp = q.rsp)
    (hk : (q'.place = .used i ∧ p' = .have_ c) ∨ (q'.place = .gone ∧ ∃ k', p' = .get n k')) : Inv s' := by
  have hlt : c < s.conns.length := (List.getElem?_eq_some_iff.1 hc).1
  have hli : i < s.pcs.length := (List.getElem?_eq_some_iff.1 hp).1
  have hln : n < s.shards.length := (List.getElem?_eq_some_iff.1 hl).1
  obtain ⟨s1, s2, s3⟩ := v.stk n _ hl
  obtain ⟨q0, hq0, hq1, hq2⟩ := s3 c List.mem_cons_self
  rw [hc] at hq0
  cases hq0
  have ci := v.conn c q hc
  unfold CI at ci
  simp only [hq1] at ci
  have hni : i ∉ s.results.map Prod.fst := by
    intro h
    obtain ⟨p, h1, h2⟩ := v.new i h
    rw [hp] at h1
    cases h1
    exact h2 _ _ rfl
  refine v.act (i := i) (c := c) (q' := q') ?_ (by rw [e3]; simp [hlt]) ?_ ?_ ?_ ?_ ?_ ?_ ?_
  · refine ⟨e1, ?_, by rw [e5]; simp, ?_, ?_, ?_⟩
    · intro k hk; rw [e4, List.getElem?_set_ne (Ne.symm hk)]
    · intro d hd; rw [e3, List.getElem?_set_ne (Ne.symm hd)]
    · intro d m l2 hd h1 h2
      rw [e2, List.getElem?_set]
      by_cases e : n = m
      · subst e
        rw [hl] at h1
        cases h1
        simp only [List.mem_cons] at h2
        exact ⟨l, by simp [hln], h2.resolve_left hd⟩
      · exact ⟨l2, by rw [if_neg e]; exact h1, h2⟩
    · intro p2 d h1 h2; rw [hp] at h1; cases h1; cases h2
  · unfold CI
    rcases hk with ⟨hk1, hk2⟩ | ⟨hk1, _⟩
    · simp only [hk1]
      refine .inl ⟨by rw [e4, hk2]; simp [hli], hx.1.trans ci.1, by rw [hx.2.1, hx.2.2]; exact ci.2.1, by rw [e5]; exact hni⟩
    · simp only [hk1]; exact hx.1.trans ci.1
  · intro j hj hne p2 h1 h2
    obtain ⟨q2, h3, h4⟩ := v.pcs j p2 c h1 h2
    rw [hc] at h3
    cases h3
    rw [hq1] at h4
    cases h4
  · intro p2 d h1 h2
    rw [e4] at h1
    simp [hli] at h1
    subst h1
    rcases hk with ⟨hk1, hk2⟩ | ⟨hk1, k', hk2⟩
    · rw [hk2] at h2; cases h2; exact ⟨rfl, hk1⟩
    · rw [hk2] at h2; cases h2
  · intro h; rw [e5] at h; exact absurd h hni
  · rw [e5]; exact v.nd
  · rw [e5]; exact fun j hj => v.ok i j hj
  · intro m l2 hm
    rw [e2] at hm
    have keep : ∀ d ∈ l2, d ≠ c → (∃ q, s.conns[d]? = some q ∧ q.place = .pool ∧ q.shard = m) → ∃ q, s'.conns[d]? = some q ∧ q.place = .pool ∧ q.shard = m := by
      intro d _ hd ⟨k, h1, h2⟩
      exact ⟨k, by rw [e3, List.getElem?_set_ne (Ne.symm hd)]; exact h1, h2⟩
    rcases set_stack hm with ⟨rfl, rfl⟩ | ⟨hne, hm⟩
    · simp only [List.nodup_cons, List.length_cons] at s1 s2
      refine ⟨s1.2, by omega, fun d hd => keep d hd ?_ (s3 d (List.mem_cons_of_mem _ hd))⟩
      intro e; subst e; exact s1.1 hd
    · obtain ⟨t1, t2, t3⟩ := v.stk m l2 hm
      refine ⟨t1, t2, fun d hd => keep d hd ?_ (t3 d hd)⟩
      intro e
      subst e
      obtain ⟨k, h1, _, h2⟩ := t3 d hd
      rw [hc] at h1
      cases h1
      exact hne (h2.symm.trans hq2)

/-- A call gives its connection back. -/
theorem Inv.give {s s' : S} {i c : Nat} {q q' : Conn} {p : Pc} {r : Res} (v : Inv s) (hp : s.pcs[i]? = some p) (hpc : p.conn = some c) (hc : s.conns[c]? = some q) (hr : (i, r) ∈ s.results)
    (e1 : s'.per = s.per) (e3 : s'.conns = s.conns.set c q') (e4 : s'.pcs = s.pcs.set i .back) (e5 : s'.results = s.results)
    (hx : q'.ctx = q.ctx ∧ q'.srv = q.srv ∧ q'.rsp = q.rsp ∧ q'.shard = q.shard)
    (hk : (q'.place = .gone ∧ s'.shards = s.shards) ∨ (q'.place = .pool ∧ r.good = true ∧ ∃ l, s.shards[q.shard]? = some l ∧ l.length ≤ s.per ∧ s'.shards = s.shards.set q.shard (c :: l))) : Inv s' := by
  have hlt : c < s.conns.length := (List.getElem?_eq_some_iff.1 hc).1
  have hli : i < s.pcs.length := (List.getElem?_eq_some_iff.1 hp).1
  obtain ⟨q0, hq0, hq1⟩ := v.pcs i p c hp hpc
  rw [hc] at hq0
  cases hq0
  have ci := v.conn c q hc
  unfold CI at ci
  simp only [hq1] at ci
  have hin : i ∈ s.results.map Prod.fst := List.mem_map.2 ⟨_, hr, rfl⟩
  have hm : q.ctx = none ∧ (r.good = true → q.srv ++ q.rsp = []) := by
    rcases ci with ⟨_, _, _, h⟩ | ⟨_, _, ⟨_, h⟩ | ⟨h, r', h1, h2⟩⟩ | ⟨_, _, ⟨_, h⟩ | ⟨h, r', h1, h2⟩⟩
    · exact absurd hin h
    · exact absurd hin h
    · rw [result_fun v.nd hr h1]; exact ⟨h, fun h' => by rw [h2] at h'; cases h'⟩
    · exact absurd hin h
    · rw [result_fun v.nd hr h1]; exact ⟨h, h2⟩
  have nostk : ∀ (m : Nat) l2, s.shards[m]? = some l2 → c ∉ l2 := by
    intro m l2 h1 h2
    obtain ⟨k, h3, h4, _⟩ := (v.stk m l2 h1).2.2 c h2
    rw [hc] at h3
    cases h3
    rw [hq1] at h4
    cases h4
  refine v.act (i := i) (c := c) (q' := q') ?_ (by rw [e3]; simp [hlt]) ?_ ?_ ?_ ?_ ?_ ?_ ?_
  · refine ⟨e1, ?_, by rw [e5]; simp, ?_, ?_, ?_⟩
    · intro k hk; rw [e4, List.getElem?_set_ne (Ne.symm hk)]
    · intro d hd; rw [e3, List.getElem?_set_ne (Ne.symm hd)]
    · intro d m l2 hd h1 h2
      rcases hk with ⟨_, hk⟩ | ⟨_, _, l, hl, _, hk⟩
      · exact ⟨l2, by rw [hk]; exact h1, h2⟩
      · rw [hk, List.getElem?_set]
        by_cases e : q.shard = m
        · subst e
          have e2 : l = l2 := by rw [hl] at h1; simpa using h1
          rw [← e2] at h2
          exact ⟨c :: l, by simp [(List.getElem?_eq_some_iff.1 hl).1], List.mem_cons_of_mem _ h2⟩
        · exact ⟨l2, by rw [if_neg e]; exact h1, h2⟩
    · intro p2 d h1 h2; rw [hp] at h1; cases h1; rw [hpc] at h2; cases h2; rfl
  · unfold CI
    rcases hk with ⟨hk1, _⟩ | ⟨hk1, hg, l, hl, _, hk2⟩
    · simp only [hk1]; exact hx.1.trans hm.1
    · simp only [hk1]
      refine ⟨hx.1.trans hm.1, by rw [hx.2.1, hx.2.2.1]; exact hm.2 hg, c :: l, ?_, List.mem_cons_self⟩
      rw [hk2, hx.2.2.2]
      simp [(List.getElem?_eq_some_iff.1 hl).1]
  · intro j hj hne p2 h1 h2
    obtain ⟨q2, h3, h4⟩ := v.pcs j p2 c h1 h2
    rw [hc] at h3
    cases h3
    rw [hq1] at h4
    cases h4
    exact hj rfl
  · intro p2 d h1 h2
    rw [e4] at h1
    simp [hli] at h1
    subst h1
    cases h2
  · intro _
    exact ⟨.back, by rw [e4]; simp [hli], by simp⟩
  · rw [e5]; exact v.nd
  · rw [e5]; exact fun j hj => v.ok i j hj
  · intro m l2 hm2
    have keep : ∀ d, d ≠ c → (∃ q, s.conns[d]? = some q ∧ q.place = .pool ∧ q.shard = m) → ∃ q, s'.conns[d]? = some q ∧ q.place = .pool ∧ q.shard = m := by
      intro d hd ⟨k, h1, h2⟩
      exact ⟨k, by rw [e3, List.getElem?_set_ne (Ne.symm hd)]; exact h1, h2⟩
    rcases hk with ⟨_, hk⟩ | ⟨hk1, _, l, hl, hlen, hk⟩
    · rw [hk] at hm2
      obtain ⟨t1, t2, t3⟩ := v.stk m l2 hm2
      exact ⟨t1, t2, fun d hd => keep d (fun e => nostk m l2 hm2 (e ▸ hd)) (t3 d hd)⟩
    · rw [hk] at hm2
      rcases set_stack hm2 with ⟨rfl, rfl⟩ | ⟨hne, hm2⟩
      · obtain ⟨t1, t2, t3⟩ := v.stk _ _ hl
        refine ⟨List.nodup_cons.2 ⟨nostk _ _ hl, t1⟩, by simp only [List.length_cons]; omega, ?_⟩
        intro d hd
        simp only [List.mem_cons] at hd
        by_cases e : d = c
        · subst e; exact ⟨q', by rw [e3]; simp [hlt], hk1, hx.2.2.2⟩
        · exact keep d e (t3 d (hd.resolve_left e))
      · obtain ⟨t1, t2, t3⟩ := v.stk m l2 hm2
        exact ⟨t1, t2, fun d hd => keep d (fun e => nostk m l2 hm2 (e ▸ hd)) (t3 d hd)⟩

theorem Inv.recount {s : S} {m : Nat} (v : Inv s) : Inv (s.count m) := ⟨v.conn, v.pcs, v.new, v.nd, v.ok, v.stk⟩

theorem Step.inv {s s' : S} (hs : Step false s s') (v : Inv s) : Inv s' := by
  cases hs with
  | start n h =>
    refine ⟨?_, ?_, ?_, v.nd, v.ok, v.stk⟩
    · intro c q hc
      have := v.conn c q hc
      unfold CI at this ⊢
      cases hpl : q.place with
      | used j =>
        simp only [hpl] at this ⊢
        obtain ⟨p, h1, _⟩ := this.pc
        exact this.congr (by rw [List.getElem?_append, if_pos (List.getElem?_eq_some_iff.1 h1).1]) (fun _ => Iff.rfl)
      | _ => simpa only [hpl] using this
    · intro i p c hp hc
      rw [List.getElem?_append] at hp
      split at hp
      · exact v.pcs i p c hp hc
      · have : p = .get n 3 := by
          have h1 := (List.getElem?_eq_some_iff.1 hp).1
          simp at h1
          simpa [h1] using hp.symm
        rw [this] at hc
        cases hc
    · intro i hi
      obtain ⟨p, h1, h2⟩ := v.new i hi
      exact ⟨p, by rw [List.getElem?_append, if_pos (List.getElem?_eq_some_iff.1 h1).1]; exact h1, h2⟩
  | take i n k c l q hp hl hc hh => exact v.pop hp hl hc rfl rfl rfl rfl rfl ⟨rfl, rfl, rfl⟩ (.inl ⟨rfl, rfl⟩)
  | stale i n k c l q hp hl hc => exact v.pop hp hl hc rfl rfl rfl rfl rfl ⟨rfl, rfl, rfl⟩ (.inr ⟨rfl, _, rfl⟩)
  | create i n k hp hl =>
    have hli : i < s.pcs.length := (List.getElem?_eq_some_iff.1 hp).1
    have hni : i ∉ s.results.map Prod.fst := by
      intro h
      obtain ⟨p, h1, h2⟩ := v.new i h
      rw [hp] at h1
      cases h1
      exact h2 _ _ rfl
    have hold : ∀ (d : Nat), d ≠ s.conns.length → (s.add n i).conns[d]? = s.conns[d]? := by
      intro d hd
      simp only [S.add]
      rw [List.getElem?_append]
      split
      · rfl
      · rename_i h; rw [List.getElem?_eq_none (by simp only [List.length_singleton]; omega), List.getElem?_eq_none (by omega)]
    have hlast : ∀ (j : Nat) p2, s.pcs[j]? = some p2 → p2.conn ≠ some s.conns.length := by
      intro j p2 h1 h2
      obtain ⟨q2, h3, _⟩ := v.pcs j p2 _ h1 h2
      have := (List.getElem?_eq_some_iff.1 h3).1
      omega
    refine v.act (i := i) (c := s.conns.length) (q' := ⟨n, true, false, none, [], [], .used i⟩) ?_ (by simp [S.pc, S.count, S.add]) ?_ ?_ ?_ ?_ ?_ ?_ ?_
    · refine ⟨rfl, ?_, fun _ _ _ => Iff.rfl, ?_, fun d m l _ h1 h2 => ⟨l, h1, h2⟩, ?_⟩
      · intro j hj; simp only [S.pc, S.count, S.add]; rw [List.getElem?_set_ne (Ne.symm hj)]
      · intro d hd; exact hold d hd
      · intro p2 d h1 h2; rw [hp] at h1; cases h1; cases h2
    · simp only [CI]
      refine .inl ⟨by simp [S.pc, S.count, S.add, hli], rfl, rfl, hni⟩
    · intro j _ _ p2 h1; exact hlast j p2 h1
    · intro p2 d h1 h2
      simp [S.pc, S.count, S.add, hli] at h1
      subst h1
      cases h2
      exact ⟨rfl, rfl⟩
    · intro h; exact absurd h hni
    · exact v.nd
    · exact fun j hj => v.ok i j hj
    · intro m l hm
      obtain ⟨t1, t2, t3⟩ := v.stk m l hm
      refine ⟨t1, t2, fun d hd => ?_⟩
      obtain ⟨q, h1, h2⟩ := t3 d hd
      have := (List.getElem?_eq_some_iff.1 h1).1
      exact ⟨q, by rw [← h1]; exact hold d (by omega), h2⟩
  | fail i n k hp hl =>
    have hli : i < s.pcs.length := (List.getElem?_eq_some_iff.1 hp).1
    have hni : i ∉ s.results.map Prod.fst := by
      intro h
      obtain ⟨p, h1, h2⟩ := v.new i h
      rw [hp] at h1
      cases h1
      exact h2 _ _ rfl
    refine ⟨?_, ?_, ?_, List.nodup_cons.2 ⟨hni, v.nd⟩, ?_, v.stk⟩
    · intro c q hc
      have := v.conn c q hc
      unfold CI at this ⊢
      cases hpl : q.place with
      | used j =>
        simp only [hpl] at this ⊢
        obtain ⟨p, h1, h2⟩ := this.pc
        have hne : j ≠ i := by intro e; subst e; rw [hp] at h1; cases h1; cases h2
        exact this.congr (by simp only [S.pc, S.res]; rw [List.getElem?_set_ne (Ne.symm hne)]) (fun r => by simp [S.res, S.pc, hne])
      | pool => simp only [hpl] at this ⊢; exact this
      | gone => simp only [hpl] at this ⊢; exact this
    · intro j p c h1 h2
      simp only [S.pc, S.res] at h1
      rw [List.getElem?_set] at h1
      split at h1
      · cases h1; cases h2
      · exact v.pcs j p c h1 h2
    · intro j hj
      simp only [S.pc, S.res, List.map_cons, List.mem_cons] at hj ⊢
      by_cases e : j = i
      · subst e; exact ⟨.back, by simp [hli], by simp⟩
      · rw [List.getElem?_set_ne (Ne.symm e)]; exact v.new j (hj.resolve_left e)
    · intro a b hab
      simp only [S.pc, S.res, List.mem_cons, Prod.mk.injEq] at hab
      rcases hab with ⟨_, h⟩ | hab
      · cases h
      · exact v.ok a b hab
  | save i c q hp hc =>
    have hli : i < s.pcs.length := (List.getElem?_eq_some_iff.1 hp).1
    obtain ⟨q0, h0, hpl⟩ := v.pcs i _ c hp rfl
    rw [hc] at h0
    cases h0
    have hm := v.conn c q hc
    unfold CI at hm
    simp only [hpl] at hm
    refine v.mine hp rfl hc rfl rfl rfl hpl rfl rfl (.inl rfl) ?_
    rcases hm with ⟨_, h1, h2, h3⟩ | ⟨h, _⟩ | ⟨h, _⟩
    · exact .inr (.inl ⟨by simp [S.pc, S.conn, hli], h2, .inl ⟨rfl, h3⟩⟩)
    · rw [hp] at h; cases h
    · rw [hp] at h; cases h
  | refuse i c q hp hc hh =>
    have hli : i < s.pcs.length := (List.getElem?_eq_some_iff.1 hp).1
    obtain ⟨q0, h0, hpl⟩ := v.pcs i _ c hp rfl
    rw [hc] at h0
    cases h0
    have hm := v.conn c q hc
    unfold CI at hm
    simp only [hpl] at hm
    rcases hm with ⟨_, h1, h2, h3⟩ | ⟨h, _⟩ | ⟨h, _⟩
    · refine v.mine hp rfl hc rfl rfl (by exact (set_same hc).symm) hpl rfl rfl (.inr ⟨h3, .net, rfl, by simp⟩) ?_
      exact .inr (.inr ⟨by simp [S.pc, S.res, hli], .inl h2, .inr ⟨h1, .net, List.mem_cons_self, fun _ => h2⟩⟩)
    · rw [hp] at h; cases h
    · rw [hp] at h; cases h
  | send i c q b hp hc =>
    have hli : i < s.pcs.length := (List.getElem?_eq_some_iff.1 hp).1
    obtain ⟨q0, h0, hpl⟩ := v.pcs i _ c hp rfl
    rw [hc] at h0
    cases h0
    have hm := v.conn c q hc
    unfold CI at hm
    simp only [hpl] at hm
    refine v.mine hp rfl hc rfl rfl rfl hpl rfl rfl (.inl rfl) ?_
    rcases hm with ⟨h, _⟩ | ⟨_, h2, h3⟩ | ⟨h, _⟩
    · rw [hp] at h; cases h
    · have hsrv : (q.net (if b then q.srv ++ [i] else q.srv) q.rsp).srv ++ (q.net (if b then q.srv ++ [i] else q.srv) q.rsp).rsp = [] ∨ (q.net (if b then q.srv ++ [i] else q.srv) q.rsp).srv ++ (q.net (if b then q.srv ++ [i] else q.srv) q.rsp).rsp = [i] := by
        simp only [List.append_eq_nil_iff] at h2
        cases b <;> simp [Conn.net, h2.1, h2.2]
      refine .inr (.inr ⟨by simp [S.pc, S.conn, hli], hsrv, ?_⟩)
      rcases h3 with ⟨h3, h4⟩ | ⟨h3, r, h4, h5⟩
      · exact .inl ⟨h3, h4⟩
      · exact .inr ⟨h3, r, h4, fun h => by rw [h5] at h; cases h⟩
    · rw [hp] at h; cases h
  | oneway i c q b hp hc =>
    have hli : i < s.pcs.length := (List.getElem?_eq_some_iff.1 hp).1
    obtain ⟨q0, h0, hpl⟩ := v.pcs i _ c hp rfl
    rw [hc] at h0
    cases h0
    have hm := v.conn c q hc
    unfold CI at hm
    simp only [hpl] at hm
    rcases hm with ⟨_, h1, h2, h3⟩ | ⟨h, _⟩ | ⟨h, _⟩
    · refine v.mine hp rfl hc rfl rfl rfl hpl rfl rfl (.inr ⟨h3, .none, rfl, by simp⟩) ?_
      have hsrv : (q.net (if (b && false) = true then q.srv ++ [i] else q.srv) q.rsp).srv ++ (q.net (if (b && false) = true then q.srv ++ [i] else q.srv) q.rsp).rsp = [] := by simpa [Conn.net] using h2
      exact .inr (.inr ⟨by simp [S.pc, S.res, S.conn, hli], .inl hsrv, .inr ⟨h1, .none, List.mem_cons_self, fun _ => hsrv⟩⟩)
    · rw [hp] at h; cases h
    · rw [hp] at h; cases h
  | answer c j r q hc h =>
    refine v.still hc rfl rfl ?_
    have e : (q.net r (q.rsp ++ [j])).srv ++ (q.net r (q.rsp ++ [j])).rsp = [] ↔ q.srv ++ q.rsp = [] := by simp [Conn.net, h]
    have e' : ∀ i, q.srv ++ q.rsp = [i] → (q.net r (q.rsp ++ [j])).srv ++ (q.net r (q.rsp ++ [j])).rsp = [i] := by
      intro i hi
      rw [h] at hi
      simp only [List.cons_append, List.cons.injEq, List.append_eq_nil_iff] at hi
      simp [Conn.net, hi.1, hi.2.1, hi.2.2]
    have := v.conn c q hc
    unfold CI at this ⊢
    have hpl : (q.net r (q.rsp ++ [j])).place = q.place := rfl
    rw [hpl]
    cases hq : q.place with
    | pool => simp only [hq] at this ⊢; exact ⟨this.1, e.2 this.2.1, this.2.2⟩
    | gone => simp only [hq] at this ⊢; exact this
    | used i =>
      simp only [hq] at this ⊢
      rcases this with ⟨_, _, h2, _⟩ | ⟨_, h2, _⟩ | ⟨h1, h2, h3⟩
      · rw [h] at h2; simp at h2
      · rw [h] at h2; simp at h2
      · refine .inr (.inr ⟨h1, h2.imp e.2 (e' i), ?_⟩)
        rcases h3 with h3 | ⟨h3, r', h4, h5⟩
        · exact .inl h3
        · exact .inr ⟨h3, r', h4, fun h => e.2 (h5 h)⟩
  | receive c j i r q hc h hx =>
    obtain ⟨hp1, hp2, hp3⟩ := v.ctx hc hx
    have hb : q.srv = [] ∧ j = i ∧ r = [] ∧ s.pcs[i]? = some (.sent c) := by
      rcases hp2 with ⟨_, h1, _⟩ | ⟨_, h1, _⟩ | ⟨h0, h1, _⟩
      · rw [hx] at h1; cases h1
      · rw [h] at h1; simp at h1
      · rw [h] at h1
        rcases h1 with h1 | h1
        · simp at h1
        · cases hs : q.srv with
          | nil => rw [hs] at h1; simp at h1; exact ⟨rfl, h1.1, h1.2, h0⟩
          | cons a l => rw [hs] at h1; simp at h1
    refine v.result (q' := (q.net q.srv r).setCtx none) hc hx rfl rfl rfl rfl rfl rfl rfl (by intro k hk; cases hk; exact hb.2.1.symm) (.inl ?_) (fun p hp _ => ?_)
    · simp [Conn.net, Conn.setCtx, hb.1, hb.2.2.1]
    · rw [hb.2.2.2] at hp; cases hp; exact ⟨c, rfl⟩
  | drop c j r q hc h =>
    refine v.still hc rfl rfl ?_
    have := v.conn c q hc
    unfold CI at this ⊢
    have hpl : (q.net q.srv r).close.place = q.place := rfl
    rw [hpl]
    cases hq : q.place with
    | pool => simp only [hq] at this ⊢; have h2 := this.2.1; rw [h] at h2; simp at h2
    | gone => simp only [hq] at this ⊢; exact this
    | used i =>
      simp only [hq] at this ⊢
      rcases this with ⟨_, _, h2, _⟩ | ⟨_, h2, _⟩ | ⟨h1, h2, h3⟩
      · rw [h] at h2; simp at h2
      · rw [h] at h2; simp at h2
      · have e : (q.net q.srv r).close.srv ++ (q.net q.srv r).close.rsp = [] := by
          rw [h] at h2
          simp only [Conn.net, Conn.close]
          cases hs : q.srv with
          | nil => rw [hs] at h2; simp at h2; simp [h2.2]
          | cons a l => rw [hs] at h2; simp at h2
        refine .inr (.inr ⟨h1, .inl e, ?_⟩)
        rcases h3 with h3 | ⟨h3, r', h4, h5⟩
        · exact .inl h3
        · exact .inr ⟨h3, r', h4, fun _ => e⟩
  | timeout c i q hc hx => exact v.result (q' := q.setCtx none) hc hx rfl rfl rfl rfl rfl rfl rfl (by intro k hk; cases hk) (.inr ⟨rfl, rfl⟩) (fun _ _ h => by cases h)
  | ended c q hc =>
    refine v.still hc rfl rfl ?_
    exact v.conn c q hc
  | clear c i q hc hu hx => exact v.result (q' := q.setCtx none) hc hx rfl rfl rfl rfl rfl rfl rfl (by intro k hk; cases hk) (.inr ⟨rfl, rfl⟩) (fun _ _ h => by cases h)
  | back i c q r hp hc hr l hl =>
    have hp' : ∃ p, s.pcs[i]? = some p ∧ p.conn = some c := hp.elim (fun h => ⟨_, h, rfl⟩) (fun h => ⟨_, h, rfl⟩)
    obtain ⟨p, h1, h2⟩ := hp'
    by_cases hg : r.good = true ∧ l.length ≤ s.per ∧ s.num ≤ s.max
    · rw [if_pos hg]
      exact v.give h1 h2 hc hr rfl rfl rfl rfl ⟨rfl, rfl, rfl, rfl⟩ (.inr ⟨rfl, hg.1, l, hl, hg.2.1, rfl⟩)
    · rw [if_neg hg]
      generalize less s.num = m
      refine Inv.recount ?_
      exact v.give h1 h2 hc hr rfl rfl rfl rfl ⟨rfl, rfl, rfl, rfl⟩ (.inl ⟨rfl, rfl⟩)

theorem Reach.inv {max shards : Nat} {s : S} (h : Reach false max shards s) : Inv s := by
  induction h with
  | init =>
    refine ⟨by simp [S.init], by simp [S.init], by simp [S.init], by simp [S.init], by simp [S.init], ?_⟩
    intro n l hl
    have : l = [] := by
      simp only [S.init, List.getElem?_replicate] at hl
      split at hl
      · simpa using hl.symm
      · cases hl
    subst this
    simp
  | step h hs ih => exact hs.inv ih

end Verif.Transport.FiberPool
