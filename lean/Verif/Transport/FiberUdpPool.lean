import Verif.Common.Sum

/-!
# The UDP pool of the fiber transport

/repo/trpc/transport/client/fiber/conn_pool/fiber_udp_io_pool_connector.cc and fiber_udp_io_pool_connector_group.cc

* One entry of the pool (`udp_pool_[id]`): the queue of ids gives it to one call at a time. A connector that is closed after a call that failed is replaced by a new one (`back`), with a new socket: answers and timers that are left do not find a context there.
* A call is its number. Each datagram with a request is answered at most once, or lost; `dup`: the network may duplicate answers; `echo`: the server answers one-way requests.
* A timer is armed, or has fired: then its function runs, even if it is cancelled (`KillFiberTimer`) meanwhile.
-/

namespace Verif.Transport.FiberUdpPool

inductive Res where
  | ok (j : Nat)
  | timeout
deriving DecidableEq, Repr

inductive Pc where
  | have_
  | armed
  | saved
  | sent
deriving DecidableEq, Repr

structure S where
  /-- calls so far -/
  n : Nat
  user : Option (Nat × Pc)
  ctx : Option Nat
  srv : List Nat
  rsp : List Nat
  /-- timers on this connector; `true`: has fired -/
  tm : List (Nat × Bool)
  results : List (Nat × Res)
deriving DecidableEq, Repr

def S.init : S := ⟨0, none, none, [], [], [], []⟩

/-- `KillFiberTimer` -/
def S.kill (s : S) (i : Nat) : S := { s with tm := s.tm.filter (fun t => t ≠ (i, false)) }

/-- the call of the context is completed -/
def S.complete (s : S) (i : Nat) (r : Res) : S := { s.kill i with ctx := none, results := (i, r) :: s.results }

inductive Step (dup echo : Bool) : S → S → Prop
  | take {s : S} (h : s.user = none) : Step dup echo s { s with n := s.n + 1, user := some (s.n, .have_) }
  /-- `SaveCallContext` (.cc:166-184): the timer is enabled before the context is there -/
  | arm {s : S} (i : Nat) (h : s.user = some (i, .have_)) : Step dup echo s { s with user := some (i, .armed), tm := (i, false) :: s.tm }
  | save {s : S} (i : Nat) (h : s.user = some (i, .armed)) : Step dup echo s { s with user := some (i, .saved), ctx := some i }
  | send {s : S} (i : Nat) (h : s.user = some (i, .saved)) : Step dup echo s { s with user := some (i, .sent), srv := s.srv ++ [i] }
  /-- `SendOnly` (group .cc:110-122) -/
  | oneway {s : S} (i : Nat) (h : s.user = some (i, .have_)) : Step dup echo s { s with user := none, srv := if echo then s.srv ++ [i] else s.srv }
  | answer {s : S} (j : Nat) (r : List Nat) (b : Bool) (h : s.srv = j :: r) (hb : b = true → dup = true) : Step dup echo s { s with srv := if b then j :: r else r, rsp := s.rsp ++ [j] }
  | lose {s : S} (j : Nat) (r : List Nat) (h : s.srv = j :: r) : Step dup echo s { s with srv := r }
  /-- `MessageHandleFunction` (.cc:127-164) -/
  | receive {s : S} (j : Nat) (r : List Nat) (i : Nat) (h : s.rsp = j :: r) (hx : s.ctx = some i) : Step dup echo s (({ s with rsp := r } : S).complete i (.ok j))
  | nobody {s : S} (j : Nat) (r : List Nat) (h : s.rsp = j :: r) (hx : s.ctx = none) : Step dup echo s { s with rsp := r }
  | fire {s : S} (i : Nat) (h : (i, false) ∈ s.tm) : Step dup echo s { s with tm := (i, true) :: s.tm.filter (fun t => t ≠ (i, false)) }
  /-- `OnTimeout` (.cc:197-208): whatever context there is (`TryGetCallContext()`, not that of the id) -/
  | expire {s : S} (i k : Nat) (h : (i, true) ∈ s.tm) (hx : s.ctx = some k) : Step dup echo s (({ s with tm := s.tm.filter (fun t => t ≠ (i, true)) } : S).complete k .timeout)
  | expireNone {s : S} (i : Nat) (h : (i, true) ∈ s.tm) (hx : s.ctx = none) : Step dup echo s { s with tm := s.tm.filter (fun t => t ≠ (i, true)) }
  /-- `Reclaim` (group .cc:159-173) -/
  | back {s : S} (i : Nat) (r : Res) (h : s.user = some (i, .sent)) (hr : (i, r) ∈ s.results) :
      Step dup echo s (if r = .timeout then { s with user := none, ctx := none, srv := [], rsp := [], tm := [] } else { s with user := none })

inductive Reach (dup echo : Bool) : S → Prop
  | init : Reach dup echo .init
  | step {s s' : S} (h : Reach dup echo s) (hs : Step dup echo s s') : Reach dup echo s'

/-! ## Answers -/

/-- Where the call that has the connector is. -/
structure Inv (s : S) : Prop where
  nd : (s.results.map Prod.fst).Nodup
  ok : ∀ i j, (i, Res.ok j) ∈ s.results → i = j
  lt : ∀ i ∈ s.results.map Prod.fst, i < s.n
  free : s.user = none → s.ctx = none ∧ s.srv = [] ∧ s.rsp = []
  have_ : ∀ i, s.user = some (i, .have_) ∨ s.user = some (i, .armed) → s.ctx = none ∧ s.srv = [] ∧ s.rsp = [] ∧ i ∉ s.results.map Prod.fst ∧ i < s.n
  saved : ∀ i, s.user = some (i, .saved) → s.srv = [] ∧ s.rsp = [] ∧ i < s.n ∧ ((s.ctx = some i ∧ i ∉ s.results.map Prod.fst) ∨ (s.ctx = none ∧ (i, Res.timeout) ∈ s.results))
  sent : ∀ i, s.user = some (i, .sent) → (s.srv ++ s.rsp = [] ∨ s.srv ++ s.rsp = [i]) ∧ i < s.n ∧
    ((s.ctx = some i ∧ i ∉ s.results.map Prod.fst) ∨ (s.ctx = none ∧ ∃ r, (i, r) ∈ s.results ∧ (r ≠ .timeout → s.srv ++ s.rsp = [])))

theorem result_fun {l : List (Nat × Res)} (h : (l.map Prod.fst).Nodup) {i : Nat} {r r' : Res} (h1 : (i, r) ∈ l) (h2 : (i, r') ∈ l) : r = r' := by
  induction l with
  | nil => cases h1
  | cons x l ih =>
    simp only [List.map_cons, List.nodup_cons] at h
    simp only [List.mem_cons] at h1 h2
    rcases h1 with rfl | h1 <;> rcases h2 with h2 | h2
    · simpa using h2.symm
    · exact absurd (List.mem_map.2 ⟨_, h2, rfl⟩) h.1
    · subst h2; exact absurd (List.mem_map.2 ⟨_, h1, rfl⟩) h.1
    · exact ih h.2 h1 h2

/-- Whose context it is. -/
theorem Inv.own {s : S} (v : Inv s) {k : Nat} (hx : s.ctx = some k) : (s.user = some (k, .saved) ∧ s.srv = [] ∧ s.rsp = [] ∨ s.user = some (k, .sent) ∧ (s.srv ++ s.rsp = [] ∨ s.srv ++ s.rsp = [k])) ∧ k < s.n ∧ k ∉ s.results.map Prod.fst := by
  cases hu : s.user with
  | none => have := (v.free hu).1; rw [hx] at this; cases this
  | some u =>
    obtain ⟨i, p⟩ := u
    cases p with
    | have_ => have := (v.have_ i (.inl hu)).1; rw [hx] at this; cases this
    | armed => have := (v.have_ i (.inr hu)).1; rw [hx] at this; cases this
    | saved =>
      obtain ⟨h1, h2, h3, ⟨h4, h5⟩ | ⟨h4, _⟩⟩ := v.saved i hu
      · rw [hx] at h4; cases h4; exact ⟨.inl ⟨rfl, h1, h2⟩, h3, h5⟩
      · rw [hx] at h4; cases h4
    | sent =>
      obtain ⟨h1, h3, ⟨h4, h5⟩ | ⟨h4, _⟩⟩ := v.sent i hu
      · rw [hx] at h4; cases h4; exact ⟨.inr ⟨rfl, h1⟩, h3, h5⟩
      · rw [hx] at h4; cases h4

/-- The call of the context gets its result. -/
theorem Inv.complete {s s' : S} (v : Inv s) {k : Nat} {r : Res} (hx : s.ctx = some k) (h1 : s'.user = s.user) (h2 : s'.ctx = none) (h3 : s'.n = s.n) (h4 : s'.results = (k, r) :: s.results)
    (h5 : (s'.srv = s.srv ∧ s'.rsp = s.rsp ∧ r = .timeout) ∨ (s'.srv = [] ∧ s'.rsp = [] ∧ r = .ok k ∧ s.user = some (k, .sent))) : Inv s' := by
  obtain ⟨ho, hlt, hni⟩ := v.own hx
  refine ⟨?_, ?_, ?_, ?_, ?_, ?_, ?_⟩
  · rw [h4]; exact List.nodup_cons.2 ⟨hni, v.nd⟩
  · intro i j hij
    rw [h4] at hij
    simp only [List.mem_cons, Prod.mk.injEq] at hij
    rcases hij with ⟨rfl, hr⟩ | hij
    · rcases h5 with ⟨_, _, h⟩ | ⟨_, _, h, _⟩
      · rw [h] at hr; cases hr
      · rw [h] at hr; cases hr; rfl
    · exact v.ok i j hij
  · intro i hi
    rw [h4] at hi
    simp only [List.map_cons, List.mem_cons] at hi
    rw [h3]
    rcases hi with rfl | hi
    · exact hlt
    · exact v.lt i hi
  · intro hu; rw [h1] at hu; rcases ho with ⟨h, _⟩ | ⟨h, _⟩ <;> rw [hu] at h <;> cases h
  · intro i hu; rw [h1] at hu; rcases ho with ⟨h, _⟩ | ⟨h, _⟩ <;> rw [h] at hu <;> rcases hu with hu | hu <;> cases hu
  · intro i hu
    rw [h1] at hu
    rcases ho with ⟨h, ho⟩ | ⟨h, _⟩
    · rw [h] at hu
      cases hu
      rcases h5 with ⟨h6, h7, h8⟩ | ⟨_, _, _, h8⟩
      · exact ⟨h6.trans ho.1, h7.trans ho.2, by rw [h3]; exact hlt, .inr ⟨h2, by rw [h4, h8]; exact List.mem_cons_self⟩⟩
      · rw [h] at h8; cases h8
    · rw [h] at hu; cases hu
  · intro i hu
    rw [h1] at hu
    rcases ho with ⟨h, _⟩ | ⟨h, ho⟩
    · rw [h] at hu; cases hu
    · rw [h] at hu
      cases hu
      refine ⟨?_, by rw [h3]; exact hlt, .inr ⟨h2, r, by rw [h4]; exact List.mem_cons_self, ?_⟩⟩
      · rcases h5 with ⟨h6, h7, _⟩ | ⟨h6, h7, _⟩ <;> rw [h6, h7]
        · exact ho
        · exact .inl rfl
      · intro hr
        rcases h5 with ⟨_, _, h8⟩ | ⟨h6, h7, _⟩
        · exact absurd h8 hr
        · rw [h6, h7]; rfl

/-- What is under way gets less. -/
theorem Inv.net {s s' : S} (v : Inv s) (h1 : s'.user = s.user) (h2 : s'.ctx = s.ctx) (h3 : s'.n = s.n) (h4 : s'.results = s.results) (h5 : s'.srv ++ s'.rsp = s.srv ++ s.rsp ∨ s'.srv ++ s'.rsp = [] ) : Inv s' := by
  have e : s.srv = [] → s.rsp = [] → s'.srv = [] ∧ s'.rsp = [] := by
    intro a b
    rw [a, b] at h5
    have : s'.srv ++ s'.rsp = [] := h5.elim id id
    simpa using this
  refine ⟨by rw [h4]; exact v.nd, by rw [h4]; exact v.ok, by rw [h4, h3]; exact v.lt, ?_, ?_, ?_, ?_⟩
  · intro hu
    rw [h1] at hu
    obtain ⟨a, b, c⟩ := v.free hu
    exact ⟨h2.trans a, (e b c).1, (e b c).2⟩
  · intro i hu
    rw [h1] at hu
    obtain ⟨a, b, c, d, f⟩ := v.have_ i hu
    exact ⟨h2.trans a, (e b c).1, (e b c).2, by rw [h4]; exact d, by rw [h3]; exact f⟩
  · intro i hu
    rw [h1] at hu
    obtain ⟨b, c, d, f⟩ := v.saved i hu
    exact ⟨(e b c).1, (e b c).2, by rw [h3]; exact d, by rw [h2, h4]; exact f⟩
  · intro i hu
    rw [h1] at hu
    obtain ⟨b, d, f⟩ := v.sent i hu
    rw [h2, h3, h4]
    rcases h5 with h5 | h5
    · rw [h5]; exact ⟨b, d, f⟩
    · rw [h5]
      refine ⟨.inl rfl, d, f.imp id ?_⟩
      rintro ⟨f1, r, f2, f3⟩
      exact ⟨f1, r, f2, fun _ => rfl⟩

theorem Step.inv {s s' : S} (hs : Step false false s s') (v : Inv s) : Inv s' := by
  cases hs with
  | take h =>
    obtain ⟨a, b, c⟩ := v.free h
    refine ⟨v.nd, v.ok, fun i hi => Nat.lt_succ_of_lt (v.lt i hi), by simp, ?_, by simp, by simp⟩
    intro i hi
    simp only [Option.some.injEq, Prod.mk.injEq, and_true, reduceCtorEq, and_false, or_false] at hi
    subst hi
    exact ⟨a, b, c, fun h => absurd (v.lt _ h) (by omega), Nat.lt_succ_self _⟩
  | arm i h =>
    obtain ⟨a, b, c, d, e⟩ := v.have_ i (.inl h)
    refine ⟨v.nd, v.ok, v.lt, by simp, ?_, by simp, by simp⟩
    intro k hk
    simp only [Option.some.injEq, Prod.mk.injEq, and_true, reduceCtorEq, and_false, false_or] at hk
    subst hk
    exact ⟨a, b, c, d, e⟩
  | save i h =>
    obtain ⟨a, b, c, d, e⟩ := v.have_ i (.inr h)
    refine ⟨v.nd, v.ok, v.lt, by simp, by simp, ?_, by simp⟩
    intro k hk
    simp only [Option.some.injEq, Prod.mk.injEq, and_true] at hk
    subst hk
    exact ⟨b, c, e, .inl ⟨rfl, d⟩⟩
  | send i h =>
    obtain ⟨b, c, e, d⟩ := v.saved i h
    refine ⟨v.nd, v.ok, v.lt, by simp, by simp, by simp, ?_⟩
    intro k hk
    simp only [Option.some.injEq, Prod.mk.injEq, and_true] at hk
    subst hk
    refine ⟨.inr (by simp [b, c]), e, d.imp id ?_⟩
    rintro ⟨d1, d2⟩
    exact ⟨d1, _, d2, fun h => absurd rfl h⟩
  | oneway i h =>
    obtain ⟨a, b, c, d, e⟩ := v.have_ i (.inl h)
    exact ⟨v.nd, v.ok, v.lt, fun _ => ⟨a, b, c⟩, by simp, by simp, by simp⟩
  | answer j r b h hb =>
    have : b = false := by cases b <;> simp_all
    subst this
    by_cases hr : r = [] ∧ s.rsp = []
    · refine v.net rfl rfl rfl rfl (.inl ?_)
      simp [h, hr.1, hr.2]
    · exfalso
      have hne : s.srv ++ s.rsp ≠ [] ∧ ∀ i, s.srv ++ s.rsp ≠ [i] := by
        rw [h]
        refine ⟨by simp, fun i e => hr ?_⟩
        simp at e
        exact ⟨e.2.1, e.2.2⟩
      cases hu : s.user with
      | none => obtain ⟨_, b, c⟩ := v.free hu; rw [h] at b; cases b
      | some u =>
        obtain ⟨i, p⟩ := u
        cases p with
        | have_ => have b := (v.have_ i (.inl hu)).2.1; rw [h] at b; cases b
        | armed => have b := (v.have_ i (.inr hu)).2.1; rw [h] at b; cases b
        | saved => have b := (v.saved i hu).1; rw [h] at b; cases b
        | sent => exact (v.sent i hu).1.elim hne.1 (hne.2 i)
  | lose j r h =>
    by_cases hr : r = [] ∧ s.rsp = []
    · exact v.net rfl rfl rfl rfl (.inr (by simp [hr.1, hr.2]))
    · exfalso
      have hne : s.srv ++ s.rsp ≠ [] ∧ ∀ i, s.srv ++ s.rsp ≠ [i] := by
        rw [h]
        refine ⟨by simp, fun i e => hr ?_⟩
        simp at e
        exact ⟨e.2.1, e.2.2⟩
      cases hu : s.user with
      | none => obtain ⟨_, b, c⟩ := v.free hu; rw [h] at b; cases b
      | some u =>
        obtain ⟨i, p⟩ := u
        cases p with
        | have_ => have b := (v.have_ i (.inl hu)).2.1; rw [h] at b; cases b
        | armed => have b := (v.have_ i (.inr hu)).2.1; rw [h] at b; cases b
        | saved => have b := (v.saved i hu).1; rw [h] at b; cases b
        | sent => exact (v.sent i hu).1.elim hne.1 (hne.2 i)
  | receive j r i h hx =>
    obtain ⟨ho, _, _⟩ := v.own hx
    rcases ho with ⟨_, _, h1⟩ | ⟨hu, h1⟩
    · rw [h] at h1; cases h1
    · have hb : s.srv = [] ∧ j = i ∧ r = [] := by
        rw [h] at h1
        rcases h1 with h1 | h1
        · simp at h1
        · cases hs : s.srv with
          | nil => rw [hs] at h1; simp at h1; exact ⟨rfl, h1.1, h1.2⟩
          | cons a l => rw [hs] at h1; simp at h1
      obtain ⟨h2, rfl, rfl⟩ := hb
      exact v.complete hx rfl rfl rfl rfl (.inr ⟨h2, rfl, rfl, hu⟩)
  | nobody j r h hx =>
    have : s.srv ++ s.rsp = [] ∨ ∃ i, s.srv ++ s.rsp = [i] := by
      cases hu : s.user with
      | none => obtain ⟨_, b, c⟩ := v.free hu; exact .inl (by simp [b, c])
      | some u =>
        obtain ⟨i, p⟩ := u
        cases p with
        | have_ => obtain ⟨_, b, c, _⟩ := v.have_ i (.inl hu); exact .inl (by simp [b, c])
        | armed => obtain ⟨_, b, c, _⟩ := v.have_ i (.inr hu); exact .inl (by simp [b, c])
        | saved => obtain ⟨b, c, _⟩ := v.saved i hu; exact .inl (by simp [b, c])
        | sent => exact (v.sent i hu).1.imp id (fun h => ⟨i, h⟩)
    refine v.net rfl rfl rfl rfl (.inr ?_)
    rw [h] at this
    rcases this with this | ⟨i, this⟩
    · simp at this
    · cases hs : s.srv with
      | nil => rw [hs] at this; simp at this; simp [this.2]
      | cons a l => rw [hs] at this; simp at this
  | fire i h => exact v.net rfl rfl rfl rfl (.inl rfl)
  | expire i k h hx => exact v.complete hx rfl rfl rfl rfl (.inl ⟨rfl, rfl, rfl⟩)
  | expireNone i h hx => exact v.net rfl rfl rfl rfl (.inl rfl)
  | back i r h hr =>
    obtain ⟨a, b, c⟩ := v.sent i h
    by_cases e : r = .timeout
    · rw [if_pos e]
      exact ⟨v.nd, v.ok, v.lt, by simp, by simp, by simp, by simp⟩
    · rw [if_neg e]
      refine ⟨v.nd, v.ok, v.lt, fun _ => ?_, by simp, by simp, by simp⟩
      rcases c with ⟨_, c⟩ | ⟨c1, r', c2, c3⟩
      · exact absurd (List.mem_map.2 ⟨_, hr, rfl⟩) c
      · have hr' := result_fun v.nd hr c2
        have := c3 (hr' ▸ e)
        exact ⟨c1, by simpa using this⟩

theorem Reach.inv {s : S} (h : Reach false false s) : Inv s := by
  induction h with
  | init => constructor <;> simp [S.init]
  | step _ hs ih => exact hs.inv ih

/-- **C128.** If the network does not duplicate answers and one-way requests are not answered, a caller that gets an answer gets the one to their own request. -/
theorem C128_own {s : S} (h : Reach false false s) {i j : Nat} (hr : (i, Res.ok j) ∈ s.results) : i = j := h.inv.ok i j hr

/-- **C128.** No call completes twice. -/
theorem C128_once {s : S} (h : Reach false false s) : (s.results.map Prod.fst).Nodup := h.inv.nd

/-- **C128.** Between two calls nobody waits on the connector, and no answer is to come. -/
theorem C128_clean {s : S} (h : Reach false false s) (hu : s.user = none) : s.ctx = none ∧ s.srv = [] ∧ s.rsp = [] := h.inv.free hu

/-- A call is answered; its timer may have fired. -/
theorem reach_fired (dup echo : Bool) : Reach dup echo ⟨1, none, none, [], [], [(0, true)], [(0, .ok 0)]⟩ := by
  have h : Reach dup echo _ := .step .init (.take rfl)
  have h := h.step (.arm 0 rfl)
  have h := h.step (.save 0 rfl)
  have h := h.step (.send 0 rfl)
  have h := h.step (.answer 0 [] false rfl (by simp))
  have h := h.step (.fire 0 (by simp [S.init]))
  have h := h.step (.receive 0 [] 0 rfl rfl)
  have h := h.step (.back 0 (.ok 0) rfl (by simp [S.complete]))
  exact h

/-- Not vacuous: two calls are answered, one after the other. -/
example : ∃ s, Reach false false s ∧ s.results = [(1, .ok 1), (0, .ok 0)] := by
  have h := reach_fired false false
  have h := h.step (.expireNone 0 (by simp) rfl)
  have h := h.step (.take rfl)
  have h := h.step (.arm 1 rfl)
  have h := h.step (.save 1 rfl)
  have h := h.step (.send 1 rfl)
  have h := h.step (.answer 1 [] false rfl (by simp))
  have h := h.step (.receive 1 [] 1 rfl rfl)
  exact ⟨_, h, rfl⟩

/-- **C129.** The timer of an earlier call ends the call that has the connector now, whose own timer has not fired. -/
theorem C129_timer_partial : ∃ s s', Reach false false s ∧ Step false false s s' ∧ (0, Res.ok 0) ∈ s.results ∧ (1, false) ∈ s.tm ∧ (1, true) ∉ s.tm ∧ (1, Res.timeout) ∈ s'.results ∧ (1, Res.timeout) ∉ s.results := by
  have h := reach_fired false false
  have h := h.step (.take rfl)
  have h := h.step (.arm 1 rfl)
  have h := h.step (.save 1 rfl)
  have h := h.step (.send 1 rfl)
  refine ⟨_, _, h, .expire 0 1 (by simp) rfl, by simp, by simp, by simp, List.mem_cons_self, by simp⟩

/-- **C129.** A timer that fires before the context is saved is lost: the call waits for ever if its datagram is. -/
theorem C129_forever_partial : ∃ s, Reach false false s ∧ s.user = some (0, .sent) ∧ s.results = [] ∧ ∀ s', ¬ Step false false s s' := by
  have h : Reach false false _ := .step .init (.take rfl)
  have h := h.step (.arm 0 rfl)
  have h := h.step (.fire 0 (by simp [S.init]))
  have h := h.step (.expireNone 0 (by simp [S.init]) rfl)
  have h := h.step (.save 0 rfl)
  have h := h.step (.send 0 rfl)
  have h := h.step (.lose 0 [] rfl)
  refine ⟨_, h, rfl, rfl, ?_⟩
  intro s' hs
  cases hs <;> simp_all [S.init]

/-- **C129.** An answer that the network duplicates goes to the next caller. -/
theorem C129_dup_partial : ∃ s, Reach true false s ∧ (1, Res.ok 0) ∈ s.results := by
  have h : Reach true false _ := .step .init (.take rfl)
  have h := h.step (.arm 0 rfl)
  have h := h.step (.save 0 rfl)
  have h := h.step (.send 0 rfl)
  have h := h.step (.answer 0 [] true rfl (by simp))
  have h := h.step (.receive 0 [] 0 rfl rfl)
  have h := h.step (.back 0 (.ok 0) rfl (by simp [S.complete]))
  have h := h.step (.take rfl)
  have h := h.step (.arm 1 rfl)
  have h := h.step (.save 1 rfl)
  have h := h.step (.answer 0 [] false rfl (by simp))
  have h := h.step (.receive 0 [] 1 rfl rfl)
  exact ⟨_, h, List.mem_cons_self⟩

end Verif.Transport.FiberUdpPool
